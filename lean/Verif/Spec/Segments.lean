/-! Segments of a vector given by segment ids. -/

namespace Spec

/-- Positions `j ≤ i` belong to the same segment: the segment id does not change from `j` to `i`. -/
def SameSegment (ids : List Int) (j i : Nat) : Prop :=
  ∀ k, j ≤ k → k ≤ i → ids[k]? = ids[i]?

/-- The same with optional ids: without ids everything is one segment. -/
def SameGroup (groups : Option (List Int)) (j i : Nat) : Prop :=
  ∀ ids, groups = some ids → SameSegment ids j i

end Spec
