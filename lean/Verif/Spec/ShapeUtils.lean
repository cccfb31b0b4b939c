import Mathlib.Data.List.Forall2

/-! The order of shapes by broadcasting. -/

namespace Spec

/-- A tensor of the first shape can be broadcast to the second one: leading dimensions are added, and dimensions of one are stretched. -/
def BroadcastsTo (s t : List Nat) : Prop := ∃ pre rest, t = pre ++ rest ∧ List.Forall₂ (fun a b => a = b ∨ a = 1) s rest

/-- The least shape to which all shapes can be broadcast. -/
def IsCommonShape (shapes : List (List Nat)) (r : List Nat) : Prop :=
  (∀ s ∈ shapes, BroadcastsTo s r) ∧ ∀ t, (∀ s ∈ shapes, BroadcastsTo s t) → BroadcastsTo r t

/-- `out` repeats the entries of `x`, a tensor of shape `shape`: leading indices are ignored, and so are those into dimensions of one. -/
def Repeats {K : Type} (shape : List Nat) (x out : List Nat → K) : Prop :=
  ∀ pre idx, idx.length = shape.length → out (pre ++ idx) = x (List.zipWith (fun d i => if d = 1 then 0 else i) shape idx)

end Spec
