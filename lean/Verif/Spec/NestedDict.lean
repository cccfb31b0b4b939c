import Verif.Model.NestedDict

/-! Access to nested dictionaries by paths of keys. -/

namespace Spec
open Model

mutual
/-- The leaf at a path. -/
def leafAt {V : Type} : NestedVal V → List String → Option V
  | .leaf v, [] => some v
  | .leaf _, _ :: _ => none
  | .dict _, [] => none
  | .dict items, k :: path => leafIn items k path
/-- The leaf at a path that starts with the key `k`. -/
def leafIn {V : Type} : NestedItems V → String → List String → Option V
  | .nil, _, _ => none
  | .cons k' v rest, k, path => if k' = k then leafAt v path else leafIn rest k path
end

/-- The keys of a dictionary. -/
def keysOf {V : Type} : NestedItems V → List String
  | .nil => []
  | .cons k _ rest => k :: keysOf rest

mutual
/-- No dictionary has a key twice. -/
def UniqueKeys {V : Type} : NestedVal V → Prop
  | .leaf _ => True
  | .dict items => UniqueItems items
def UniqueItems {V : Type} : NestedItems V → Prop
  | .nil => True
  | .cons k v rest => k ∉ keysOf rest ∧ UniqueKeys v ∧ UniqueItems rest
end

mutual
/-- The path as the positions of its keys. -/
def positionAt {V : Type} : NestedVal V → List String → List Nat
  | .leaf _, _ => []
  | .dict _, [] => []
  | .dict items, k :: path => positionIn items k path 0
def positionIn {V : Type} : NestedItems V → String → List String → Nat → List Nat
  | .nil, _, _, _ => []
  | .cons k' v rest, k, path, n => if k' = k then n :: positionAt v path else positionIn rest k path (n + 1)
end

end Spec
