/-!
# Model of `tf_quant_finance/utils/tf_functions.py`

A dictionary is the list of its items in the order of insertion. A dataclass is the dictionary of its fields, as `dataclasses.asdict` returns it; the copies of the leaves that
`asdict` makes are not told from the leaves. Anything else is a leaf.
-/

namespace Model

mutual
inductive NestedVal (V : Type)
  | leaf (v : V)
  | dict (items : NestedItems V)
inductive NestedItems (V : Type)
  | nil
  | cons (key : String) (value : NestedVal V) (rest : NestedItems V)
end

mutual
/-- The branches of the loop in `iterate_nested`, L67-72, and `_is_nested`, L75-77. -/
def iterateValue {V : Type} : NestedVal V → List String → List (List String × V)
  | .leaf v, keys => [(keys, v)]
  | .dict items, keys => iterateItems items keys
/-- `iterate_nested`, L35-72; `keys` are the previous keys. -/
def iterateItems {V : Type} : NestedItems V → List String → List (List String × V)
  | .nil, _ => []
  | .cons k v rest, keys => iterateValue v (keys ++ [k]) ++ iterateItems rest keys
end

/-- `iterate_nested` with its default, L63-64. -/
def iterateNested {V : Type} (nd : NestedItems V) (previous : Option (List String)) : List (List String × V) := iterateItems nd (previous.getD [])

end Model
