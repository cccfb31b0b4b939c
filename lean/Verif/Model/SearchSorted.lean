import Mathlib.Order.Defs.LinearOrder

/-! `tf.searchsorted` for one sorted row and one query. -/

namespace Model

variable {K : Type} [LinearOrder K]

/-- `tf.searchsorted(xs, x, side='left')` for sorted `xs`: number of leading entries that are `< x`. -/
def searchLeft (xs : List K) (x : K) : Nat := (xs.takeWhile (fun a => decide (a < x))).length

/-- `tf.searchsorted(xs, x, side='right')` for sorted `xs`: number of leading entries that are `≤ x`. -/
def searchRight (xs : List K) (x : K) : Nat := (xs.takeWhile (fun a => decide (a ≤ x))).length

end Model
