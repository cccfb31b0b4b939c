import Mathlib.Algebra.BigOperators.Group.Finset.Basic
import Mathlib.Algebra.Field.Defs
import Mathlib.Order.Lattice

/-! What the holder of a Bermudan swaption may do. -/

namespace Spec
open scoped BigOperators

/-- The value of a swap for the payer of the fixed leg: a floating leg worth one minus the last bond, against `m` coupons `accrual p`. -/
def payerSwapValue {K : Type} [Field K] (m : Nat) (accrual bond : Nat → K) : K := 1 - bond (m - 1) - ∑ p ∈ Finset.range m, accrual p * bond p

/-- What exercising at `t` pays: the value of the swap if it is positive, on one of the `n` exercise times of the swaption, and nothing at any
other time. -/
def OwnPayoff {K : Type} [Zero K] [Max K] (n : Nat) (times value : Nat → K) (t payoff : K) : Prop :=
  (∃ e, e < n ∧ times e = t ∧ payoff = max (value e) 0) ∨ ((∀ e, e < n → times e ≠ t) ∧ payoff = 0)

end Spec
