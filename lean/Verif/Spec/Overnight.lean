import Mathlib.Algebra.BigOperators.Group.Finset.Basic
import Mathlib.Algebra.Field.Defs
import Verif.Spec.Calendar

/-!
# Specification: settlement rates of futures on overnight rates

Days are day numbers; the reference period consists of the days `a, a + 1, …, a + n`, and `B` are the business days.
-/

namespace Spec
variable {K : Type} [Field K]

/-- The overnight rate of the business day `x` accrues up to `y`: the next business day, or the end of the reference period. -/
def AccruesTo (B : Int → Prop) (last x y : Int) : Prop :=
  x < y ∧ (B y ∨ y = last + 1) ∧ ∀ z, x < z → z < y → ¬ B z ∧ z ≠ last + 1

open Classical in
/-- The settlement rate by compounding the overnight rates `r` over the business days; `τ x` is the length of the accrual period
of day `x`. -/
noncomputable def compoundedRate (B : Int → Prop) (a : Int) (n : Nat) (r τ : Int → K) : K :=
  ((∏ i ∈ Finset.range (n + 1), if B (a + i) then 1 + r (a + i) * τ (a + i) else 1) - 1) /
    ∑ i ∈ Finset.range (n + 1), if B (a + i) then τ (a + i) else 0

open Classical in
/-- The settlement rate as the average of the overnight rates `r`, weighted by the accrual periods. -/
noncomputable def averageRate (B : Int → Prop) (a : Int) (n : Nat) (r τ : Int → K) : K :=
  (∑ i ∈ Finset.range (n + 1), if B (a + i) then r (a + i) * τ (a + i) else 0) /
    ∑ i ∈ Finset.range (n + 1), if B (a + i) then τ (a + i) else 0

end Spec
