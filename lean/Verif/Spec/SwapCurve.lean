import Mathlib.Data.Real.Basic
import Mathlib.Algebra.BigOperators.Group.List.Basic

/-!
# Value of a swap given the discount function of the floating rate and those of the legs
-/

namespace Spec

/-- Each floating payment is the growth factor of its period minus one, paid at the end of the period. -/
noncomputable def floatLegValue (P D : ℝ → ℝ) (starts ends : List ℝ) : ℝ :=
  (List.zipWith (fun (s e : ℝ) => (P s / P e - 1) * D e) starts ends).sum

/-- Each fixed payment is a rate times a daycount fraction. -/
noncomputable def fixedLegValue (D : ℝ → ℝ) (daycounts rates ends : List ℝ) : ℝ :=
  (List.zipWith (fun (c t : ℝ) => c * D t) (List.zipWith (fun (a c : ℝ) => a * c) daycounts rates) ends).sum

end Spec
