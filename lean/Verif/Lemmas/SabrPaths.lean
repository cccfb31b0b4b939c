import Verif.Model.SabrPaths
import Verif.Spec.SabrPaths
import Verif.Props.Heston
import Mathlib.Analysis.SpecialFunctions.Exponential
import Mathlib.Topology.Algebra.InfiniteSum.Order
import Mathlib.MeasureTheory.Integral.IntegralEqImproper

/-! Lemmas on the sampler of the SABR model. -/

namespace Lemmas
open Model Spec MeasureTheory ProbabilityTheory

theorem igamma_chiSquare (k x : ℝ) : igamma (k / 2) (x / 2) = chiSquareCdf k x := rfl

theorem igamma_bounds (s x : ℝ) (hs : 0 < s) (hx : 0 ≤ x) : 0 ≤ igamma s x ∧ igamma s x ≤ 1 := by
  have hG := Real.Gamma_pos_of_pos hs
  have hI : IntegrableOn (fun t : ℝ => t ^ (s - 1) * Real.exp (-t)) (Set.Ioi 0) := by
    refine (Real.GammaIntegral_convergent hs).congr_fun (fun t _ => ?_) measurableSet_Ioi
    beta_reduce; ring
  have h0 : ∀ t ∈ Set.Ioi (0 : ℝ), 0 ≤ t ^ (s - 1) * Real.exp (-t) := fun t ht =>
    mul_nonneg (Real.rpow_nonneg (le_of_lt ht) _) (Real.exp_pos _).le
  have hGe : Real.Gamma s = ∫ t in Set.Ioi (0 : ℝ), t ^ (s - 1) * Real.exp (-t) := by
    rw [Real.Gamma_eq_integral hs]
    refine setIntegral_congr_fun measurableSet_Ioi fun t _ => ?_
    beta_reduce; ring
  unfold igamma
  rw [intervalIntegral.integral_of_le hx]
  constructor
  · refine div_nonneg (setIntegral_nonneg measurableSet_Ioc fun t ht => h0 t ht.1) hG.le
  · rw [div_le_one hG, hGe]
    refine setIntegral_mono_set hI ?_ (Filter.Eventually.of_forall fun t ht => ht.1)
    exact (ae_restrict_iff' measurableSet_Ioi).2 (Filter.Eventually.of_forall h0)

theorem ncx2Terms_fst (x k l : ℝ) (n : Nat) : (ncx2Terms x k l n).1 = n.factorial := by
  induction n with
  | zero => simp [ncx2Terms]
  | succ n ih => simp only [ncx2Terms, ih, Nat.factorial_succ]; push_cast; ring

theorem ncx2Terms_sum (x k l : ℝ) (n : Nat) :
    (ncx2Terms x k l n).2.1 = ∑ j ∈ Finset.range (n + 1), chiSquareCdf (k + 2 * j) x * ((l / 2) ^ j / j.factorial) := by
  induction n with
  | zero =>
    simp only [ncx2Terms, igammac, ← igamma_chiSquare]
    simp
  | succ n ih =>
    rw [Finset.sum_range_succ, ← ih]
    simp only [ncx2Terms, ncx2Terms_fst, igammac, ← igamma_chiSquare]
    rw [show ((n + 1).factorial : ℝ) = (n.factorial : ℝ) * ((n + 1 : Nat) : ℝ) by rw [Nat.factorial_succ]; push_cast; ring,
      show l * 0.5 = l / 2 by norm_num; ring]
    ring

theorem ncx2Terms_hasDerivAt (x k l : ℝ) (n : Nat) : HasDerivAt (fun l => (ncx2Terms x k l n).2.1) (ncx2Terms x k l n).2.2 l := by
  induction n with
  | zero => simpa [ncx2Terms] using hasDerivAt_const l _
  | succ n ih =>
    have h1 : HasDerivAt (fun l : ℝ => l * 0.5) 0.5 l := by simpa using (hasDerivAt_id l).mul_const (0.5 : ℝ)
    have h2 := (h1.pow (n + 1)).const_mul
      ((1 - igammac ((k + 2 * ((n + 1 : Nat) : ℝ)) / 2) (x / 2)) / ((n.factorial : ℝ) * ((n + 1 : Nat) : ℝ)))
    have h3 := ih.add h2
    simp only [ncx2Terms, ncx2Terms_fst]
    refine h3.congr_deriv ?_
    simp only [Nat.add_sub_cancel]
    ring

end Lemmas
