import Verif.Spec.Dupire
import Verif.Lemmas.Normal
import Mathlib.Analysis.SpecialFunctions.Log.Deriv
import Mathlib.Analysis.SpecialFunctions.Sqrt

/-! Derivatives of Black's formula along curves, and the equation of Dupire. -/

namespace Lemmas
open Model Spec Filter Topology

/-- `d1` of Black's formula. -/
noncomputable def blackD1 (f k w : ℝ) : ℝ := Real.log (f / k) / w + w / 2

/-- The undiscounted call price of Black's formula. -/
noncomputable def dupireCall (f k w : ℝ) : ℝ := f * normalCdf (blackD1 f k w) - k * normalCdf (blackD1 f k w - w)

theorem forward_mul_phi (f k w : ℝ) (hf : 0 < f) (hk : 0 < k) (hw : 0 < w) :
    f * phi (blackD1 f k w) = k * phi (blackD1 f k w - w) := by
  rw [← exp_mul_phi w (blackD1 f k w)]
  have : w * blackD1 f k w - w ^ 2 / 2 = Real.log (f / k) := by
    unfold blackD1; field_simp; ring
  rw [this, Real.exp_log (by positivity)]
  field_simp

theorem blackD1_hasDerivAt {F κ w : ℝ → ℝ} {F' κ' w' s : ℝ} (hF : HasDerivAt F F' s) (hκ : HasDerivAt κ κ' s) (hw : HasDerivAt w w' s)
    (pF : 0 < F s) (pκ : 0 < κ s) (pw : 0 < w s) :
    HasDerivAt (fun s => blackD1 (F s) (κ s) (w s)) ((F' / F s - κ' / κ s) / w s - (blackD1 (F s) (κ s) (w s) - w s) * w' / w s) s := by
  have h1 := (hF.div hκ pκ.ne').log (by simp only [Pi.div_apply]; positivity)
  have h2 := (h1.div hw pw.ne').add (hw.div_const 2)
  refine h2.congr_deriv ?_
  simp only [Pi.div_apply]
  unfold blackD1
  have := pF.ne'
  have := pκ.ne'
  have := pw.ne'
  field_simp
  ring

theorem dupireCall_hasDerivAt {F κ w : ℝ → ℝ} {F' κ' w' s : ℝ} (hF : HasDerivAt F F' s) (hκ : HasDerivAt κ κ' s) (hw : HasDerivAt w w' s)
    (pF : 0 < F s) (pκ : 0 < κ s) (pw : 0 < w s) :
    HasDerivAt (fun s => dupireCall (F s) (κ s) (w s)) (F' * normalCdf (blackD1 (F s) (κ s) (w s)) -
      κ' * normalCdf (blackD1 (F s) (κ s) (w s) - w s) + κ s * phi (blackD1 (F s) (κ s) (w s) - w s) * w') s := by
  have h := blackD1_hasDerivAt hF hκ hw pF pκ pw
  have h1 := (normalCdf_hasDerivAt _).comp s h
  have h2 := (normalCdf_hasDerivAt _).comp s (h.sub hw)
  have h3 := (hF.mul h1).sub (hκ.mul h2)
  refine h3.congr_deriv ?_
  simp only [Function.comp, Pi.sub_apply]
  have e := forward_mul_phi (F s) (κ s) (w s) pF pκ pw
  linear_combination ((F' / F s - κ' / κ s) / w s - (blackD1 (F s) (κ s) (w s) - w s) * w' / w s) * e

/-- First strike derivative, and its derivative. -/
theorem dupireCall_strike {w w1 : ℝ → ℝ} {f k w2 : ℝ} (hw : HasDerivAt w (w1 k) k) (hw1 : HasDerivAt w1 w2 k)
    (pf : 0 < f) (pk : 0 < k) (pw : 0 < w k) :
    HasDerivAt (fun y => y * phi (blackD1 f y (w y) - w y) * w1 y - normalCdf (blackD1 f y (w y) - w y))
      (phi (blackD1 f k (w k) - w k) / (k * w k) *
        ((1 + k * blackD1 f k (w k) * w1 k) ^ 2 + k ^ 2 * w k * (w2 - blackD1 f k (w k) * w1 k ^ 2))) k := by
  have h := (blackD1_hasDerivAt (hasDerivAt_const k f) (hasDerivAt_id k) hw pf pk pw).sub hw
  have h1 := (phi_hasDerivAt _).comp k h
  have h2 := (normalCdf_hasDerivAt _).comp k h
  have h3 := (((hasDerivAt_id k).mul h1).mul hw1).sub h2
  refine h3.congr_deriv ?_
  simp only [Function.comp, Pi.sub_apply, Pi.mul_apply, id]
  have := pk.ne'
  have := pw.ne'
  field_simp
  ring

end Lemmas
