import Mathlib.Analysis.SpecialFunctions.Complex.Log
import Mathlib.Analysis.SpecialFunctions.Pow.Complex
import Mathlib.Analysis.Complex.ExponentialBounds
import Mathlib.Analysis.Real.Pi.Bounds

/-! The logarithm in the characteristic function of the model of Heston never meets the branch cut. -/

namespace HestonTrap

open Complex

/-- If one factor and the other one have positive real part then the product is no number `≤ 0`. -/
theorem mul_mem_slitPlane {z w : ℂ} (hz : 0 < z.re) (hw : 0 < w.re) : z * w ∈ slitPlane := by
  rw [mem_slitPlane_iff]
  by_contra hc
  push Not at hc
  obtain ⟨h1, h2⟩ := hc
  rw [mul_re] at h1
  rw [mul_im] at h2
  have : w.re * (z.re ^ 2 + z.im ^ 2) = z.re * (z.re * w.re - z.im * w.im) + z.im * (z.re * w.im + z.im * w.re) := by ring
  rw [h2, mul_zero, add_zero] at this
  have h3 : z.re * (z.re * w.re - z.im * w.im) ≤ 0 := mul_nonpos_of_nonneg_of_nonpos hz.le h1
  have h4 : 0 < w.re * (z.re ^ 2 + z.im ^ 2) := by positivity
  linarith

theorem exp_neg_pi_lt : Real.exp (-Real.pi) < 1 / 10 := by
  have h1 : Real.exp (-Real.pi) ≤ Real.exp (-3) := Real.exp_le_exp.mpr (by linarith [Real.pi_gt_three])
  have h2 : (10 : ℝ) < Real.exp 3 := by
    have h3 : Real.exp 3 = Real.exp 1 ^ 3 := by rw [← Real.exp_nat_mul]; norm_num
    have h4 := Real.exp_one_gt_d9
    rw [h3]
    have : (2.7 : ℝ) ^ 3 < Real.exp 1 ^ 3 := pow_lt_pow_left₀ (by linarith) (by norm_num) (by norm_num)
    norm_num at this ⊢
    linarith
  rw [Real.exp_neg 3] at h1
  have h5 : (Real.exp 3)⁻¹ < (10 : ℝ)⁻¹ := inv_strictAnti₀ (by norm_num) h2
  norm_num at h5 ⊢
  linarith

/-- The case where the quotient has negative real part, the imaginary part of the root being positive. -/
theorem core {x y r φ : ℝ} (hx : x < 0) (hxy : -x < y) (hr0 : 0 < r) (hr1 : r < 1) (hφ : 0 ≤ φ) (hr : r ≤ Real.exp (-φ)) :
    0 < 1 + r * Real.cos φ + x * (1 - r * Real.cos φ) - y * (-r * Real.sin φ) ∨
      -r * Real.sin φ * (1 - x) - y * (1 - r * Real.cos φ) ≠ 0 := by
  have hy : 0 < y := by linarith
  have hc := Real.cos_le_one φ
  have hc' := Real.neg_one_le_cos φ
  have hs := Real.sin_le_one φ
  have hs' := Real.neg_one_le_sin φ
  have hp1 : r * Real.cos φ ≤ r := by nlinarith
  have hp2 : -r ≤ r * Real.cos φ := by nlinarith
  have hq1 : r * Real.sin φ ≤ r := by nlinarith
  have hq2 : -r ≤ r * Real.sin φ := by nlinarith
  rcases le_total φ Real.pi with h | h
  · refine Or.inr (ne_of_lt ?_)
    have h1 : 0 ≤ r * Real.sin φ * (1 - x) := mul_nonneg (mul_nonneg hr0.le (Real.sin_nonneg_of_nonneg_of_le_pi hφ h)) (by linarith)
    have h2 : 0 < y * (1 - r * Real.cos φ) := mul_pos hy (by linarith)
    linarith
  · have h10 : r < 1 / 10 := lt_of_le_of_lt (hr.trans (Real.exp_le_exp.mpr (by linarith))) exp_neg_pi_lt
    by_cases him : -r * Real.sin φ * (1 - x) - y * (1 - r * Real.cos φ) = 0
    swap
    · exact Or.inr him
    left
    generalize r * Real.cos φ = p at *
    have hq : -r * Real.sin φ = -(r * Real.sin φ) := by ring
    rw [hq] at him ⊢
    generalize r * Real.sin φ = q at *
    have h1 : y * (9 / 10) ≤ y * (1 - p) := mul_le_mul_of_nonneg_left (by linarith) hy.le
    have h2 : -q * (1 - x) ≤ 1 / 10 * (1 + y) := mul_le_mul (by linarith) (by linarith) (by linarith) (by norm_num)
    have hy8 : y ≤ 1 / 8 := by linarith
    have h3 : -(1 / 8 * (11 / 10)) ≤ x * (1 - p) := by nlinarith
    have h4 : -(1 / 8 * (1 / 10)) ≤ y * q := by nlinarith
    linarith

/-- `(1 + w) + (β / d) (1 - w)` is no real number `≤ 0`, for `w = e^{-d t}`. -/
theorem mem_slitPlane {β d : ℂ} (hβ : 0 < β.re) (hd : 0 < d.re) (hdi : |d.im| < d.re) {t : ℝ} (ht : 0 ≤ t) :
    (1 + exp (-d * t)) + β / d * (1 - exp (-d * t)) ∈ slitPlane := by
  rcases ht.eq_or_lt with ht | ht
  · subst ht
    rw [mem_slitPlane_iff]
    left
    simp
  have hw : ‖exp (-d * t)‖ < 1 := by
    rw [Complex.norm_exp, Real.exp_lt_one_iff]
    have : (-d * (t : ℂ)).re = -(d.re * t) := by simp
    rw [this]
    have := mul_pos hd ht
    linarith
  have hwre : (exp (-d * t)).re < 1 := lt_of_le_of_lt (re_le_norm _) hw
  rcases le_or_gt 0 (β / d).re with hx | hx
  · have h1 : 1 - exp (-d * t) ≠ 0 := by
      intro h0
      have := congrArg re h0
      simp only [sub_re, one_re, zero_re] at this
      linarith
    have h2 : (1 + exp (-d * t)) + β / d * (1 - exp (-d * t)) =
        (1 - exp (-d * t)) * (β / d + (1 + exp (-d * t)) / (1 - exp (-d * t))) := by
      rw [mul_add, mul_div_cancel₀ _ h1]; ring
    rw [h2]
    refine mul_mem_slitPlane (by rw [sub_re, one_re]; linarith) ?_
    rw [add_re]
    refine add_pos_of_nonneg_of_pos hx ?_
    generalize exp (-d * t) = w at *
    rw [div_re, ← add_div]
    refine div_pos ?_ (normSq_pos.mpr h1)
    simp only [add_re, one_re, sub_re, add_im, one_im, sub_im]
    have h3 : ‖w‖ ^ 2 < 1 := by nlinarith [norm_nonneg w]
    rw [← normSq_eq_norm_sq, normSq_apply] at h3
    nlinarith
  · have hn : 0 < normSq d := normSq_pos.mpr (by intro h0; rw [h0] at hd; simp at hd)
    have hnn : normSq d = d.re * d.re + d.im * d.im := normSq_apply d
    have hdr : (β / d).re = (β.re * d.re + β.im * d.im) / normSq d := by rw [div_re]; ring
    have hdim : (β / d).im = (β.im * d.re - β.re * d.im) / normSq d := by rw [div_im]; ring
    have hneg : β.re * d.re + β.im * d.im < 0 := by
      by_contra hc
      rw [hdr] at hx
      exact absurd (div_nonneg (not_lt.mp hc) hn.le) (not_le.mpr hx)
    have hab := abs_lt.mp hdi
    have hr1 : Real.exp (-(d.re * t)) < 1 := by rw [Real.exp_lt_one_iff]; have := mul_pos hd ht; linarith
    have hwr : (exp (-d * t)).re = Real.exp (-(d.re * t)) * Real.cos (d.im * t) := by
      rw [exp_re]; simp
    have hwi : (exp (-d * t)).im = -Real.exp (-(d.re * t)) * Real.sin (d.im * t) := by
      rw [exp_im]; simp
    have hb : d.im ≠ 0 := by
      intro h0
      rw [h0, mul_zero, add_zero] at hneg
      have := mul_pos hβ hd
      linarith
    rw [mem_slitPlane_iff]
    simp only [add_re, one_re, mul_re, sub_re, add_im, one_im, mul_im, sub_im, hwr, hwi]
    rcases lt_or_gt_of_ne hb with hb | hb
    · -- negative imaginary part of the root: the conjugate case
      have hk : (β / d).im > 0 ∧ -(β / d).re < (β / d).im := by
        have h1 : 0 < (-d.im) * (β.im * d.re - β.re * d.im + (β.re * d.re + β.im * d.im)) := by
          have e : (-d.im) * (β.im * d.re - β.re * d.im + (β.re * d.re + β.im * d.im))
              = β.re * normSq d + (-(β.re * d.re + β.im * d.im)) * (d.re - (-d.im)) := by rw [hnn]; ring
          rw [e]
          exact add_pos (mul_pos hβ hn) (mul_pos (by linarith) (by linarith))
        have h2 := pos_of_mul_pos_right h1 (by linarith)
        have h3 : -(β / d).re < (β / d).im := by
          rw [hdr, hdim, ← neg_div]
          exact div_lt_div_of_pos_right (by linarith) hn
        exact ⟨by linarith, h3⟩
      have hφ : 0 ≤ -d.im * t := mul_nonneg (by linarith) ht.le
      have hc := core (x := (β / d).re) (y := (β / d).im) (r := Real.exp (-(d.re * t))) (φ := -d.im * t) hx hk.2 (Real.exp_pos _) hr1 hφ
        (Real.exp_le_exp.mpr (by nlinarith))
      have e1 : Real.cos (-d.im * t) = Real.cos (d.im * t) := by rw [neg_mul, Real.cos_neg]
      have e2 : Real.sin (-d.im * t) = -Real.sin (d.im * t) := by rw [neg_mul, Real.sin_neg]
      rw [e1, e2] at hc
      rcases hc with hc | hc
      · left; linarith
      · right; intro h0; apply hc; linarith
    · have hk : (β / d).im < 0 ∧ -(β / d).re < -(β / d).im := by
        have h1 : 0 < d.im * (-(β.im * d.re - β.re * d.im) + (β.re * d.re + β.im * d.im)) := by
          have e : d.im * (-(β.im * d.re - β.re * d.im) + (β.re * d.re + β.im * d.im))
              = β.re * normSq d + (-(β.re * d.re + β.im * d.im)) * (d.re - d.im) := by rw [hnn]; ring
          rw [e]
          exact add_pos (mul_pos hβ hn) (mul_pos (by linarith) (by linarith))
        have h2 := pos_of_mul_pos_right h1 (by linarith)
        have h3 : -(β / d).re < -(β / d).im := by
          rw [hdr, hdim, ← neg_div, ← neg_div]
          exact div_lt_div_of_pos_right (by linarith) hn
        exact ⟨by linarith, h3⟩
      have hφ : 0 ≤ d.im * t := mul_nonneg (by linarith) ht.le
      have hc := core (x := (β / d).re) (y := -(β / d).im) (r := Real.exp (-(d.re * t))) (φ := d.im * t) hx hk.2 (Real.exp_pos _) hr1 hφ
        (Real.exp_le_exp.mpr (by nlinarith))
      rcases hc with hc | hc
      · left; linarith
      · right; intro h0; apply hc; linarith

end HestonTrap
