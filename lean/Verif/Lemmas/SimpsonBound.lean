import Verif.Lemmas.TaylorBound
import Mathlib.MeasureTheory.Integral.IntervalIntegral.FundThmCalculus
import Mathlib.Topology.Order.ProjIcc

/-! # Error of the rule of Simpson on one panel -/

namespace Lemmas
open Set

/-- Integration of a bound on the derivative. -/
theorem bound_step (u u' : ℝ → ℝ) (h C : ℝ) (n : ℕ) (hu : ∀ t ∈ Icc 0 h, HasDerivWithinAt u (u' t) (Icc 0 h) t) (h0 : u 0 = 0)
    (hb : ∀ t ∈ Icc 0 h, |u' t| ≤ C * t ^ n) : ∀ t ∈ Icc 0 h, |u t| ≤ C / (n + 1) * t ^ (n + 1) := by
  have hB : ∀ x : ℝ, HasDerivAt (fun t : ℝ => C / (n + 1) * t ^ (n + 1)) (C * x ^ n) x := by
    intro x
    have := (hasDerivAt_pow (n + 1) x).const_mul (C / (n + 1))
    refine this.congr_deriv ?_
    have hn : (n : ℝ) + 1 ≠ 0 := by positivity
    simp only [Nat.add_sub_cancel]
    push_cast
    field_simp
  exact fun t ht => image_norm_le_of_norm_deriv_right_le_deriv_boundary (a := 0) (b := h) (f := u) (f' := u')
    (B := fun t : ℝ => C / (n + 1) * t ^ (n + 1)) (B' := fun t => C * t ^ n) (fun x hx => (hu x hx).continuousWithinAt)
    (fun x hx => (hu x ⟨hx.1, hx.2.le⟩).mono_of_mem_nhdsWithin (Filter.mem_of_superset (Icc_mem_nhdsGE hx.2) (Icc_subset_Icc_left hx.1)))
    (by simp [h0]) hB (fun x hx => hb x ⟨hx.1, hx.2.le⟩) ht

/-- One panel of the rule of Simpson, for the values `A 0` of an antiderivative and its derivatives. -/
theorem simpson_panel_bound (A : ℕ → ℝ → ℝ) (c h M : ℝ) (hh : 0 ≤ h)
    (hA : ∀ k, k < 5 → ∀ y ∈ Icc (c - h) (c + h), HasDerivWithinAt (A k) (A (k + 1) y) (Icc (c - h) (c + h)) y)
    (hM : ∀ y ∈ Icc (c - h) (c + h), |A 5 y| ≤ M) :
    |A 0 (c + h) - A 0 (c - h) - h / 3 * (A 1 (c - h) + 4 * A 1 c + A 1 (c + h))| ≤ M * h ^ 5 / 90 := by
  have hp : ∀ k, k < 5 → ∀ t ∈ Icc 0 h, HasDerivWithinAt (fun t => A k (c + t)) (A (k + 1) (c + t)) (Icc 0 h) t := by
    intro k hk t ht
    have h1 := hA k hk (c + t) ⟨by linarith [ht.1], by linarith [ht.2]⟩
    have h2 : HasDerivWithinAt (fun x : ℝ => c + x) 1 (Icc 0 h) t := ((hasDerivAt_id t).const_add c).hasDerivWithinAt
    have := h1.comp t h2 (fun w hw => ⟨by linarith [hw.1], by linarith [hw.2]⟩)
    rw [mul_one] at this
    exact this
  have hm : ∀ k, k < 5 → ∀ t ∈ Icc 0 h, HasDerivWithinAt (fun t => A k (c - t)) (-A (k + 1) (c - t)) (Icc 0 h) t := by
    intro k hk t ht
    have h1 := hA k hk (c - t) ⟨by linarith [ht.2], by linarith [ht.1]⟩
    have h2 : HasDerivWithinAt (fun x : ℝ => c - x) (-1) (Icc 0 h) t := ((hasDerivAt_id t).const_sub c).hasDerivWithinAt
    have := h1.comp t h2 (fun w hw => ⟨by linarith [hw.2], by linarith [hw.1]⟩)
    rw [mul_neg_one] at this
    exact this
  have hid : ∀ t, HasDerivWithinAt (fun t : ℝ => t) 1 (Icc 0 h) t := fun t => (hasDerivAt_id t).hasDerivWithinAt
  have d4 : ∀ t ∈ Icc 0 h, |A 4 (c + t) - A 4 (c - t)| ≤ 2 * M / (0 + 1) * t ^ (0 + 1) := by
    have := bound_step (fun t => A 4 (c + t) - A 4 (c - t)) (fun t => A 5 (c + t) + A 5 (c - t)) h (2 * M) 0
      (fun t ht => ((hp 4 (by norm_num) t ht).sub (hm 4 (by norm_num) t ht)).congr_deriv (by ring)) (by simp)
      (fun t ht => by
        have h1 := hM (c + t) ⟨by linarith [ht.1], by linarith [ht.2]⟩
        have h2 := hM (c - t) ⟨by linarith [ht.2], by linarith [ht.1]⟩
        have := abs_add_le (A 5 (c + t)) (A 5 (c - t))
        simp only [pow_zero, mul_one]; linarith)
    simpa using this
  have d3 := bound_step (fun t => 1 / 3 * (A 2 (c + t) - A 2 (c - t)) - t / 3 * (A 3 (c + t) + A 3 (c - t)))
    (fun t => -(t / 3) * (A 4 (c + t) - A 4 (c - t))) h (2 * M / 3) 2
    (fun t ht => (((hp 2 (by norm_num) t ht).sub (hm 2 (by norm_num) t ht)).const_mul (1 / 3) |>.sub
      (((hid t).div_const 3).mul ((hp 3 (by norm_num) t ht).add (hm 3 (by norm_num) t ht)))).congr_deriv (by simp only [Pi.add_apply]; ring)) (by simp)
    (fun t ht => by
      rw [abs_mul, abs_neg, abs_of_nonneg (show 0 ≤ t / 3 by linarith [ht.1])]
      calc t / 3 * |A 4 (c + t) - A 4 (c - t)| ≤ t / 3 * (2 * M / (0 + 1) * t ^ (0 + 1)) := mul_le_mul_of_nonneg_left (d4 t ht) (by linarith [ht.1])
        _ = 2 * M / 3 * t ^ 2 := by ring)
  have d2 := bound_step (fun t => 2 / 3 * (A 1 (c + t) + A 1 (c - t)) - 4 / 3 * A 1 c - t / 3 * (A 2 (c + t) - A 2 (c - t)))
    (fun t => 1 / 3 * (A 2 (c + t) - A 2 (c - t)) - t / 3 * (A 3 (c + t) + A 3 (c - t))) h _ _
    (fun t ht => ((((hp 1 (by norm_num) t ht).add (hm 1 (by norm_num) t ht)).const_mul (2 / 3)).sub_const (4 / 3 * A 1 c) |>.sub
      (((hid t).div_const 3).mul ((hp 2 (by norm_num) t ht).sub (hm 2 (by norm_num) t ht)))).congr_deriv (by simp only [Pi.sub_apply]; ring))
    (by simp; ring) d3
  have d1 := bound_step (fun t => A 0 (c + t) - A 0 (c - t) - t / 3 * (A 1 (c - t) + 4 * A 1 c + A 1 (c + t)))
    (fun t => 2 / 3 * (A 1 (c + t) + A 1 (c - t)) - 4 / 3 * A 1 c - t / 3 * (A 2 (c + t) - A 2 (c - t))) h _ _
    (fun t ht => (((hp 0 (by norm_num) t ht).sub (hm 0 (by norm_num) t ht)).sub
      (((hid t).div_const 3).mul (((hm 1 (by norm_num) t ht).add_const (4 * A 1 c)).add (hp 1 (by norm_num) t ht)))).congr_deriv (by simp only [Pi.add_apply]; ring))
    (by simp) d2
  refine (d1 h ⟨hh, le_rfl⟩).trans (le_of_eq ?_)
  push_cast
  ring

/-- An antiderivative on a closed interval. -/
theorem antiderivative_within (f : ℝ → ℝ) (a b : ℝ) (hab : a ≤ b) (hf : ContinuousOn f (Icc a b)) :
    ∃ A : ℝ → ℝ, (∀ y ∈ Icc a b, HasDerivWithinAt A (f y) (Icc a b) y) ∧ ∀ l u, l ∈ Icc a b → u ∈ Icc a b → ∫ x in l..u, f x = A u - A l := by
  have hg : Continuous (IccExtend hab ((Icc a b).restrict f)) := hf.restrict.Icc_extend'
  have he : ∀ y ∈ Icc a b, IccExtend hab ((Icc a b).restrict f) y = f y := fun y hy => by rw [IccExtend_of_mem hab _ hy]; rfl
  generalize IccExtend hab ((Icc a b).restrict f) = g at hg he
  have hd : ∀ y, HasDerivAt (fun x => ∫ t in a..x, g t) (g y) y := fun y =>
    intervalIntegral.integral_hasDerivAt_right (hg.intervalIntegrable _ _) (hg.stronglyMeasurableAtFilter _ _) hg.continuousAt
  refine ⟨fun x => ∫ t in a..x, g t, fun y hy => by rw [← he y hy]; exact (hd y).hasDerivWithinAt, fun l u hl hu => ?_⟩
  rw [intervalIntegral.integral_interval_sub_left (hg.intervalIntegrable _ _) (hg.intervalIntegrable _ _)]
  refine intervalIntegral.integral_congr fun x hx => (he x ?_).symm
  rw [uIcc_eq_union] at hx
  rcases hx with hx | hx
  · exact ⟨hl.1.trans hx.1, hx.2.trans hu.2⟩
  · exact ⟨hu.1.trans hx.1, hx.2.trans hl.2⟩

end Lemmas
