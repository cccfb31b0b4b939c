import Mathlib.Analysis.Calculus.MeanValue
import Mathlib.Analysis.Calculus.Deriv.Pow
import Mathlib.Analysis.Calculus.Deriv.Add
import Mathlib.Data.Nat.Factorial.Basic
import Mathlib.Algebra.BigOperators.Ring.Finset
import Mathlib.Tactic.FieldSimp
import Mathlib.Tactic.Ring
import Mathlib.Tactic.Linarith
import Mathlib.Tactic.Positivity

/-! # Remainder of a Taylor polynomial for a chain of derivatives on an interval -/

namespace Lemmas
open Set

/-- Expansion at the left end. -/
theorem taylor_right (p q M : ℝ) (m : ℕ) (F : ℕ → ℝ → ℝ)
    (h : ∀ k, k < m → ∀ y ∈ Icc p q, HasDerivWithinAt (F k) (F (k + 1) y) (Icc p q) y) (hM : ∀ y ∈ Icc p q, |F m y| ≤ M) :
    ∀ y ∈ Icc p q, |F 0 y - ∑ k ∈ Finset.range m, F k p * (y - p) ^ k / k.factorial| ≤ M * (y - p) ^ m / m.factorial := by
  induction m generalizing F with
  | zero => intro y hy; simpa using hM y hy
  | succ m ih =>
    have ih' := ih (fun k => F (k + 1)) (fun k hk => h (k + 1) (by omega)) hM
    have hpow : ∀ (k : ℕ) (y : ℝ), HasDerivAt (fun y => (y - p) ^ (k + 1) / ((k + 1).factorial : ℝ)) ((y - p) ^ k / (k.factorial : ℝ)) y := by
      intro k y
      have h1 := (((hasDerivAt_id y).sub_const p).pow (k + 1)).div_const ((k + 1).factorial : ℝ)
      refine h1.congr_deriv ?_
      have : ((k + 1).factorial : ℝ) = (k + 1) * k.factorial := by rw [Nat.factorial_succ]; push_cast; ring
      rw [this]
      have hk : (k.factorial : ℝ) ≠ 0 := by exact_mod_cast k.factorial_ne_zero
      have hk1 : (k : ℝ) + 1 ≠ 0 := by positivity
      simp only [id, Nat.add_sub_cancel]
      push_cast
      field_simp
    have hsum : ∀ y, HasDerivAt (fun y => ∑ k ∈ Finset.range (m + 1), F k p * (y - p) ^ k / k.factorial)
        (∑ k ∈ Finset.range m, F (k + 1) p * (y - p) ^ k / k.factorial) y := by
      intro y
      have e : (fun y => ∑ k ∈ Finset.range (m + 1), F k p * (y - p) ^ k / k.factorial) =
          fun y => (∑ k ∈ Finset.range m, F (k + 1) p * ((y - p) ^ (k + 1) / (k + 1).factorial)) + F 0 p := by
        funext y
        rw [Finset.sum_range_succ']
        simp [mul_div_assoc]
      rw [e]
      have := (HasDerivAt.fun_sum (u := Finset.range m) (fun k _ => (hpow k y).const_mul (F (k + 1) p))).add_const (F 0 p)
      refine this.congr_deriv (Finset.sum_congr rfl fun k _ => by ring)
    intro y hy
    have hd : ∀ x ∈ Icc p q, HasDerivWithinAt (fun y => F 0 y - ∑ k ∈ Finset.range (m + 1), F k p * (y - p) ^ k / k.factorial)
        (F 1 x - ∑ k ∈ Finset.range m, F (k + 1) p * (x - p) ^ k / k.factorial) (Icc p q) x :=
      fun x hx => (h 0 (by omega) x hx).sub (hsum x).hasDerivWithinAt
    have := image_norm_le_of_norm_deriv_right_le_deriv_boundary (a := p) (b := q)
      (f := fun y => F 0 y - ∑ k ∈ Finset.range (m + 1), F k p * (y - p) ^ k / k.factorial)
      (f' := fun x => F 1 x - ∑ k ∈ Finset.range m, F (k + 1) p * (x - p) ^ k / k.factorial)
      (B := fun y => M * ((y - p) ^ (m + 1) / (m + 1).factorial)) (B' := fun y => M * ((y - p) ^ m / m.factorial))
      (fun x hx => (hd x hx).continuousWithinAt)
      (fun x hx => (hd x ⟨hx.1, hx.2.le⟩).mono_of_mem_nhdsWithin (Filter.mem_of_superset (Icc_mem_nhdsGE hx.2) (Icc_subset_Icc_left hx.1)))
      (by rw [Finset.sum_range_succ']; simp) (fun x => (hpow m x).const_mul M)
      (fun x hx => by have := ih' x ⟨hx.1, hx.2.le⟩; rw [mul_div_assoc] at this; exact this) hy
    rw [mul_div_assoc]
    exact this

/-- Expansion at any point. -/
theorem taylor_bound (lo hi M : ℝ) (m : ℕ) (F : ℕ → ℝ → ℝ)
    (h : ∀ k, k < m → ∀ y ∈ Icc lo hi, HasDerivWithinAt (F k) (F (k + 1) y) (Icc lo hi) y) (hM : ∀ y ∈ Icc lo hi, |F m y| ≤ M)
    (z y : ℝ) (hz : z ∈ Icc lo hi) (hy : y ∈ Icc lo hi) :
    |F 0 y - ∑ k ∈ Finset.range m, F k z * (y - z) ^ k / k.factorial| ≤ M * |y - z| ^ m / m.factorial := by
  rcases le_total z y with hzy | hyz
  · have sub : Icc z y ⊆ Icc lo hi := Icc_subset_Icc hz.1 hy.2
    rw [abs_of_nonneg (sub_nonneg.2 hzy)]
    exact taylor_right z y M m F (fun k hk x hx => (h k hk x (sub hx)).mono sub) (fun x hx => hM x (sub hx)) y ⟨hzy, le_rfl⟩
  · have sub : ∀ x ∈ Icc (-z) (-y), -x ∈ Icc lo hi := fun x hx => ⟨by linarith [hx.2, hy.1], by linarith [hx.1, hz.2]⟩
    have := taylor_right (-z) (-y) M m (fun k x => (-1) ^ k * F k (-x))
      (fun k hk x hx => by
        have h1 := (h k hk (-x) (sub x hx))
        have h2 : HasDerivWithinAt (fun x : ℝ => -x) (-1) (Icc (-z) (-y)) x := (hasDerivAt_neg x).hasDerivWithinAt
        have h3 := (h1.comp x h2 (fun w hw => sub w hw)).const_mul ((-1) ^ k)
        refine h3.congr_deriv ?_
        ring)
      (fun x hx => by rw [abs_mul, abs_pow, abs_neg, abs_one, one_pow, one_mul]; exact hM _ (sub x hx)) (-y) ⟨by linarith, le_rfl⟩
    rw [abs_of_nonpos (sub_nonpos.2 hyz)]
    have e : ∑ k ∈ Finset.range m, (-1) ^ k * F k (- -z) * (-y - -z) ^ k / (k.factorial : ℝ) = ∑ k ∈ Finset.range m, F k z * (y - z) ^ k / k.factorial := by
      refine Finset.sum_congr rfl fun k _ => ?_
      rw [neg_neg, show -y - -z = (-1) * (y - z) by ring, mul_pow]
      have : ((-1 : ℝ) ^ k) * (-1) ^ k = 1 := by rw [← mul_pow]; simp
      linear_combination (F k z * (y - z) ^ k / (k.factorial : ℝ)) * this
    rw [e, neg_neg, pow_zero, one_mul, show -y - -z = -(y - z) by ring] at this
    exact this

end Lemmas
