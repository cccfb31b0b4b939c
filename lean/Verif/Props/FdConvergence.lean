import Verif.Props.MaximumPrinciple
import Verif.Props.FdSolvers
import Verif.Lemmas.TaylorBound
import Mathlib.Analysis.SpecificLimits.Basic

/-! # C116 Convergence of the finite difference solver to the solution of the equation -/

namespace Spec
open Model Set

/-- `D j k t x` is the derivative of order `j` in time and `k` in space of a solution of `V_t + a V_xx + b V_x + z V = 0` on
`[e, s] x [lo, hi]`; the solution itself is `D 0 0`. -/
structure ClassicalSolution (D : ℕ → ℕ → ℝ → ℝ → ℝ) (a b z : ℝ → ℝ → ℝ) (e s lo hi : ℝ) : Prop where
  space : ∀ k, k < 4 → ∀ t ∈ Icc e s, ∀ x ∈ Icc lo hi, HasDerivWithinAt (D 0 k t) (D 0 (k + 1) t x) (Icc lo hi) x
  time : ∀ j, j < 3 → ∀ t ∈ Icc e s, ∀ x ∈ Icc lo hi, HasDerivWithinAt (fun t => D j 0 t x) (D (j + 1) 0 t x) (Icc e s) t
  mixed : ∀ j k, j < 2 → k = 1 ∨ k = 2 → ∀ t ∈ Icc e s, ∀ x ∈ Icc lo hi, HasDerivWithinAt (fun t => D j k t x) (D (j + 1) k t x) (Icc e s) t
  pde : ∀ t ∈ Icc e s, ∀ x ∈ Icc lo hi, D 1 0 t x + a t x * D 0 2 t x + b t x * D 0 1 t x + z t x * D 0 0 t x = 0

/-- Bounds of the coefficients and of the derivatives: third and fourth in space, third in time, first and second in time of the
solution and its first two derivatives in space. -/
structure Bounded (D : ℕ → ℕ → ℝ → ℝ → ℝ) (a b z : ℝ → ℝ → ℝ) (e s lo hi A B C M3 M4 Q : ℝ) (P N : ℕ → ℝ) : Prop where
  second : ∀ t ∈ Icc e s, ∀ x ∈ Icc lo hi, |a t x| ≤ A
  first : ∀ t ∈ Icc e s, ∀ x ∈ Icc lo hi, |b t x| ≤ B
  zeroth : ∀ t ∈ Icc e s, ∀ x ∈ Icc lo hi, |z t x| ≤ C
  third : ∀ t ∈ Icc e s, ∀ x ∈ Icc lo hi, |D 0 3 t x| ≤ M3
  fourth : ∀ t ∈ Icc e s, ∀ x ∈ Icc lo hi, |D 0 4 t x| ≤ M4
  jerk : ∀ t ∈ Icc e s, ∀ x ∈ Icc lo hi, |D 3 0 t x| ≤ Q
  speed : ∀ k, k < 3 → ∀ t ∈ Icc e s, ∀ x ∈ Icc lo hi, |D 1 k t x| ≤ P k
  acceleration : ∀ k, k < 3 → ∀ t ∈ Icc e s, ∀ x ∈ Icc lo hi, |D 2 k t x| ≤ N k

/-- The grid ends at the boundaries, the coefficients are those of the equation at the grid points, and the boundary conditions are the
values of the solution. -/
structure Discretises (xs : List ℝ) (k : ℕ) (c : ℝ → PdeCoeffs ℝ) (f g : BoundaryFn ℝ) (u a b z : ℝ → ℝ → ℝ) (e s lo hi : ℝ) : Prop where
  length : xs.length = k + 4
  increasing : ∀ i, i < k + 3 → xs.getD i 0 < xs.getD (i + 1) 0
  first : xs.getD 0 0 = lo
  last : xs.getD (k + 3) 0 = hi
  onGrid : ∀ t ∈ Icc e s, OnGrid (c t) (k + 4)
  coeffs : ∀ t ∈ Icc e s, ∀ i, i < k + 2 → coeffAt (c t).second (i + 1) = a t (xs.getD (i + 1) 0) ∧
    coeffAt (c t).first (i + 1) = b t (xs.getD (i + 1) 0) ∧ coeffAt (c t).zeroth (i + 1) = z t (xs.getD (i + 1) 0)
  lower : ∀ t ∈ Icc e s, Prescribes (f t) (u t lo)
  upper : ∀ t ∈ Icc e s, Prescribes (g t) (u t hi)

/-- Mesh size at most `h`, neighbouring cells differ by at most `sigma`. -/
structure Mesh (xs : List ℝ) (k : ℕ) (h sigma : ℝ) : Prop where
  size : ∀ i, i < k + 3 → xs.getD (i + 1) 0 - xs.getD i 0 ≤ h
  change : ∀ i, i < k + 2 → |(xs.getD (i + 2) 0 - xs.getD (i + 1) 0) - (xs.getD (i + 1) 0 - xs.getD i 0)| ≤ sigma

/-- Error of the average `theta y(t + dt / 2) + (1 - theta) y(t - dt / 2)` of a function with first and second derivative bounded by
`p` and `n`. -/
noncomputable def averageError (theta dt p n : ℝ) : ℝ := |theta - 1 / 2| * dt * p + n * dt ^ 2 / 8

/-- Truncation error of the weighted scheme. -/
noncomputable def truncation (theta dt h sigma A B C M3 M4 Q : ℝ) (P N : ℕ → ℝ) : ℝ :=
  Q * dt ^ 2 / 24 + A * (averageError theta dt (P 2) (N 2) + M3 * sigma / 3 + M4 * h ^ 2 / 12) +
    B * (averageError theta dt (P 1) (N 1) + M3 * h ^ 2 / 6) + C * averageError theta dt (P 0) (N 0)

end Spec

namespace Lemmas
open Model Spec Set

/-- Maximum principle for a step with a residual. -/
theorem core_max_residual (n : Nat) (lo di up v w r : Nat → ℝ) (theta dt M tau : ℝ) (hth0 : 0 ≤ theta) (hth1 : theta ≤ 1) (hdt : 0 ≤ dt)
    (htau : 0 ≤ tau) (hM0 : 0 ≤ M)
    (hlo : ∀ i, i < n → lo i ≤ 0) (hup : ∀ i, i < n → up i ≤ 0) (hs : ∀ i, i < n → 0 ≤ lo i + di i + up i)
    (hcfl : ∀ i, i < n → theta * dt * di i ≤ 1) (hr : ∀ i, i < n → r i ≤ tau)
    (heq : ∀ i, i < n → w (i + 1) - v (i + 1) = -dt * (theta * (lo i * v i + di i * v (i + 1) + up i * v (i + 2)) +
      (1 - theta) * (lo i * w i + di i * w (i + 1) + up i * w (i + 2))) + dt * r i)
    (hv : ∀ i, i < n + 2 → v i ≤ M) (hw0 : w 0 ≤ M) (hwn : w (n + 1) ≤ M) (i : Nat) (hi : i < n + 2) : w i ≤ M + dt * tau := by
  by_contra hc
  push Not at hc
  have hdtau : 0 ≤ dt * tau := mul_nonneg hdt htau
  obtain ⟨p, hp, hmax⟩ := Finset.exists_max_image (Finset.range (n + 2)) w ⟨0, by simp⟩
  rw [Finset.mem_range] at hp
  have hwp' : M + dt * tau < w p := lt_of_lt_of_le hc (hmax i (Finset.mem_range.2 hi))
  have hwp : M < w p := by linarith
  have hp0 : p ≠ 0 := by rintro rfl; exact absurd hwp (not_lt.2 hw0)
  have hpn : p ≠ n + 1 := by rintro rfl; exact absurd hwp (not_lt.2 hwn)
  obtain ⟨q, rfl⟩ : ∃ q, p = q + 1 := ⟨p - 1, by omega⟩
  have hq : q < n := by omega
  have e := heq q hq
  have m1 := hmax q (Finset.mem_range.2 (by omega))
  have m2 := hmax (q + 2) (Finset.mem_range.2 (by omega))
  have hM := mul_nonneg (hs q hq) hM0
  have hrow : 0 ≤ lo q * w q + di q * w (q + 1) + up q * w (q + 2) := by
    have a1 := mul_le_mul_of_nonpos_left m1 (hlo q hq)
    have a2 := mul_le_mul_of_nonpos_left m2 (hup q hq)
    have a3 := mul_le_mul_of_nonneg_left hwp.le (hs q hq)
    linarith
  have hrow2 : 0 ≤ dt * ((1 - theta) * (lo q * w q + di q * w (q + 1) + up q * w (q + 2))) :=
    mul_nonneg hdt (mul_nonneg (by linarith) hrow)
  have b0 : 0 ≤ theta * dt := mul_nonneg hth0 hdt
  have b1 := mul_le_mul_of_nonneg_left (hv (q + 1) (by omega)) (show 0 ≤ 1 - theta * dt * di q by linarith [hcfl q hq])
  have b2 := mul_le_mul_of_nonneg_left (hv q (by omega)) (show 0 ≤ -(theta * dt * lo q) by
    rw [neg_nonneg]; exact mul_nonpos_of_nonneg_of_nonpos b0 (hlo q hq))
  have b3 := mul_le_mul_of_nonneg_left (hv (q + 2) (by omega)) (show 0 ≤ -(theta * dt * up q) by
    rw [neg_nonneg]; exact mul_nonpos_of_nonneg_of_nonpos b0 (hup q hq))
  have b4 := mul_nonneg b0 hM
  have b5 := mul_le_mul_of_nonneg_left (hr q hq) hdt
  have e2 : w (q + 1) = (1 - theta * dt * di q) * v (q + 1) + -(theta * dt * lo q) * v q + -(theta * dt * up q) * v (q + 2) -
      dt * ((1 - theta) * (lo q * w q + di q * w (q + 1) + up q * w (q + 2))) + dt * r q := by linear_combination e
  have e3 : (1 - theta * dt * di q) * M + -(theta * dt * lo q) * M + -(theta * dt * up q) * M = M - theta * dt * ((lo q + di q + up q) * M) := by ring
  linarith

/-- The differences of a row. -/
theorem row_differences (c : PdeCoeffs ℝ) (x : Nat → ℝ) (i : Nat) (h1 : x i < x (i + 1)) (h2 : x (i + 1) < x (i + 2))
    (hs : c.innerSecond = none) (hf : c.innerFirst = none) (v : Nat → ℝ) :
    entryLo c x i * v i + entryDiag c x i * v (i + 1) + entryUp c x i * v (i + 2) =
      -(coeffAt c.second (i + 1) * (2 / (x (i + 2) - x i) * ((v (i + 2) - v (i + 1)) / (x (i + 2) - x (i + 1)) - (v (i + 1) - v i) / (x (i + 1) - x i))) +
        coeffAt c.first (i + 1) * (((x (i + 1) - x i) / (x (i + 2) - x (i + 1)) * (v (i + 2) - v (i + 1)) +
          (x (i + 2) - x (i + 1)) / (x (i + 1) - x i) * (v (i + 1) - v i)) / (x (i + 2) - x i)) +
        coeffAt c.zeroth (i + 1) * v (i + 1)) := by
  have hb := sub_pos.2 h1
  have hfd := sub_pos.2 h2
  unfold entryLo entryUp entryDiag wUp1 wLo1 wUp2 wLo2
  rw [hs, hf]
  simp only [outerAt_none, innerAt, Option.elim_none, mul_one]
  have hz : c.zeroth.elim 0 (fun z => z.getD (i + 1) 0) = coeffAt c.zeroth (i + 1) := rfl
  rw [hz]
  have e : x (i + 2) - x i = (x (i + 2) - x (i + 1)) + (x (i + 1) - x i) := by ring
  rw [e]
  generalize x (i + 1) - x i = bd at *
  generalize x (i + 2) - x (i + 1) = fd at *
  have hsum : 0 < fd + bd := by linarith
  field_simp
  ring

/-- Errors of the difference quotients. -/
theorem difference_errors (lo hi M3 M4 h sigma : ℝ) (F : ℕ → ℝ → ℝ)
    (hF : ∀ k, k < 4 → ∀ y ∈ Icc lo hi, HasDerivWithinAt (F k) (F (k + 1) y) (Icc lo hi) y)
    (h3 : ∀ y ∈ Icc lo hi, |F 3 y| ≤ M3) (h4 : ∀ y ∈ Icc lo hi, |F 4 y| ≤ M4)
    (x0 x1 x2 : ℝ) (h0 : lo ≤ x0) (h01 : x0 < x1) (h12 : x1 < x2) (h2 : x2 ≤ hi) (hb : x1 - x0 ≤ h) (hf : x2 - x1 ≤ h)
    (hsig : |(x2 - x1) - (x1 - x0)| ≤ sigma) :
    |2 / (x2 - x0) * ((F 0 x2 - F 0 x1) / (x2 - x1) - (F 0 x1 - F 0 x0) / (x1 - x0)) - F 2 x1| ≤ M3 * sigma / 3 + M4 * h ^ 2 / 12 ∧
    |((x1 - x0) / (x2 - x1) * (F 0 x2 - F 0 x1) + (x2 - x1) / (x1 - x0) * (F 0 x1 - F 0 x0)) / (x2 - x0) - F 1 x1| ≤ M3 * h ^ 2 / 6 := by
  have m0 : x0 ∈ Icc lo hi := ⟨h0, by linarith⟩
  have m1 : x1 ∈ Icc lo hi := ⟨by linarith, by linarith⟩
  have m2 : x2 ∈ Icc lo hi := ⟨by linarith, h2⟩
  have t4u := taylor_bound lo hi M4 4 F hF h4 x1 x2 m1 m2
  have t4l := taylor_bound lo hi M4 4 F hF h4 x1 x0 m1 m0
  have t3u := taylor_bound lo hi M3 3 F (fun k hk => hF k (by omega)) h3 x1 x2 m1 m2
  have t3l := taylor_bound lo hi M3 3 F (fun k hk => hF k (by omega)) h3 x1 x0 m1 m0
  have hM3 : 0 ≤ M3 := (abs_nonneg _).trans (h3 x1 m1)
  have hM4 : 0 ≤ M4 := (abs_nonneg _).trans (h4 x1 m1)
  have h3x := h3 x1 m1
  have hbp : 0 < x1 - x0 := by linarith
  have hfp : 0 < x2 - x1 := by linarith
  rw [abs_of_pos hfp] at t4u t3u
  rw [show x0 - x1 = -(x1 - x0) by ring, abs_neg, abs_of_pos hbp] at t4l t3l
  have e : x2 - x0 = (x2 - x1) + (x1 - x0) := by ring
  rw [e]
  simp only [Finset.sum_range_succ, Finset.sum_range_zero, zero_add, pow_zero, mul_one, Nat.factorial, Nat.cast_one, div_one, pow_one] at t4u t4l t3u t3l
  norm_num at t4u t4l t3u t3l
  rw [show x0 - x1 = -(x1 - x0) by ring] at t4l t3l
  generalize x1 - x0 = bd at *
  generalize x2 - x1 = fd at *
  generalize F 0 x0 = u0 at *
  generalize F 0 x1 = u1 at *
  generalize F 0 x2 = u2 at *
  generalize F 1 x1 = d1 at *
  generalize F 2 x1 = d2 at *
  generalize F 3 x1 = d3 at *
  have hs : 0 < fd + bd := by linarith
  constructor
  · have id : 2 / (fd + bd) * ((u2 - u1) / fd - (u1 - u0) / bd) - d2 = d3 * (fd - bd) / 3 +
        2 / (fd + bd) * ((u2 - (u1 + d1 * fd + d2 * fd ^ 2 / 2 + d3 * fd ^ 3 / 6)) / fd +
          (u0 - (u1 + d1 * -bd + d2 * (-bd) ^ 2 / 2 + d3 * (-bd) ^ 3 / 6)) / bd) := by
      field_simp
      ring
    rw [id]
    have q1 : |d3 * (fd - bd) / 3| ≤ M3 * sigma / 3 := by
      rw [abs_div, abs_mul, abs_of_pos (show (0 : ℝ) < 3 by norm_num)]
      exact div_le_div_of_nonneg_right (mul_le_mul h3x hsig (abs_nonneg _) hM3) (by norm_num)
    have q2 : |(u2 - (u1 + d1 * fd + d2 * fd ^ 2 / 2 + d3 * fd ^ 3 / 6)) / fd| ≤ M4 * fd ^ 3 / 24 := by
      rw [abs_div, abs_of_pos hfp, div_le_iff₀ hfp]
      refine t4u.trans (le_of_eq ?_); ring
    have q3 : |(u0 - (u1 + d1 * -bd + d2 * (-bd) ^ 2 / 2 + d3 * (-bd) ^ 3 / 6)) / bd| ≤ M4 * bd ^ 3 / 24 := by
      rw [abs_div, abs_of_pos hbp, div_le_iff₀ hbp]
      refine t4l.trans (le_of_eq ?_); ring
    have q4 : 2 / (fd + bd) * (M4 * fd ^ 3 / 24 + M4 * bd ^ 3 / 24) ≤ M4 * h ^ 2 / 12 := by
      have : 2 / (fd + bd) * (M4 * fd ^ 3 / 24 + M4 * bd ^ 3 / 24) = M4 * (fd ^ 2 - fd * bd + bd ^ 2) / 12 := by field_simp; ring
      rw [this]
      have : fd ^ 2 - fd * bd + bd ^ 2 ≤ h ^ 2 := by
        rcases le_total fd bd with hc | hc
        · nlinarith
        · nlinarith
      exact div_le_div_of_nonneg_right (mul_le_mul_of_nonneg_left this hM4) (by norm_num)
    refine (abs_add_le _ _).trans (add_le_add q1 (le_trans ?_ q4))
    rw [abs_mul, abs_of_pos (show 0 < 2 / (fd + bd) by positivity)]
    exact mul_le_mul_of_nonneg_left ((abs_add_le _ _).trans (add_le_add q2 q3)) (by positivity)
  · have id : (bd / fd * (u2 - u1) + fd / bd * (u1 - u0)) / (fd + bd) - d1 =
        (bd / fd * (u2 - (u1 + d1 * fd + d2 * fd ^ 2 / 2)) - fd / bd * (u0 - (u1 + d1 * -bd + d2 * (-bd) ^ 2 / 2))) / (fd + bd) := by
      field_simp
      ring
    rw [id, abs_div, abs_of_pos hs, div_le_iff₀ hs]
    have q2 : |bd / fd * (u2 - (u1 + d1 * fd + d2 * fd ^ 2 / 2))| ≤ bd * (M3 * fd ^ 2 / 6) := by
      rw [abs_mul, abs_of_pos (div_pos hbp hfp)]
      refine (mul_le_mul_of_nonneg_left t3u (div_pos hbp hfp).le).trans (le_of_eq ?_)
      field_simp
    have q3 : |fd / bd * (u0 - (u1 + d1 * -bd + d2 * (-bd) ^ 2 / 2))| ≤ fd * (M3 * bd ^ 2 / 6) := by
      rw [abs_mul, abs_of_pos (div_pos hfp hbp)]
      refine (mul_le_mul_of_nonneg_left t3l (div_pos hfp hbp).le).trans (le_of_eq ?_)
      field_simp
    refine (abs_sub _ _).trans ((add_le_add q2 q3).trans ?_)
    have : fd * bd ≤ h ^ 2 := by nlinarith
    have := mul_le_mul_of_nonneg_left this (mul_nonneg hM3 hs.le)
    linarith

/-- Average of a function at the ends of an interval. -/
theorem average_error (e s p n theta dt t1 t2 : ℝ) (F : ℕ → ℝ → ℝ)
    (hF : ∀ k, k < 2 → ∀ y ∈ Icc e s, HasDerivWithinAt (F k) (F (k + 1) y) (Icc e s) y)
    (h1 : ∀ y ∈ Icc e s, |F 1 y| ≤ p) (h2 : ∀ y ∈ Icc e s, |F 2 y| ≤ n) (hth0 : 0 ≤ theta) (hth1 : theta ≤ 1)
    (m1 : t1 ∈ Icc e s) (m2 : t2 ∈ Icc e s) (ht : t2 ≤ t1) (hdt : t1 - t2 ≤ dt) :
    |theta * F 0 t1 + (1 - theta) * F 0 t2 - F 0 ((t1 + t2) / 2)| ≤ averageError theta dt p n := by
  have mm : (t1 + t2) / 2 ∈ Icc e s := ⟨by linarith [m1.1, m2.1], by linarith [m1.2, m2.2]⟩
  have a1 := taylor_bound e s n 2 F hF h2 _ t1 mm m1
  have a2 := taylor_bound e s n 2 F hF h2 _ t2 mm m2
  have hp := h1 _ mm
  have hp0 : 0 ≤ p := (abs_nonneg _).trans hp
  have hn0 : 0 ≤ n := (abs_nonneg _).trans (h2 _ mm)
  rw [show t1 - (t1 + t2) / 2 = (t1 - t2) / 2 by ring] at a1
  rw [show t2 - (t1 + t2) / 2 = -((t1 - t2) / 2) by ring] at a2
  have hd : 0 ≤ (t1 - t2) / 2 := by linarith
  rw [abs_of_nonneg hd] at a1
  rw [abs_neg, abs_of_nonneg hd] at a2
  simp only [Finset.sum_range_succ, Finset.sum_range_zero, zero_add, pow_zero, mul_one, Nat.factorial, Nat.cast_one, div_one, pow_one] at a1 a2
  generalize F 0 ((t1 + t2) / 2) = y0 at *
  generalize F 1 ((t1 + t2) / 2) = y1 at *
  generalize F 0 t1 = u1 at *
  generalize F 0 t2 = u2 at *
  have id : theta * u1 + (1 - theta) * u2 - y0 = (theta - 1 / 2) * (t1 - t2) * y1 +
      (theta * (u1 - (y0 + y1 * ((t1 - t2) / 2))) + (1 - theta) * (u2 - (y0 + y1 * -((t1 - t2) / 2)))) := by ring
  rw [id]
  unfold averageError
  refine (abs_add_le _ _).trans (add_le_add ?_ ?_)
  · rw [abs_mul, abs_mul, abs_of_nonneg (show 0 ≤ t1 - t2 by linarith)]
    exact mul_le_mul (mul_le_mul_of_nonneg_left hdt (abs_nonneg _)) hp (abs_nonneg _) (mul_nonneg (abs_nonneg _) (by linarith))
  · have q : n * ((t1 - t2) / 2) ^ 2 / ((1 * 1 : ℕ) * 2 : ℕ) ≤ n * dt ^ 2 / 8 := by
      have : (t1 - t2) ^ 2 ≤ dt ^ 2 := pow_le_pow_left₀ (by linarith) hdt 2
      have := mul_le_mul_of_nonneg_left this hn0
      push_cast
      linarith
    refine (abs_add_le _ _).trans ?_
    rw [abs_mul, abs_mul, abs_of_nonneg hth0, abs_of_nonneg (show 0 ≤ 1 - theta by linarith)]
    have b1 := mul_le_mul_of_nonneg_left a1 hth0
    have b2 := mul_le_mul_of_nonneg_left a2 (show 0 ≤ 1 - theta by linarith)
    norm_num at b1 b2 q ⊢
    linarith

/-- Central difference in time. -/
theorem central_error (e s Q t1 t2 : ℝ) (F : ℕ → ℝ → ℝ)
    (hF : ∀ k, k < 3 → ∀ y ∈ Icc e s, HasDerivWithinAt (F k) (F (k + 1) y) (Icc e s) y)
    (h3 : ∀ y ∈ Icc e s, |F 3 y| ≤ Q) (m1 : t1 ∈ Icc e s) (m2 : t2 ∈ Icc e s) (ht : t2 ≤ t1) :
    |F 0 t1 - F 0 t2 - (t1 - t2) * F 1 ((t1 + t2) / 2)| ≤ (t1 - t2) * (Q * (t1 - t2) ^ 2 / 24) := by
  have mm : (t1 + t2) / 2 ∈ Icc e s := ⟨by linarith [m1.1, m2.1], by linarith [m1.2, m2.2]⟩
  have a1 := taylor_bound e s Q 3 F hF h3 _ t1 mm m1
  have a2 := taylor_bound e s Q 3 F hF h3 _ t2 mm m2
  rw [show t1 - (t1 + t2) / 2 = (t1 - t2) / 2 by ring] at a1
  rw [show t2 - (t1 + t2) / 2 = -((t1 - t2) / 2) by ring] at a2
  have hd : 0 ≤ (t1 - t2) / 2 := by linarith
  rw [abs_of_nonneg hd] at a1
  rw [abs_neg, abs_of_nonneg hd] at a2
  simp only [Finset.sum_range_succ, Finset.sum_range_zero, zero_add, pow_zero, mul_one, Nat.factorial, Nat.cast_one, div_one, pow_one] at a1 a2
  generalize F 0 ((t1 + t2) / 2) = y0 at *
  generalize F 1 ((t1 + t2) / 2) = y1 at *
  generalize F 2 ((t1 + t2) / 2) = y2 at *
  generalize F 0 t1 = u1 at *
  generalize F 0 t2 = u2 at *
  rw [abs_le] at a1 a2 ⊢
  push_cast at a1 a2
  constructor <;> nlinarith [a1.1, a1.2, a2.1, a2.2]

theorem averageError_nonneg (theta dt p n : ℝ) (hdt : 0 ≤ dt) (hp : 0 ≤ p) (hn : 0 ≤ n) : 0 ≤ averageError theta dt p n := by
  unfold averageError; positivity

end Lemmas

namespace Props
open Model Spec Lemmas Set

/-- Bounds are not negative. -/
theorem bounded_nonneg {D : ℕ → ℕ → ℝ → ℝ → ℝ} {a b z : ℝ → ℝ → ℝ} {e s lo hi A B C M3 M4 Q : ℝ} {P N : ℕ → ℝ}
    (hB : Bounded D a b z e s lo hi A B C M3 M4 Q P N) (hes : e ≤ s) (hlh : lo ≤ hi) :
    0 ≤ A ∧ 0 ≤ B ∧ 0 ≤ C ∧ 0 ≤ M3 ∧ 0 ≤ M4 ∧ 0 ≤ Q ∧ (∀ k, k < 3 → 0 ≤ P k) ∧ ∀ k, k < 3 → 0 ≤ N k := by
  have ms : e ∈ Icc e s := ⟨le_rfl, hes⟩
  have ml : lo ∈ Icc lo hi := ⟨le_rfl, hlh⟩
  exact ⟨(abs_nonneg _).trans (hB.second e ms lo ml), (abs_nonneg _).trans (hB.first e ms lo ml), (abs_nonneg _).trans (hB.zeroth e ms lo ml),
    (abs_nonneg _).trans (hB.third e ms lo ml), (abs_nonneg _).trans (hB.fourth e ms lo ml), (abs_nonneg _).trans (hB.jerk e ms lo ml),
    fun k hk => (abs_nonneg _).trans (hB.speed k hk e ms lo ml), fun k hk => (abs_nonneg _).trans (hB.acceleration k hk e ms lo ml)⟩

/-- Residual of the solution in the difference equation. -/
theorem residual_bound {D : ℕ → ℕ → ℝ → ℝ → ℝ} {a b z : ℝ → ℝ → ℝ} {e s lo hi A B C M3 M4 Q : ℝ} {P N : ℕ → ℝ}
    (hS : ClassicalSolution D a b z e s lo hi) (hB : Bounded D a b z e s lo hi A B C M3 M4 Q P N)
    (c : PdeCoeffs ℝ) (x : Nat → ℝ) (i : Nat) (h0 : lo ≤ x i) (h01 : x i < x (i + 1)) (h12 : x (i + 1) < x (i + 2)) (h2 : x (i + 2) ≤ hi)
    (h sigma theta dt t1 t2 : ℝ) (hb : x (i + 1) - x i ≤ h) (hf : x (i + 2) - x (i + 1) ≤ h)
    (hsig : |(x (i + 2) - x (i + 1)) - (x (i + 1) - x i)| ≤ sigma) (hth0 : 0 ≤ theta) (hth1 : theta ≤ 1)
    (m1 : t1 ∈ Icc e s) (m2 : t2 ∈ Icc e s) (ht : t2 ≤ t1) (hdt : t1 - t2 ≤ dt)
    (hi2 : c.innerSecond = none) (hi1 : c.innerFirst = none)
    (hc : coeffAt c.second (i + 1) = a ((t1 + t2) / 2) (x (i + 1)) ∧ coeffAt c.first (i + 1) = b ((t1 + t2) / 2) (x (i + 1)) ∧
      coeffAt c.zeroth (i + 1) = z ((t1 + t2) / 2) (x (i + 1))) :
    |D 0 0 t2 (x (i + 1)) - D 0 0 t1 (x (i + 1)) + (t1 - t2) *
      (theta * (entryLo c x i * D 0 0 t1 (x i) + entryDiag c x i * D 0 0 t1 (x (i + 1)) + entryUp c x i * D 0 0 t1 (x (i + 2))) +
      (1 - theta) * (entryLo c x i * D 0 0 t2 (x i) + entryDiag c x i * D 0 0 t2 (x (i + 1)) + entryUp c x i * D 0 0 t2 (x (i + 2))))| ≤
      (t1 - t2) * truncation theta dt h sigma A B C M3 M4 Q P N := by
  have mm : (t1 + t2) / 2 ∈ Icc e s := ⟨by linarith [m1.1, m2.1], by linarith [m1.2, m2.2]⟩
  have mx : x (i + 1) ∈ Icc lo hi := ⟨by linarith, by linarith⟩
  have r1 := row_differences c x i h01 h12 hi2 hi1 (fun j => D 0 0 t1 (x j))
  have r2 := row_differences c x i h01 h12 hi2 hi1 (fun j => D 0 0 t2 (x j))
  have d1 := difference_errors lo hi M3 M4 h sigma (fun k => D 0 k t1) (fun k hk => hS.space k hk t1 m1) (hB.third t1 m1) (hB.fourth t1 m1)
    _ _ _ h0 h01 h12 h2 hb hf hsig
  have d2 := difference_errors lo hi M3 M4 h sigma (fun k => D 0 k t2) (fun k hk => hS.space k hk t2 m2) (hB.third t2 m2) (hB.fourth t2 m2)
    _ _ _ h0 h01 h12 h2 hb hf hsig
  have av0 := average_error e s (P 0) (N 0) theta dt t1 t2 (fun j t => D j 0 t (x (i + 1))) (fun j hj t ht => hS.time j (by omega) t ht _ mx)
    (fun t ht => hB.speed 0 (by omega) t ht _ mx) (fun t ht => hB.acceleration 0 (by omega) t ht _ mx) hth0 hth1 m1 m2 ht hdt
  have av1 := average_error e s (P 1) (N 1) theta dt t1 t2 (fun j t => D j 1 t (x (i + 1))) (fun j hj t ht => hS.mixed j 1 hj (Or.inl rfl) t ht _ mx)
    (fun t ht => hB.speed 1 (by omega) t ht _ mx) (fun t ht => hB.acceleration 1 (by omega) t ht _ mx) hth0 hth1 m1 m2 ht hdt
  have av2 := average_error e s (P 2) (N 2) theta dt t1 t2 (fun j t => D j 2 t (x (i + 1))) (fun j hj t ht => hS.mixed j 2 hj (Or.inr rfl) t ht _ mx)
    (fun t ht => hB.speed 2 (by omega) t ht _ mx) (fun t ht => hB.acceleration 2 (by omega) t ht _ mx) hth0 hth1 m1 m2 ht hdt
  have ce := central_error e s Q t1 t2 (fun j t => D j 0 t (x (i + 1))) (fun j hj t ht => hS.time j hj t ht _ mx) (fun t ht => hB.jerk t ht _ mx) m1 m2 ht
  have pde := hS.pde _ mm _ mx
  have ha := hB.second _ mm _ mx
  have hbb := hB.first _ mm _ mx
  have hz := hB.zeroth _ mm _ mx
  have hQ : 0 ≤ Q := (abs_nonneg _).trans (hB.jerk _ mm _ mx)
  rw [hc.1, hc.2.1, hc.2.2] at r1 r2
  rw [r1, r2]
  clear r1 r2 hc
  generalize 2 / (x (i + 2) - x i) * ((D 0 0 t1 (x (i + 2)) - D 0 0 t1 (x (i + 1))) / (x (i + 2) - x (i + 1)) -
    (D 0 0 t1 (x (i + 1)) - D 0 0 t1 (x i)) / (x (i + 1) - x i)) = s21 at *
  generalize 2 / (x (i + 2) - x i) * ((D 0 0 t2 (x (i + 2)) - D 0 0 t2 (x (i + 1))) / (x (i + 2) - x (i + 1)) -
    (D 0 0 t2 (x (i + 1)) - D 0 0 t2 (x i)) / (x (i + 1) - x i)) = s22 at *
  generalize ((x (i + 1) - x i) / (x (i + 2) - x (i + 1)) * (D 0 0 t1 (x (i + 2)) - D 0 0 t1 (x (i + 1))) +
    (x (i + 2) - x (i + 1)) / (x (i + 1) - x i) * (D 0 0 t1 (x (i + 1)) - D 0 0 t1 (x i))) / (x (i + 2) - x i) = s11 at *
  generalize ((x (i + 1) - x i) / (x (i + 2) - x (i + 1)) * (D 0 0 t2 (x (i + 2)) - D 0 0 t2 (x (i + 1))) +
    (x (i + 2) - x (i + 1)) / (x (i + 1) - x i) * (D 0 0 t2 (x (i + 1)) - D 0 0 t2 (x i))) / (x (i + 2) - x i) = s12 at *
  generalize a ((t1 + t2) / 2) (x (i + 1)) = aa at *
  generalize b ((t1 + t2) / 2) (x (i + 1)) = bb at *
  generalize z ((t1 + t2) / 2) (x (i + 1)) = zz at *
  generalize D 0 0 ((t1 + t2) / 2) (x (i + 1)) = u at *
  generalize D 1 0 ((t1 + t2) / 2) (x (i + 1)) = ut at *
  generalize D 0 1 ((t1 + t2) / 2) (x (i + 1)) = ux at *
  generalize D 0 2 ((t1 + t2) / 2) (x (i + 1)) = uxx at *
  generalize D 0 0 t1 (x (i + 1)) = u1 at *
  generalize D 0 0 t2 (x (i + 1)) = u2 at *
  generalize D 0 1 t1 (x (i + 1)) = ux1 at *
  generalize D 0 1 t2 (x (i + 1)) = ux2 at *
  generalize D 0 2 t1 (x (i + 1)) = uxx1 at *
  generalize D 0 2 t2 (x (i + 1)) = uxx2 at *
  unfold truncation
  have hd : 0 ≤ t1 - t2 := by linarith
  have mix : ∀ p1 p2 q1 q2 q R1 R2 : ℝ, |p1 - q1| ≤ R1 → |p2 - q2| ≤ R1 → |theta * q1 + (1 - theta) * q2 - q| ≤ R2 →
      |theta * p1 + (1 - theta) * p2 - q| ≤ R2 + R1 := by
    intro p1 p2 q1 q2 q R1 R2 k1 k2 k3
    have id : theta * p1 + (1 - theta) * p2 - q = (theta * q1 + (1 - theta) * q2 - q) + (theta * (p1 - q1) + (1 - theta) * (p2 - q2)) := by ring
    rw [id]
    refine (abs_add_le _ _).trans (add_le_add k3 ((abs_add_le _ _).trans ?_))
    rw [abs_mul, abs_mul, abs_of_nonneg hth0, abs_of_nonneg (show 0 ≤ 1 - theta by linarith)]
    have b1 := mul_le_mul_of_nonneg_left k1 hth0
    have b2 := mul_le_mul_of_nonneg_left k2 (show 0 ≤ 1 - theta by linarith)
    linarith
  have x2 := mix _ _ _ _ _ _ _ d1.1 d2.1 av2
  have x1 := mix _ _ _ _ _ _ _ d1.2 d2.2 av1
  have id : u2 - u1 + (t1 - t2) * (theta * -(aa * s21 + bb * s11 + zz * u1) + (1 - theta) * -(aa * s22 + bb * s12 + zz * u2)) =
      -(u1 - u2 - (t1 - t2) * ut) + -((t1 - t2) * (aa * (theta * s21 + (1 - theta) * s22 - uxx) + bb * (theta * s11 + (1 - theta) * s12 - ux) +
        zz * (theta * u1 + (1 - theta) * u2 - u))) := by linear_combination -(t1 - t2) * pde
  rw [id]
  have p1 : |aa * (theta * s21 + (1 - theta) * s22 - uxx)| ≤ A * (averageError theta dt (P 2) (N 2) + (M3 * sigma / 3 + M4 * h ^ 2 / 12)) := by
    rw [abs_mul]; exact mul_le_mul ha x2 (abs_nonneg _) ((abs_nonneg _).trans ha)
  have p2 : |bb * (theta * s11 + (1 - theta) * s12 - ux)| ≤ B * (averageError theta dt (P 1) (N 1) + M3 * h ^ 2 / 6) := by
    rw [abs_mul]; exact mul_le_mul hbb x1 (abs_nonneg _) ((abs_nonneg _).trans hbb)
  have p3 : |zz * (theta * u1 + (1 - theta) * u2 - u)| ≤ C * averageError theta dt (P 0) (N 0) := by
    rw [abs_mul]; exact mul_le_mul hz av0 (abs_nonneg _) ((abs_nonneg _).trans hz)
  have p4 : Q * (t1 - t2) ^ 2 / 24 ≤ Q * dt ^ 2 / 24 := by
    have : (t1 - t2) ^ 2 ≤ dt ^ 2 := pow_le_pow_left₀ hd hdt 2
    have := mul_le_mul_of_nonneg_left this hQ
    linarith
  refine (abs_add_le _ _).trans ?_
  rw [abs_neg, abs_neg, abs_mul, abs_of_nonneg hd]
  have p5 := (abs_add_three (aa * (theta * s21 + (1 - theta) * s22 - uxx)) (bb * (theta * s11 + (1 - theta) * s12 - ux))
    (zz * (theta * u1 + (1 - theta) * u2 - u))).trans (add_le_add (add_le_add p1 p2) p3)
  have p6 := mul_le_mul_of_nonneg_left p5 hd
  have p7 := mul_le_mul_of_nonneg_left p4 hd
  linarith

/-- A smaller explicit part is stable as well. -/
theorem stable_mono (c : PdeCoeffs ℝ) (x : Nat → ℝ) (k : Nat) (mu mu' : ℝ) (h : Stable c x k mu) (h0 : 0 ≤ mu') (hle : mu' ≤ mu) : Stable c x k mu' := by
  refine ⟨h.innerSecond, h.innerFirst, h.up, h.low, h.zeroth, fun i hi => ?_⟩
  have := h.cfl i hi
  rcases le_total 0 (-coeffAt c.zeroth (i + 1) + (2 * coeffAt c.second (i + 1) +
    coeffAt c.first (i + 1) * (x (i + 1) - x i - (x (i + 2) - x (i + 1)))) / ((x (i + 1) - x i) * (x (i + 2) - x (i + 1)))) with hc | hc
  · exact (mul_le_mul_of_nonneg_right hle hc).trans this
  · exact (mul_nonpos_of_nonneg_of_nonpos h0 hc).trans zero_le_one

/-- The grid points are in the interval. -/
theorem grid_mem (x : Nat → ℝ) (k : Nat) (hx : ∀ i, i < k + 3 → x i < x (i + 1)) (i : Nat) (hi : i ≤ k + 3) : x 0 ≤ x i ∧ x i ≤ x (k + 3) := by
  constructor
  · induction i with
    | zero => exact le_rfl
    | succ i ih => exact (ih (by omega)).trans (hx i (by omega)).le
  · obtain ⟨j, hj⟩ := Nat.exists_eq_add_of_le hi
    rw [hj]
    have : ∀ m, i + m ≤ k + 3 → x i ≤ x (i + m) := by
      intro m
      induction m with
      | zero => intro _; exact le_rfl
      | succ m ih => intro hm; exact (ih (by omega)).trans (hx (i + m) (by omega)).le
    exact this j (by omega)

/-- C116, one step: the error grows by at most the length of the step times the truncation error. -/
theorem C116_step {D : ℕ → ℕ → ℝ → ℝ → ℝ} {a b z : ℝ → ℝ → ℝ} {e s lo hi A B C M3 M4 Q : ℝ} {P N : ℕ → ℝ}
    (hS : ClassicalSolution D a b z e s lo hi) (hB : Bounded D a b z e s lo hi A B C M3 M4 Q P N)
    (xs values : List ℝ) (k : ℕ) (c : ℝ → PdeCoeffs ℝ) (f g : BoundaryFn ℝ) (hD : Discretises xs k c f g (D 0 0) a b z e s lo hi)
    (h sigma theta dt t1 t2 E : ℝ) (hm : Mesh xs k h sigma) (hth0 : 0 ≤ theta) (hth1 : theta ≤ 1)
    (m1 : t1 ∈ Icc e s) (m2 : t2 ∈ Icc e s) (ht : t2 < t1) (hdt : t1 - t2 ≤ dt)
    (hst : Stable (c ((t1 + t2) / 2)) (fun i => xs.getD i 0) k (theta * (t1 - t2)))
    (hvl : values.length = k + 4) (hv : ∀ i, i < k + 4 → |values.getD i 0 - D 0 0 t1 (xs.getD i 0)| ≤ E)
    (hE : averageError theta dt (P 0) (N 0) ≤ E) :
    ∃ w, parabolicStep t1 t2 xs values (some f) (some g) c (weightedScheme theta) = some w ∧ w.length = k + 4 ∧
      ∀ i, i < k + 4 → |w.getD i 0 - D 0 0 t2 (xs.getD i 0)| ≤ E + (t1 - t2) * truncation theta dt h sigma A B C M3 M4 Q P N := by
  have mm : (t1 + t2) / 2 ∈ Icc e s := ⟨by linarith [m1.1, m2.1], by linarith [m1.2, m2.2]⟩
  have hx := hD.increasing
  have hmem : ∀ i, i ≤ k + 3 → xs.getD i 0 ∈ Icc lo hi := by
    intro i hi
    have := grid_mem (fun i => xs.getD i 0) k hx i hi
    simp only [hD.first, hD.last] at this
    exact this
  have mlo : lo ∈ Icc lo hi := by have := hmem 0 (by omega); rwa [hD.first] at this
  have mhi : hi ∈ Icc lo hi := by have := hmem (k + 3) le_rfl; rwa [hD.last] at this
  obtain ⟨nA, nB, nC, n3, n4, nQ, nP, nN⟩ := bounded_nonneg hB (m1.1.trans m1.2) (mlo.1.trans mlo.2)
  have hE0 : 0 ≤ E := (averageError_nonneg theta dt _ _ (by linarith) (nP 0 (by omega)) (nN 0 (by omega))).trans hE
  have hh : 0 ≤ sigma := (abs_nonneg _).trans (hm.change 0 (by omega))
  have htau : 0 ≤ truncation theta dt h sigma A B C M3 M4 Q P N := by
    have v0 := averageError_nonneg theta dt _ _ (by linarith) (nP 0 (by omega)) (nN 0 (by omega))
    have v1 := averageError_nonneg theta dt _ _ (by linarith) (nP 1 (by omega)) (nN 1 (by omega))
    have v2 := averageError_nonneg theta dt _ _ (by linarith) (nP 2 (by omega)) (nN 2 (by omega))
    unfold truncation
    positivity
  obtain ⟨w, hw⟩ := dirichlet_total (fun i => xs.getD i 0) (fun i => values.getD i 0) k hx c f g theta t1 t2 _ _ _ _ (hD.onGrid _ mm)
    (hD.lower _ mm) (hD.upper _ mm) (hD.lower _ m2) (hD.upper _ m2) hth0 hth1 ht.le _ hst
  obtain ⟨_, _, hwl, hw0, hwn, v', w', a1, a2, a3, a4, a5, heq⟩ := dirichlet_rows (fun i => xs.getD i 0) (fun i => values.getD i 0) k hx c f g theta t1 t2
    _ _ _ _ (hD.onGrid _ mm) (hD.lower _ mm) (hD.upper _ mm) (hD.lower _ m2) (hD.upper _ m2) w hw
  rw [← asRange xs _ hD.length, ← asRange values _ hvl] at hw
  refine ⟨w, hw, hwl, ?_⟩
  have hEn := stable_entries _ _ k _ hx hst
  have hd : 0 < t1 - t2 := by linarith
  have hav : ∀ y ∈ Icc lo hi, |D 0 0 ((t1 + t2) / 2) y - (theta * D 0 0 t1 y + (1 - theta) * D 0 0 t2 y)| ≤ E := by
    intro y my
    rw [abs_sub_comm]
    exact (average_error e s (P 0) (N 0) theta dt t1 t2 (fun j t => D j 0 t y) (fun j hj t ht => hS.time j (by omega) t ht _ my)
      (fun t ht => hB.speed 0 (by omega) t ht _ my) (fun t ht => hB.acceleration 0 (by omega) t ht _ my) hth0 hth1 m1 m2 ht.le hdt).trans hE
  have gx : ∀ i, (fun i => xs.getD i 0) i = xs.getD i 0 := fun _ => rfl
  -- errors, at the boundaries those of the average
  obtain ⟨ev, hev⟩ : ∃ ev : Nat → ℝ, ∀ i, ev i = if i = 0 ∨ i = k + 3 then
      D 0 0 ((t1 + t2) / 2) (xs.getD i 0) - (theta * D 0 0 t1 (xs.getD i 0) + (1 - theta) * D 0 0 t2 (xs.getD i 0)) else v' i - D 0 0 t1 (xs.getD i 0) :=
    ⟨_, fun _ => rfl⟩
  obtain ⟨ew, hew⟩ : ∃ ew : Nat → ℝ, ∀ i, ew i = if i = 0 ∨ i = k + 3 then
      D 0 0 ((t1 + t2) / 2) (xs.getD i 0) - (theta * D 0 0 t1 (xs.getD i 0) + (1 - theta) * D 0 0 t2 (xs.getD i 0)) else w' i - D 0 0 t2 (xs.getD i 0) :=
    ⟨_, fun _ => rfl⟩
  obtain ⟨r, hr⟩ : ∃ r : Nat → ℝ, ∀ i, (t1 - t2) * r i = -(D 0 0 t2 (xs.getD (i + 1) 0) - D 0 0 t1 (xs.getD (i + 1) 0) + (t1 - t2) *
      (theta * (entryLo (c ((t1 + t2) / 2)) (fun i => xs.getD i 0) i * D 0 0 t1 (xs.getD i 0) +
        entryDiag (c ((t1 + t2) / 2)) (fun i => xs.getD i 0) i * D 0 0 t1 (xs.getD (i + 1) 0) +
        entryUp (c ((t1 + t2) / 2)) (fun i => xs.getD i 0) i * D 0 0 t1 (xs.getD (i + 2) 0)) +
      (1 - theta) * (entryLo (c ((t1 + t2) / 2)) (fun i => xs.getD i 0) i * D 0 0 t2 (xs.getD i 0) +
        entryDiag (c ((t1 + t2) / 2)) (fun i => xs.getD i 0) i * D 0 0 t2 (xs.getD (i + 1) 0) +
        entryUp (c ((t1 + t2) / 2)) (fun i => xs.getD i 0) i * D 0 0 t2 (xs.getD (i + 2) 0)))) :=
    ⟨fun i => _ / (t1 - t2), fun i => mul_div_cancel₀ _ hd.ne'⟩
  have hrb : ∀ i, i < k + 2 → |r i| ≤ truncation theta dt h sigma A B C M3 M4 Q P N := by
    intro i hi
    have := residual_bound hS hB (c ((t1 + t2) / 2)) (fun i => xs.getD i 0) i (hmem i (by omega)).1 (hx i (by omega)) (hx (i + 1) (by omega))
      (hmem (i + 2) (by omega)).2 h sigma theta dt t1 t2 (hm.size i (by omega)) (hm.size (i + 1) (by omega)) (hm.change i hi) hth0 hth1 m1 m2 ht.le hdt
      hst.innerSecond hst.innerFirst (hD.coeffs _ mm i hi)
    have e := hr i
    rw [← abs_neg, ← e, abs_mul, abs_of_pos hd] at this
    exact le_of_mul_le_mul_left this hd
  -- the combination that occurs in the rows
  have comb : ∀ i, i < k + 4 → theta * ev i + (1 - theta) * ew i =
      theta * (v' i - D 0 0 t1 (xs.getD i 0)) + (1 - theta) * (w' i - D 0 0 t2 (xs.getD i 0)) := by
    intro i hi
    rw [hev, hew]
    by_cases h0 : i = 0
    · rw [if_pos (Or.inl h0), if_pos (Or.inl h0), h0, a1, a2, hD.first]; ring
    · by_cases h3 : i = k + 3
      · rw [if_pos (Or.inr h3), if_pos (Or.inr h3), h3, a3, a4, hD.last]; ring
      · rw [if_neg (by omega), if_neg (by omega)]
  have rows : ∀ i, i < k + 2 → ew (i + 1) - ev (i + 1) = -(t1 - t2) *
      (theta * (entryLo (c ((t1 + t2) / 2)) (fun i => xs.getD i 0) i * ev i + entryDiag (c ((t1 + t2) / 2)) (fun i => xs.getD i 0) i * ev (i + 1) +
        entryUp (c ((t1 + t2) / 2)) (fun i => xs.getD i 0) i * ev (i + 2)) +
      (1 - theta) * (entryLo (c ((t1 + t2) / 2)) (fun i => xs.getD i 0) i * ew i + entryDiag (c ((t1 + t2) / 2)) (fun i => xs.getD i 0) i * ew (i + 1) +
        entryUp (c ((t1 + t2) / 2)) (fun i => xs.getD i 0) i * ew (i + 2))) + (t1 - t2) * r i := by
    intro i hi
    have c0 := comb i (by omega)
    have c1 := comb (i + 1) (by omega)
    have c2 := comb (i + 2) (by omega)
    have q := heq i hi
    have e1 : ev (i + 1) = v' (i + 1) - D 0 0 t1 (xs.getD (i + 1) 0) := by rw [hev, if_neg (by omega)]
    have e2 : ew (i + 1) = w' (i + 1) - D 0 0 t2 (xs.getD (i + 1) 0) := by rw [hew, if_neg (by omega)]
    rw [hr i]
    rw [e1, e2] at c1 ⊢
    linear_combination q + (t1 - t2) * entryLo (c ((t1 + t2) / 2)) (fun i => xs.getD i 0) i * c0 +
      (t1 - t2) * entryUp (c ((t1 + t2) / 2)) (fun i => xs.getD i 0) i * c2
  have bv : ∀ i, i < k + 2 + 2 → |ev i| ≤ E := by
    intro i hi
    rw [hev]
    split
    · exact hav _ (hmem i (by omega))
    · next hn =>
      push Not at hn
      rw [(a5 i (by omega) (by omega)).1]
      exact hv i hi
  have bw : ∀ i, i = 0 ∨ i = k + 3 → |ew i| ≤ E := by
    intro i hi
    rw [hew, if_pos hi]
    exact hav _ (hmem i (by omega))
  have up := core_max_residual (k + 2) (entryLo (c ((t1 + t2) / 2)) (fun i => xs.getD i 0)) (entryDiag (c ((t1 + t2) / 2)) (fun i => xs.getD i 0))
    (entryUp (c ((t1 + t2) / 2)) (fun i => xs.getD i 0)) ev ew r theta (t1 - t2) E _ hth0 hth1 hd.le htau hE0
    (fun i h => (hEn i h).1) (fun i h => (hEn i h).2.1) (fun i h => by rw [(hEn i h).2.2.1]; linarith [hst.zeroth i h])
    (fun i h => (hEn i h).2.2.2) (fun i h => (abs_le.1 (hrb i h)).2) rows (fun i h => (abs_le.1 (bv i h)).2)
    (abs_le.1 (bw 0 (Or.inl rfl))).2 (abs_le.1 (bw (k + 2 + 1) (Or.inr rfl))).2
  have dn := core_max_residual (k + 2) (entryLo (c ((t1 + t2) / 2)) (fun i => xs.getD i 0)) (entryDiag (c ((t1 + t2) / 2)) (fun i => xs.getD i 0))
    (entryUp (c ((t1 + t2) / 2)) (fun i => xs.getD i 0)) (fun i => -ev i) (fun i => -ew i) (fun i => -r i) theta (t1 - t2) E _ hth0 hth1 hd.le htau hE0
    (fun i h => (hEn i h).1) (fun i h => (hEn i h).2.1) (fun i h => by rw [(hEn i h).2.2.1]; linarith [hst.zeroth i h])
    (fun i h => (hEn i h).2.2.2) (fun i h => neg_le.1 (abs_le.1 (hrb i h)).1) (fun i h => by linear_combination -(rows i h))
    (fun i h => neg_le.1 (abs_le.1 (bv i h)).1)
    (neg_le.1 (abs_le.1 (bw 0 (Or.inl rfl))).1) (neg_le.1 (abs_le.1 (bw (k + 2 + 1) (Or.inr rfl))).1)
  have pos : 0 ≤ E + (t1 - t2) * truncation theta dt h sigma A B C M3 M4 Q P N := add_nonneg hE0 (mul_nonneg hd.le htau)
  intro i hi
  by_cases h0 : i = 0
  · rw [h0, hw0, hD.first, sub_self, abs_zero]; exact pos
  · by_cases h3 : i = k + 3
    · rw [h3, hwn, hD.last, sub_self, abs_zero]; exact pos
    · have u1 := up i (by omega)
      have d1 := dn i (by omega)
      rw [hew, if_neg (by omega), (a5 i (by omega) (by omega)).2] at u1
      rw [hew, if_neg (by omega), (a5 i (by omega) (by omega)).2] at d1
      exact abs_le.2 ⟨by linarith, u1⟩

/-- The steps of the solver with the grid, the conditions and the coefficients fixed. -/
noncomputable def fdStep (xs : List ℝ) (c : ℝ → PdeCoeffs ℝ) (f g : BoundaryFn ℝ) (theta : ℝ) (t1 t2 : ℝ) (_ : Nat) (values : List ℝ) : Option (List ℝ) :=
  parabolicStep t1 t2 xs values (some f) (some g) c (weightedScheme theta)

/-- Errors add up over the steps. -/
theorem march_error {D : ℕ → ℕ → ℝ → ℝ → ℝ} {a b z : ℝ → ℝ → ℝ} {e s lo hi A B C M3 M4 Q : ℝ} {P N : ℕ → ℝ}
    (hS : ClassicalSolution D a b z e s lo hi) (hB : Bounded D a b z e s lo hi A B C M3 M4 Q P N)
    (xs : List ℝ) (k : ℕ) (c : ℝ → PdeCoeffs ℝ) (f g : BoundaryFn ℝ) (hD : Discretises xs k c f g (D 0 0) a b z e s lo hi)
    (h sigma theta dt : ℝ) (hm : Mesh xs k h sigma) (hth0 : 0 ≤ theta) (hth1 : theta ≤ 1)
    (hst : ∀ t ∈ Icc e s, Stable (c t) (fun i => xs.getD i 0) k (theta * dt)) (times : ℕ → ℝ) (k0 L : ℕ)
    (hmem : ∀ i, i ≤ L → times i ∈ Icc e s) (hlt : ∀ i, i < L → times (i + 1) < times i) (hdt : ∀ i, i < L → times i - times (i + 1) ≤ dt)
    (n i : ℕ) (hL : i + n = L) (values : List ℝ) (E : ℝ) (hvl : values.length = k + 4)
    (hv : ∀ j, j < k + 4 → |values.getD j 0 - D 0 0 (times i) (xs.getD j 0)| ≤ E) (hE : averageError theta dt (P 0) (N 0) ≤ E)
    (htau : 0 ≤ truncation theta dt h sigma A B C M3 M4 Q P N) :
    ∃ w, march (fdStep xs c f g theta) none times k0 i n values = some w ∧ w.length = k + 4 ∧
      ∀ j, j < k + 4 → |w.getD j 0 - D 0 0 (times L) (xs.getD j 0)| ≤ E + (times i - times L) * truncation theta dt h sigma A B C M3 M4 Q P N := by
  induction n generalizing i values E with
  | zero =>
    refine ⟨values, rfl, hvl, fun j hj => ?_⟩
    rw [← hL, Nat.add_zero, sub_self, zero_mul, add_zero]
    exact hv j hj
  | succ n ih =>
    have hi : i < L := by omega
    have m1 := hmem i hi.le
    have m2 := hmem (i + 1) hi
    have mm : (times i + times (i + 1)) / 2 ∈ Icc e s := ⟨by linarith [m1.1, m2.1], by linarith [m1.2, m2.2]⟩
    have hd := sub_pos.2 (hlt i hi)
    obtain ⟨w, hw, hwl, hwe⟩ := C116_step hS hB xs values k c f g hD h sigma theta dt (times i) (times (i + 1)) E hm hth0 hth1 m1 m2 (hlt i hi) (hdt i hi)
      (stable_mono _ _ _ _ _ (hst _ mm) (mul_nonneg hth0 hd.le) (mul_le_mul_of_nonneg_left (hdt i hi) hth0)) hvl hv hE
    obtain ⟨w2, hw2, hwl2, hwe2⟩ := ih (i + 1) (by omega) w _ hwl hwe (hE.trans (le_add_of_nonneg_right (mul_nonneg hd.le htau)))
    refine ⟨w2, ?_, hwl2, fun j hj => (hwe2 j hj).trans (le_of_eq (by ring))⟩
    have : fdStep xs c f g theta (times i) (times (i + 1)) (k0 + i) values = some w := hw
    unfold march
    rw [this]
    exact hw2

/-- The truncation error is not negative. -/
theorem truncation_nonneg {D : ℕ → ℕ → ℝ → ℝ → ℝ} {a b z : ℝ → ℝ → ℝ} {e s lo hi A B C M3 M4 Q : ℝ} {P N : ℕ → ℝ}
    (hB : Bounded D a b z e s lo hi A B C M3 M4 Q P N) (hes : e ≤ s) (hlh : lo ≤ hi) (theta dt h sigma : ℝ) (hdt : 0 ≤ dt) (hs : 0 ≤ sigma) :
    0 ≤ truncation theta dt h sigma A B C M3 M4 Q P N := by
  obtain ⟨nA, nB, nC, n3, n4, nQ, nP, nN⟩ := bounded_nonneg hB hes hlh
  have v0 := averageError_nonneg theta dt _ _ hdt (nP 0 (by omega)) (nN 0 (by omega))
  have v1 := averageError_nonneg theta dt _ _ hdt (nP 1 (by omega)) (nN 1 (by omega))
  have v2 := averageError_nonneg theta dt _ _ hdt (nP 2 (by omega)) (nN 2 (by omega))
  unfold truncation
  positivity

/-- C116: with `n` steps the solver succeeds, and the error at the end time is at most the error of the given values plus that of the
boundary conditions in the middle of the steps plus the truncation error times the length of the time interval. -/
theorem C116_error {D : ℕ → ℕ → ℝ → ℝ → ℝ} {a b z : ℝ → ℝ → ℝ} {e s lo hi A B C M3 M4 Q : ℝ} {P N : ℕ → ℝ}
    (hS : ClassicalSolution D a b z e s lo hi) (hB : Bounded D a b z e s lo hi A B C M3 M4 Q P N) (he : 0 ≤ e) (hes : e < s)
    (xs values : List ℝ) (k : ℕ) (c : ℝ → PdeCoeffs ℝ) (f g : BoundaryFn ℝ) (hD : Discretises xs k c f g (D 0 0) a b z e s lo hi)
    (h sigma theta eps : ℝ) (hm : Mesh xs k h sigma) (hth0 : 0 ≤ theta) (hth1 : theta ≤ 1) (n k0 : ℕ) (hn : 0 < n)
    (hst : ∀ t ∈ Icc e s, Stable (c t) (fun i => xs.getD i 0) k (theta * ((s - e) / n)))
    (hvl : values.length = k + 4) (hv : ∀ i, i < k + 4 → |values.getD i 0 - D 0 0 s (xs.getD i 0)| ≤ eps) :
    ∃ w, solveBackward s e values (some n) k0 none (fdStep xs c f g theta) none = some (w, e, k0 + n) ∧ w.length = k + 4 ∧
      ∀ i, i < k + 4 → |w.getD i 0 - D 0 0 e (xs.getD i 0)| ≤
        eps + averageError theta ((s - e) / n) (P 0) (N 0) + (s - e) * truncation theta ((s - e) / n) h sigma A B C M3 M4 Q P N := by
  have hn' : (0 : ℝ) < n := by exact_mod_cast hn
  have hdt : 0 < (s - e) / n := div_pos (by linarith) hn'
  have hlh : lo ≤ hi := by
    have := (grid_mem (fun i => xs.getD i 0) k hD.increasing 0 (by omega)).2
    simp only [hD.first, hD.last] at this
    exact this
  obtain ⟨nA, nB, nC, n3, n4, nQ, nP, nN⟩ := bounded_nonneg hB hes.le hlh
  have hav := averageError_nonneg theta ((s - e) / n) _ _ hdt.le (nP 0 (by omega)) (nN 0 (by omega))
  have heps : 0 ≤ eps := (abs_nonneg _).trans (hv 0 (by omega))
  have hend : s - n * ((s - e) / n) = e := by field_simp; ring
  have htime : ∀ i : ℕ, i ≤ n → (if i < n then s - i * ((s - e) / n) else e) = s - i * ((s - e) / n) := by
    intro i hi
    split
    · rfl
    · next hc => rw [show i = n by omega, hend]
  have hcast : ∀ i : ℕ, i ≤ n → (i : ℝ) * ((s - e) / n) ≤ s - e := by
    intro i hi
    have : (i : ℝ) ≤ n := by exact_mod_cast hi
    have := mul_le_mul_of_nonneg_right this hdt.le
    linarith
  obtain ⟨w, hw, hwl, hwe⟩ := march_error hS hB xs k c f g hD h sigma theta ((s - e) / n) hm hth0 hth1 hst
    (fun i => if i < n then s - i * ((s - e) / n) else e) k0 n
    (fun i hi => by
      simp only [htime i hi]
      have := hcast i hi
      have : 0 ≤ (i : ℝ) * ((s - e) / n) := by positivity
      exact ⟨by linarith, by linarith⟩)
    (fun i hi => by simp only [htime i hi.le, htime (i + 1) hi]; push_cast; linarith)
    (fun i hi => by simp only [htime i hi.le, htime (i + 1) hi]; push_cast; linarith)
    n 0 (by omega) values (eps + averageError theta ((s - e) / n) (P 0) (N 0)) hvl
    (fun j hj => by
      simp only [if_pos hn, Nat.cast_zero, zero_mul, sub_zero]
      linarith [hv j hj]) (by linarith)
    (truncation_nonneg hB hes.le hlh _ _ _ _ hdt.le ((abs_nonneg _).trans (hm.change 0 (by omega))))
  refine ⟨w, ?_, hwl, fun i hi => ?_⟩
  · rw [C47_backward_steps s e he hes n hn, hw]; rfl
  · have := hwe i hi
    simp only [if_pos hn, lt_irrefl, if_false, Nat.cast_zero, zero_mul, sub_zero] at this
    exact this

/-- C116 with a given time step, the last step being shorter if necessary. -/
theorem C116_error_dt {D : ℕ → ℕ → ℝ → ℝ → ℝ} {a b z : ℝ → ℝ → ℝ} {e s lo hi A B C M3 M4 Q : ℝ} {P N : ℕ → ℝ}
    (hS : ClassicalSolution D a b z e s lo hi) (hB : Bounded D a b z e s lo hi A B C M3 M4 Q P N) (he : 0 ≤ e) (hes : e < s)
    (xs values : List ℝ) (k : ℕ) (c : ℝ → PdeCoeffs ℝ) (f g : BoundaryFn ℝ) (hD : Discretises xs k c f g (D 0 0) a b z e s lo hi)
    (h sigma theta eps dt : ℝ) (hm : Mesh xs k h sigma) (hth0 : 0 ≤ theta) (hth1 : theta ≤ 1) (k0 : ℕ) (hdt : 0 < dt)
    (hst : ∀ t ∈ Icc e s, Stable (c t) (fun i => xs.getD i 0) k (theta * dt))
    (hvl : values.length = k + 4) (hv : ∀ i, i < k + 4 → |values.getD i 0 - D 0 0 s (xs.getD i 0)| ≤ eps) :
    ∃ w, solveBackward s e values none k0 (some (.const dt)) (fdStep xs c f g theta) none = some (w, e, k0 + ⌈(s - e) / dt⌉.toNat) ∧
      w.length = k + 4 ∧ ∀ i, i < k + 4 → |w.getD i 0 - D 0 0 e (xs.getD i 0)| ≤
        eps + averageError theta dt (P 0) (N 0) + (s - e) * truncation theta dt h sigma A B C M3 M4 Q P N := by
  have hlh : lo ≤ hi := by
    have := (grid_mem (fun i => xs.getD i 0) k hD.increasing 0 (by omega)).2
    simp only [hD.first, hD.last] at this
    exact this
  obtain ⟨nA, nB, nC, n3, n4, nQ, nP, nN⟩ := bounded_nonneg hB hes.le hlh
  have hav := averageError_nonneg theta dt _ _ hdt.le (nP 0 (by omega)) (nN 0 (by omega))
  have heps : 0 ≤ eps := (abs_nonneg _).trans (hv 0 (by omega))
  have hpos : 0 < (s - e) / dt := div_pos (by linarith) hdt
  have hc0 : 0 < ⌈(s - e) / dt⌉ := Int.ceil_pos.2 hpos
  have hcast : ((⌈(s - e) / dt⌉.toNat : ℕ) : ℝ) = ((⌈(s - e) / dt⌉ : ℤ) : ℝ) := by
    have : ((⌈(s - e) / dt⌉.toNat : ℕ) : ℤ) = ⌈(s - e) / dt⌉ := Int.toNat_of_nonneg hc0.le
    exact_mod_cast this
  have hge : s - e ≤ ((⌈(s - e) / dt⌉.toNat : ℕ) : ℝ) * dt := by
    rw [hcast, ← div_le_iff₀ hdt]; exact Int.le_ceil _
  have hlt' : ((⌈(s - e) / dt⌉.toNat : ℕ) : ℝ) * dt < s - e + dt := by
    have := Int.ceil_lt_add_one ((s - e) / dt)
    rw [← hcast] at this
    have h2 := mul_lt_mul_of_pos_right this hdt
    rw [add_mul, div_mul_cancel₀ _ hdt.ne', one_mul] at h2
    exact h2
  have hL : 0 < ⌈(s - e) / dt⌉.toNat := by omega
  rw [C47_backward_dt s e dt he hes.le hdt]
  generalize ⌈(s - e) / dt⌉.toNat = L at *
  have inside : ∀ i : ℕ, i < L → (i : ℝ) * dt < s - e := by
    intro i hi
    have : (i : ℝ) + 1 ≤ L := by exact_mod_cast hi
    have := mul_le_mul_of_nonneg_right this hdt.le
    linarith
  obtain ⟨w, hw, hwl, hwe⟩ := march_error hS hB xs k c f g hD h sigma theta dt hm hth0 hth1 hst
    (fun i => if i < L then s - i * dt else e) k0 L
    (fun i hi => by
      split
      · next hc =>
        have := inside i hc
        have : 0 ≤ (i : ℝ) * dt := by positivity
        exact ⟨by linarith, by linarith⟩
      · exact ⟨le_rfl, hes.le⟩)
    (fun i hi => by
      simp only [if_pos hi]
      split
      · push_cast; linarith
      · linarith [inside i hi])
    (fun i hi => by
      simp only [if_pos hi]
      split
      · push_cast; linarith
      · next hc =>
        have : (i : ℝ) + 1 = L := by exact_mod_cast (show i + 1 = L by omega)
        rw [← this] at hge
        linarith)
    L 0 (by omega) values (eps + averageError theta dt (P 0) (N 0)) hvl
    (fun j hj => by
      simp only [if_pos hL, Nat.cast_zero, zero_mul, sub_zero]
      linarith [hv j hj]) (by linarith)
    (truncation_nonneg hB hes.le hlh _ _ _ _ hdt.le ((abs_nonneg _).trans (hm.change 0 (by omega))))
  refine ⟨w, ?_, hwl, fun i hi => ?_⟩
  · rw [hw]; rfl
  · have := hwe i hi
    simp only [if_pos hL, lt_irrefl, if_false, Nat.cast_zero, zero_mul, sub_zero] at this
    exact this

/-- Stability of the implicit scheme. -/
theorem implicit_stable (xs : List ℝ) (k : ℕ) (c : PdeCoeffs ℝ) (h alpha : ℝ) (hx : ∀ i, i < k + 3 → xs.getD i 0 < xs.getD (i + 1) 0)
    (hm : ∀ i, i < k + 3 → xs.getD (i + 1) 0 - xs.getD i 0 ≤ h) (hi2 : c.innerSecond = none) (hi1 : c.innerFirst = none)
    (ha : ∀ i, i < k + 2 → alpha ≤ coeffAt c.second (i + 1)) (hb : ∀ i, i < k + 2 → |coeffAt c.first (i + 1)| * h ≤ 2 * alpha)
    (hz : ∀ i, i < k + 2 → coeffAt c.zeroth (i + 1) ≤ 0) : Stable c (fun i => xs.getD i 0) k 0 := by
  refine ⟨hi2, hi1, fun i hi => ?_, fun i hi => ?_, hz, fun i hi => by simp⟩
  · have p1 := hx i (by omega)
    have p2 := mul_le_mul_of_nonneg_left (hm i (by omega)) (abs_nonneg (coeffAt c.first (i + 1)))
    have p3 := mul_le_mul_of_nonneg_right (neg_abs_le (coeffAt c.first (i + 1))) (sub_nonneg.2 p1.le)
    have := ha i hi
    have := hb i hi
    linarith
  · have p1 := hx (i + 1) (by omega)
    have p2 := mul_le_mul_of_nonneg_left (hm (i + 1) (by omega)) (abs_nonneg (coeffAt c.first (i + 1)))
    have p3 := mul_le_mul_of_nonneg_right (le_abs_self (coeffAt c.first (i + 1))) (sub_nonneg.2 p1.le)
    have := ha i hi
    have := hb i hi
    rw [show i + 1 + 1 = i + 2 from rfl] at p2 p3
    linarith

/-- Neighbouring cells differ by at most the mesh size. -/
theorem mesh_any (xs : List ℝ) (k : ℕ) (h : ℝ) (hx : ∀ i, i < k + 3 → xs.getD i 0 < xs.getD (i + 1) 0)
    (hm : ∀ i, i < k + 3 → xs.getD (i + 1) 0 - xs.getD i 0 ≤ h) : Mesh xs k h h := by
  refine ⟨hm, fun i hi => ?_⟩
  have := hx i (by omega)
  have := hx (i + 1) (by omega)
  have := hm i (by omega)
  have := hm (i + 1) (by omega)
  exact abs_le.2 ⟨by linarith, by linarith⟩

/-- C116, order of the implicit scheme: the error is at most `K (dt + h^2 + sigma)` with the same `K` for all grids and numbers of steps;
there is no condition on the time step. -/
theorem C116_implicit {D : ℕ → ℕ → ℝ → ℝ → ℝ} {a b z : ℝ → ℝ → ℝ} {e s lo hi A B C M3 M4 Q : ℝ} {P N : ℕ → ℝ} (alpha : ℝ)
    (hS : ClassicalSolution D a b z e s lo hi) (hB : Bounded D a b z e s lo hi A B C M3 M4 Q P N) (he : 0 ≤ e) (hes : e < s) (hlh : lo ≤ hi)
    (ha : ∀ t ∈ Icc e s, ∀ x ∈ Icc lo hi, alpha ≤ a t x) (hz : ∀ t ∈ Icc e s, ∀ x ∈ Icc lo hi, z t x ≤ 0) :
    ∃ K : ℝ, 0 ≤ K ∧ ∀ (xs values : List ℝ) (k : ℕ) (c : ℝ → PdeCoeffs ℝ) (f g : BoundaryFn ℝ) (h sigma eps : ℝ) (n k0 : ℕ),
      Discretises xs k c f g (D 0 0) a b z e s lo hi → (∀ t ∈ Icc e s, (c t).innerSecond = none ∧ (c t).innerFirst = none) →
      Mesh xs k h sigma → B * h ≤ 2 * alpha → 0 < n → values.length = k + 4 →
      (∀ i, i < k + 4 → |values.getD i 0 - D 0 0 s (xs.getD i 0)| ≤ eps) →
      ∃ w, solveBackward s e values (some n) k0 none (fdStep xs c f g 0) none = some (w, e, k0 + n) ∧ w.length = k + 4 ∧
        ∀ i, i < k + 4 → |w.getD i 0 - D 0 0 e (xs.getD i 0)| ≤ eps + K * ((s - e) / n + h ^ 2 + sigma) := by
  obtain ⟨nA, nB, nC, n3, n4, nQ, nP, nN⟩ := bounded_nonneg hB hes.le hlh
  have nP0 := nP 0 (by omega)
  have nP1 := nP 1 (by omega)
  have nP2 := nP 2 (by omega)
  have nN0 := nN 0 (by omega)
  have nN1 := nN 1 (by omega)
  have nN2 := nN 2 (by omega)
  have hT : 0 < s - e := by linarith
  -- constants in front of the time step, the square of the mesh size and the change of the mesh size
  obtain ⟨R, hR⟩ : ∃ R : ℕ → ℝ, ∀ j, R j = P j / 2 + N j * (s - e) / 8 := ⟨_, fun _ => rfl⟩
  have nR : ∀ j, j < 3 → 0 ≤ R j := by
    intro j hj; rw [hR]
    have := nP j hj
    have := mul_nonneg (nN j hj) hT.le
    linarith
  obtain ⟨K1, hK1⟩ : ∃ K1, K1 = R 0 + (s - e) * (Q * (s - e) / 24 + A * R 2 + B * R 1 + C * R 0) := ⟨_, rfl⟩
  obtain ⟨K2, hK2⟩ : ∃ K2, K2 = (s - e) * (A * M4 / 12 + B * M3 / 6) := ⟨_, rfl⟩
  obtain ⟨K3, hK3⟩ : ∃ K3, K3 = (s - e) * (A * M3 / 3) := ⟨_, rfl⟩
  have p1 : 0 ≤ K1 := by
    have r0 := nR 0 (by omega)
    have r1 := nR 1 (by omega)
    have r2 := nR 2 (by omega)
    rw [hK1]; positivity
  have p2 : 0 ≤ K2 := by rw [hK2]; positivity
  have p3 : 0 ≤ K3 := by rw [hK3]; positivity
  refine ⟨K1 + K2 + K3, by positivity, ?_⟩
  intro xs values k c f g h sigma eps n k0 hD hin hm hstab hn hvl hv
  have hn' : (0 : ℝ) < n := by exact_mod_cast hn
  have hdt : 0 < (s - e) / n := div_pos hT hn'
  have hdts : (s - e) / n ≤ s - e := div_le_self hT.le (by exact_mod_cast hn)
  have hsig : 0 ≤ sigma := (abs_nonneg _).trans (hm.change 0 (by omega))
  have hh : 0 ≤ h := (sub_pos.2 (hD.increasing 0 (by omega))).le.trans (hm.size 0 (by omega))
  have hmem : ∀ i, i ≤ k + 3 → xs.getD i 0 ∈ Icc lo hi := by
    intro i hi
    have := grid_mem (fun i => xs.getD i 0) k hD.increasing i hi
    simp only [hD.first, hD.last] at this
    exact this
  obtain ⟨w, hw, hwl, hwe⟩ := C116_error hS hB he hes xs values k c f g hD h sigma 0 eps hm le_rfl zero_le_one n k0 hn
    (fun t mt => by
      rw [zero_mul]
      refine implicit_stable xs k (c t) h alpha hD.increasing hm.size (hin t mt).1 (hin t mt).2 (fun i hi => ?_) (fun i hi => ?_) (fun i hi => ?_)
      · rw [(hD.coeffs t mt i hi).1]; exact ha t mt _ (hmem _ (by omega))
      · rw [(hD.coeffs t mt i hi).2.1]
        exact (mul_le_mul_of_nonneg_right (hB.first t mt _ (hmem _ (by omega))) hh).trans hstab
      · rw [(hD.coeffs t mt i hi).2.2]; exact hz t mt _ (hmem _ (by omega))) hvl hv
  refine ⟨w, hw, hwl, fun i hi => (hwe i hi).trans ?_⟩
  generalize (s - e) / n = d at *
  have hsq : d ^ 2 ≤ d * (s - e) := by nlinarith
  have av : ∀ j, j < 3 → averageError 0 d (P j) (N j) ≤ R j * d := by
    intro j hj
    unfold averageError
    rw [hR]
    have : |(0 : ℝ) - 1 / 2| = 1 / 2 := by norm_num
    rw [this]
    have := mul_le_mul_of_nonneg_left hsq (nN j hj)
    linarith
  have t0 : truncation 0 d h sigma A B C M3 M4 Q P N ≤ Q * (s - e) / 24 * d + A * (R 2 * d + M3 * sigma / 3 + M4 * h ^ 2 / 12) +
      B * (R 1 * d + M3 * h ^ 2 / 6) + C * (R 0 * d) := by
    unfold truncation
    have q1 := mul_le_mul_of_nonneg_left hsq nQ
    have q2 := mul_le_mul_of_nonneg_left (av 2 (by omega)) nA
    have q3 := mul_le_mul_of_nonneg_left (av 1 (by omega)) nB
    have q4 := mul_le_mul_of_nonneg_left (av 0 (by omega)) nC
    linarith
  have t1 := mul_le_mul_of_nonneg_left t0 hT.le
  have t2 := av 0 (by omega)
  have t3 : K1 * d + K2 * h ^ 2 + K3 * sigma ≤ (K1 + K2 + K3) * (d + h ^ 2 + sigma) := by
    have := mul_nonneg p1 (sq_nonneg h)
    have := mul_nonneg p1 hsig
    have := mul_nonneg p2 hdt.le
    have := mul_nonneg p2 hsig
    have := mul_nonneg p3 hdt.le
    have := mul_nonneg p3 (sq_nonneg h)
    linarith
  have t4 : averageError 0 d (P 0) (N 0) + (s - e) * truncation 0 d h sigma A B C M3 M4 Q P N ≤ K1 * d + K2 * h ^ 2 + K3 * sigma := by
    rw [hK1, hK2, hK3]
    linarith
  linarith

/-- C116, order of the Crank-Nicolson scheme: under the stability conditions the error is at most `K (dt^2 + h^2 + sigma)`. -/
theorem C116_crank_nicolson {D : ℕ → ℕ → ℝ → ℝ → ℝ} {a b z : ℝ → ℝ → ℝ} {e s lo hi A B C M3 M4 Q : ℝ} {P N : ℕ → ℝ}
    (hS : ClassicalSolution D a b z e s lo hi) (hB : Bounded D a b z e s lo hi A B C M3 M4 Q P N) (he : 0 ≤ e) (hes : e < s) (hlh : lo ≤ hi) :
    ∃ K : ℝ, 0 ≤ K ∧ ∀ (xs values : List ℝ) (k : ℕ) (c : ℝ → PdeCoeffs ℝ) (f g : BoundaryFn ℝ) (h sigma eps : ℝ) (n k0 : ℕ),
      Discretises xs k c f g (D 0 0) a b z e s lo hi → Mesh xs k h sigma → 0 < n →
      (∀ t ∈ Icc e s, Stable (c t) (fun i => xs.getD i 0) k (1 / 2 * ((s - e) / n))) → values.length = k + 4 →
      (∀ i, i < k + 4 → |values.getD i 0 - D 0 0 s (xs.getD i 0)| ≤ eps) →
      ∃ w, solveBackward s e values (some n) k0 none (fdStep xs c f g (1 / 2)) none = some (w, e, k0 + n) ∧ w.length = k + 4 ∧
        ∀ i, i < k + 4 → |w.getD i 0 - D 0 0 e (xs.getD i 0)| ≤ eps + K * (((s - e) / n) ^ 2 + h ^ 2 + sigma) := by
  obtain ⟨nA, nB, nC, n3, n4, nQ, nP, nN⟩ := bounded_nonneg hB hes.le hlh
  have nN0 := nN 0 (by omega)
  have nN1 := nN 1 (by omega)
  have nN2 := nN 2 (by omega)
  have hT : 0 < s - e := by linarith
  obtain ⟨K1, hK1⟩ : ∃ K1, K1 = N 0 / 8 + (s - e) * (Q / 24 + A * (N 2 / 8) + B * (N 1 / 8) + C * (N 0 / 8)) := ⟨_, rfl⟩
  obtain ⟨K2, hK2⟩ : ∃ K2, K2 = (s - e) * (A * M4 / 12 + B * M3 / 6) := ⟨_, rfl⟩
  obtain ⟨K3, hK3⟩ : ∃ K3, K3 = (s - e) * (A * M3 / 3) := ⟨_, rfl⟩
  have p1 : 0 ≤ K1 := by rw [hK1]; positivity
  have p2 : 0 ≤ K2 := by rw [hK2]; positivity
  have p3 : 0 ≤ K3 := by rw [hK3]; positivity
  refine ⟨K1 + K2 + K3, by positivity, ?_⟩
  intro xs values k c f g h sigma eps n k0 hD hm hn hstab hvl hv
  have hsig : 0 ≤ sigma := (abs_nonneg _).trans (hm.change 0 (by omega))
  obtain ⟨w, hw, hwl, hwe⟩ := C116_error hS hB he hes xs values k c f g hD h sigma (1 / 2) eps hm (by norm_num) (by norm_num) n k0 hn hstab hvl hv
  refine ⟨w, hw, hwl, fun i hi => (hwe i hi).trans ?_⟩
  generalize (s - e) / n = d at *
  have t3 : K1 * d ^ 2 + K2 * h ^ 2 + K3 * sigma ≤ (K1 + K2 + K3) * (d ^ 2 + h ^ 2 + sigma) := by
    have := mul_nonneg p1 (sq_nonneg h)
    have := mul_nonneg p1 hsig
    have := mul_nonneg p2 (sq_nonneg d)
    have := mul_nonneg p2 hsig
    have := mul_nonneg p3 (sq_nonneg d)
    have := mul_nonneg p3 (sq_nonneg h)
    linarith
  have t4 : averageError (1 / 2) d (P 0) (N 0) + (s - e) * truncation (1 / 2) d h sigma A B C M3 M4 Q P N = K1 * d ^ 2 + K2 * h ^ 2 + K3 * sigma := by
    rw [hK1, hK2, hK3]
    unfold truncation averageError
    rw [sub_self, abs_zero]
    ring
  linarith

/-- C116, convergence: on any grids whose mesh size tends to zero, with any number of steps tending to infinity, the values of the
implicit scheme converge uniformly to the solution. -/
theorem C116_converges {D : ℕ → ℕ → ℝ → ℝ → ℝ} {a b z : ℝ → ℝ → ℝ} {e s lo hi A B C M3 M4 Q : ℝ} {P N : ℕ → ℝ} (alpha : ℝ) (halpha : 0 < alpha)
    (hS : ClassicalSolution D a b z e s lo hi) (hB : Bounded D a b z e s lo hi A B C M3 M4 Q P N) (he : 0 ≤ e) (hes : e < s) (hlh : lo ≤ hi)
    (ha : ∀ t ∈ Icc e s, ∀ x ∈ Icc lo hi, alpha ≤ a t x) (hz : ∀ t ∈ Icc e s, ∀ x ∈ Icc lo hi, z t x ≤ 0) (delta : ℝ) (hdelta : 0 < delta) :
    ∃ eta : ℝ, 0 < eta ∧ ∀ (xs : List ℝ) (k : ℕ) (c : ℝ → PdeCoeffs ℝ) (f g : BoundaryFn ℝ) (n k0 : ℕ),
      Discretises xs k c f g (D 0 0) a b z e s lo hi → (∀ t ∈ Icc e s, (c t).innerSecond = none ∧ (c t).innerFirst = none) →
      (∀ i, i < k + 3 → xs.getD (i + 1) 0 - xs.getD i 0 ≤ eta) → 0 < n → (s - e) / n ≤ eta →
      ∃ w, solveBackward s e (xs.map (D 0 0 s)) (some n) k0 none (fdStep xs c f g 0) none = some (w, e, k0 + n) ∧ w.length = k + 4 ∧
        ∀ i, i < k + 4 → |w.getD i 0 - D 0 0 e (xs.getD i 0)| ≤ delta := by
  obtain ⟨K, hK, hall⟩ := C116_implicit alpha hS hB he hes hlh ha hz
  obtain ⟨nA, nB, nC, n3, n4, nQ, nP, nN⟩ := bounded_nonneg hB hes.le hlh
  refine ⟨min 1 (min (2 * alpha / (B + 1)) (delta / (3 * (K + 1)))), by positivity, ?_⟩
  intro xs k c f g n k0 hD hin hmesh hn hdt
  generalize heta : min 1 (min (2 * alpha / (B + 1)) (delta / (3 * (K + 1)))) = eta at *
  have e1 : eta ≤ 1 := heta ▸ min_le_left _ _
  have e2 : eta ≤ 2 * alpha / (B + 1) := heta ▸ (min_le_right _ _).trans (min_le_left _ _)
  have e3 : eta ≤ delta / (3 * (K + 1)) := heta ▸ (min_le_right _ _).trans (min_le_right _ _)
  have e0 : 0 < eta := heta ▸ (by positivity)
  rw [le_div_iff₀ (by positivity)] at e2 e3
  obtain ⟨w, hw, hwl, hwe⟩ := hall xs (xs.map (D 0 0 s)) k c f g eta eta 0 n k0 hD hin (mesh_any xs k eta hD.increasing hmesh) (by linarith) hn
    (by rw [List.length_map, hD.length]) (fun i hi => by
      have : (xs.map (D 0 0 s)).getD i 0 = D 0 0 s (xs.getD i 0) := by
        rw [List.getD_eq_getElem _ _ (by rw [List.length_map, hD.length]; exact hi), List.getD_eq_getElem _ _ (by rw [hD.length]; exact hi), List.getElem_map]
      rw [this, sub_self, abs_zero])
  refine ⟨w, hw, hwl, fun i hi => (hwe i hi).trans ?_⟩
  have q : (s - e) / n + eta ^ 2 + eta ≤ 3 * eta := by nlinarith
  have := mul_le_mul_of_nonneg_left q hK
  nlinarith

/-- The solution `x^4 + 12 x^2 (1 - t) + 12 (1 - t)^2` of `V_t + V_xx = 0` and its derivatives. -/
noncomputable def exHeat : ℕ → ℕ → ℝ → ℝ → ℝ
  | 0, 0, t, x => x ^ 4 + 12 * x ^ 2 * (1 - t) + 12 * (1 - t) ^ 2
  | 0, 1, t, x => 4 * x ^ 3 + 24 * x * (1 - t)
  | 0, 2, t, x => 12 * x ^ 2 + 24 * (1 - t)
  | 0, 3, _, x => 24 * x
  | 0, 4, _, _ => 24
  | 1, 0, t, x => -12 * x ^ 2 - 24 * (1 - t)
  | 1, 1, _, x => -24 * x
  | 1, 2, _, _ => -24
  | 2, 0, _, _ => 24
  | _, _, _, _ => 0

theorem ex_heat_solution : ClassicalSolution exHeat (fun _ _ => 1) (fun _ _ => 0) (fun _ _ => 0) 0 1 0 1 := by
  have hx : ∀ x : ℝ, HasDerivAt (fun x : ℝ => x) 1 x := hasDerivAt_id
  have ht : ∀ t : ℝ, HasDerivAt (fun t : ℝ => 1 - t) (-1) t := fun t => by simpa using (hasDerivAt_id t).const_sub 1
  refine ⟨fun k hk t _ x _ => HasDerivAt.hasDerivWithinAt ?_, fun j hj t _ x _ => HasDerivAt.hasDerivWithinAt ?_,
    fun j k hj hk t _ x _ => HasDerivAt.hasDerivWithinAt ?_, fun t _ x _ => by simp only [exHeat]; ring⟩
  · interval_cases k
    · exact ((((hx x).pow 4).add ((((hx x).pow 2).const_mul 12).mul_const (1 - t))).add_const (12 * (1 - t) ^ 2)).congr_deriv (by simp only [exHeat]; push_cast; ring)
    · exact ((((hx x).pow 3).const_mul 4).add (((hx x).const_mul 24).mul_const (1 - t))).congr_deriv (by simp only [exHeat]; push_cast; ring)
    · exact ((((hx x).pow 2).const_mul 12).add_const (24 * (1 - t))).congr_deriv (by simp only [exHeat]; push_cast; ring)
    · exact ((hx x).const_mul 24).congr_deriv (by simp only [exHeat]; ring)
  · interval_cases j
    · exact ((((ht t).const_mul (12 * x ^ 2)).const_add (x ^ 4)).add (((ht t).pow 2).const_mul 12)).congr_deriv (by simp only [exHeat]; push_cast; ring)
    · exact (((ht t).const_mul 24).const_sub (-12 * x ^ 2)).congr_deriv (by simp only [exHeat]; ring)
    · exact (hasDerivAt_const t (24 : ℝ)).congr_deriv (by simp only [exHeat])
  · rcases hk with rfl | rfl <;> interval_cases j
    · exact (((ht t).const_mul (24 * x)).const_add (4 * x ^ 3)).congr_deriv (by simp only [exHeat]; ring)
    · exact (hasDerivAt_const t (-24 * x)).congr_deriv (by simp only [exHeat])
    · exact (((ht t).const_mul 24).const_add (12 * x ^ 2)).congr_deriv (by simp only [exHeat]; ring)
    · exact (hasDerivAt_const t (-24 : ℝ)).congr_deriv (by simp only [exHeat])

theorem ex_heat_bounded : Spec.Bounded exHeat (fun _ _ => 1) (fun _ _ => 0) (fun _ _ => 0) 0 1 0 1 1 0 0 24 24 0
    (fun k => if k = 0 then 36 else 24) (fun k => if k = 0 then 24 else 0) := by
  refine ⟨by simp, by simp, by simp, ?_, by simp [exHeat], by simp [exHeat], ?_, ?_⟩
  · intro t _ x hx
    simp only [exHeat]
    exact abs_le.2 ⟨by linarith [hx.1], by linarith [hx.2]⟩
  · intro k hk t ht x hx
    have := ht.1
    have := ht.2
    have := hx.1
    have := hx.2
    interval_cases k <;> simp [exHeat] <;> exact abs_le.2 ⟨by nlinarith, by nlinarith⟩
  · intro k hk t ht x hx
    interval_cases k <;> simp [exHeat]

/-- One hundred implicit steps on four points. -/
example : ∃ w, solveBackward (1 : ℝ) 0 ([0, 1 / 3, 2 / 3, 1].map (exHeat 0 0 1)) (some 100) 0 none
    (fdStep [0, 1 / 3, 2 / 3, 1] (fun _ => ⟨some [1, 1, 1, 1], none, none, none, none⟩) (fun t => (some 1, none, exHeat 0 0 t 0))
      (fun t => (some 1, none, exHeat 0 0 t 1)) 0) none = some (w, 0, 0 + 100) ∧ w.length = 4 ∧
    ∀ i, i < 4 → |w.getD i 0 - exHeat 0 0 0 ([0, 1 / 3, 2 / 3, 1].getD i 0)| ≤ 0.6 := by
  have hinc : ∀ i, i < 0 + 3 → ([0, 1 / 3, 2 / 3, 1] : List ℝ).getD i 0 < [0, 1 / 3, 2 / 3, 1].getD (i + 1) 0 := by
    intro i hi; interval_cases i <;> norm_num
  have hD : Discretises [0, 1 / 3, 2 / 3, 1] 0 (fun _ => ⟨some [1, 1, 1, 1], none, none, none, none⟩) (fun t => (some 1, none, exHeat 0 0 t 0))
      (fun t => (some 1, none, exHeat 0 0 t 1)) (exHeat 0 0) (fun _ _ => 1) (fun _ _ => 0) (fun _ _ => 0) 0 1 0 1 := by
    refine ⟨rfl, hinc, rfl, rfl, fun t _ => ⟨?_, ?_, ?_, ?_, ?_⟩, ?_, fun t _ => ⟨1, _, rfl, one_ne_zero, by simp⟩, fun t _ => ⟨1, _, rfl, one_ne_zero, by simp⟩⟩
    · rintro l ⟨⟩; rfl
    · rintro l ⟨⟩
    · rintro l ⟨⟩
    · rintro l ⟨⟩
    · rintro l ⟨⟩
    · intro t _ i hi; interval_cases i <;> simp [coeffAt]
  have hm : Mesh [0, 1 / 3, 2 / 3, 1] 0 (1 / 3) 0 := by
    refine ⟨fun i hi => ?_, fun i hi => ?_⟩
    · interval_cases i <;> norm_num
    · interval_cases i <;> norm_num
  have := C116_error ex_heat_solution ex_heat_bounded le_rfl zero_lt_one [0, 1 / 3, 2 / 3, 1] ([0, 1 / 3, 2 / 3, 1].map (exHeat 0 0 1)) 0 _ _ _ hD
    (1 / 3) 0 0 0 hm le_rfl zero_le_one 100 0 (by norm_num)
    (fun t _ => by
      rw [zero_mul]
      exact implicit_stable _ 0 _ (1 / 3) 1 hinc hm.size rfl rfl (fun i hi => by interval_cases i <;> simp [coeffAt])
        (fun i hi => by simp [coeffAt]) (fun i hi => by simp [coeffAt])) rfl
    (fun i hi => by interval_cases i <;> simp)
  obtain ⟨w, hw, hl, he⟩ := this
  refine ⟨w, hw, hl, fun i hi => (he i hi).trans ?_⟩
  unfold truncation averageError
  norm_num

end Props
