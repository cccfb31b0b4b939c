import Verif.Lemmas.SplineError
import Verif.Props.LinearInterpolation
import Verif.Props.QuadratureError
import Verif.Props.Interpolation2D
import Mathlib.Analysis.SpecialFunctions.Trigonometric.Deriv

/-! # C122 Errors of linear and cubic interpolation, and the smallest curvature -/

namespace Lemmas
open Set Model Spec

section
variable (xs : List ℝ) (m : Nat) (hx : xs.length = m + 2) (hs : xs.Pairwise (· < ·)) (F : ℕ → ℝ → ℝ)

include hx in
theorem slope_map (i : Nat) (hi : i ≤ m) : slope xs (xs.map (F 0)) i = (F 0 (xs.getD (i + 1) 0) - F 0 (xs.getD i 0)) / gap xs i := by
  have hv : ∀ j, j < m + 2 → (xs.map (F 0)).getD j 0 = F 0 (xs.getD j 0) := by
    intro j hj
    have : (xs.map (F 0))[j]? = some (F 0 (xs.getD j 0)) := by
      rw [List.getElem?_map, getD_some xs j (by omega)]
      rfl
    exact getD_of_some _ j _ this
  unfold slope
  rw [hv i (by omega), hv (i + 1) (by omega)]

include hx hs in
theorem knot_mem (i : Nat) (hi : i ≤ m + 1) : xs.getD i 0 ∈ Icc (xs.getD 0 0) (xs.getD (m + 1) 0) :=
  ⟨le_getD xs m hx hs 0 i (by omega) hi, le_getD xs m hx hs i (m + 1) hi le_rfl⟩

theorem quot_le (r g C : ℝ) (n : ℕ) (hg : 0 < g) (h : |r| ≤ C * g ^ (n + 1)) : |r / g| ≤ C * g ^ n := by
  rw [abs_div, abs_of_pos hg, div_le_iff₀ hg, mul_assoc, ← pow_succ]
  exact h

variable (s s1 s2 : ℝ → ℝ) (hsp : IsCubicSpline xs (xs.map (F 0)) (xs.getD 0 0) (xs.getD (m + 1) 0) s s1 s2) (h M : ℝ)
  (hh : ∀ i, i ≤ m → gap xs i ≤ h)

include hx hs hsp hh in
/-- A bound on the error of the second derivative gives bounds on the errors of the function and the first derivative. -/
theorem spline_error_of_second (C : ℝ)
    (hF : ∀ k, k < 2 → ∀ y ∈ Icc (xs.getD 0 0) (xs.getD (m + 1) 0), HasDerivWithinAt (F k) (F (k + 1) y) (Icc (xs.getD 0 0) (xs.getD (m + 1) 0)) y)
    (hC : ∀ t ∈ Icc (xs.getD 0 0) (xs.getD (m + 1) 0), |s2 t - F 2 t| ≤ C)
    (t : ℝ) (ht : t ∈ Icc (xs.getD 0 0) (xs.getD (m + 1) 0)) : |s t - F 0 t| ≤ C * h ^ 2 / 8 ∧ |s1 t - F 1 t| ≤ C * h / 2 := by
  obtain ⟨k, hk, htk⟩ := knot_interval xs m t ht
  have hlt := strict_getD xs m hx hs k (k + 1) (by omega) (by omega)
  have hsub : Icc (xs.getD k 0) (xs.getD (k + 1) 0) ⊆ Icc (xs.getD 0 0) (xs.getD (m + 1) 0) :=
    Icc_subset_Icc (le_getD xs m hx hs 0 k (by omega) (by omega)) (le_getD xs m hx hs (k + 1) (m + 1) (by omega) le_rfl)
  have hC0 : 0 ≤ C := (abs_nonneg _).trans (hC t ht)
  have hg : xs.getD (k + 1) 0 - xs.getD k 0 ≤ h := hh k hk
  have hz : ∀ j, j < m + 2 → s (xs.getD j 0) - F 0 (xs.getD j 0) = 0 := by
    intro j hj
    rw [hsp.knots j _ (F 0 (xs.getD j 0)) (getD_some xs j (by omega)) (by rw [List.getElem?_map, getD_some xs j (by omega)]; rfl), sub_self]
  have key := chord_error _ _ C hlt (fun k => if k = 0 then fun t => s t - F 0 t else if k = 1 then fun t => s1 t - F 1 t else fun t => s2 t - F 2 t)
    (by
      intro j hj y hy
      have hj' : j = 0 ∨ j = 1 := by omega
      rcases hj' with rfl | rfl
      · exact ((hsp.first y (hsub hy)).mono hsub).sub ((hF 0 (by omega) y (hsub hy)).mono hsub)
      · exact ((hsp.second y (hsub hy)).mono hsub).sub ((hF 1 (by omega) y (hsub hy)).mono hsub))
    (fun y hy => by simpa using hC y (hsub hy)) t htk
  simp only [if_true, one_ne_zero, if_false] at key
  rw [hz k (by omega), hz (k + 1) (by omega), sub_zero, zero_div, mul_zero, add_zero, sub_zero, sub_zero] at key
  refine ⟨key.1.trans ?_, key.2.trans ?_⟩
  · have := mul_le_mul_of_nonneg_left (distances_le _ _ t h htk hg) hC0
    linarith
  · have := mul_le_mul_of_nonneg_left hg hC0
    linarith

include hx hs hsp hh in
theorem spline_second_order (hF : SmoothOn F 2 (xs.getD 0 0) (xs.getD (m + 1) 0) M)
    (h0 : s2 (xs.getD 0 0) = 0 ∨ s1 (xs.getD 0 0) = F 1 (xs.getD 0 0))
    (h1 : s2 (xs.getD (m + 1) 0) = 0 ∨ s1 (xs.getD (m + 1) 0) = F 1 (xs.getD (m + 1) 0))
    (t : ℝ) (ht : t ∈ Icc (xs.getD 0 0) (xs.getD (m + 1) 0)) :
    |s t - F 0 t| ≤ M * h ^ 2 / 2 ∧ |s1 t - F 1 t| ≤ 2 * M * h ∧ |s2 t| ≤ 3 * M := by
  have hM0 : 0 ≤ M := (abs_nonneg _).trans (hF.2 t ht)
  have hgp := gap_pos xs m hx hs
  have hyl : (xs.map (F 0)).length = m + 2 := by simpa using hx
  obtain ⟨e1, e2, e3⟩ := spline_moments xs _ m hx hyl hs s s1 s2 hsp
  have tay : ∀ z ∈ Icc (xs.getD 0 0) (xs.getD (m + 1) 0), ∀ y ∈ Icc (xs.getD 0 0) (xs.getD (m + 1) 0),
      |F 0 y - (F 0 z + F 1 z * (y - z))| ≤ M / 2 * |y - z| ^ 2 := by
    intro z hz y hy
    have := taylor_bound _ _ M 2 F hF.1 hF.2 z y hz hy
    simp only [Finset.sum_range_succ, Finset.sum_range_zero, zero_add, pow_zero, mul_one, Nat.factorial, Nat.cast_one, div_one, pow_one, one_mul,
      Nat.cast_ofNat, Nat.mul_one, Nat.reduceMul, Nat.reduceAdd, mul_one] at this
    linarith
  -- slopes differ little from the derivative at either end of the interval
  have sl : ∀ i, i ≤ m → |slope xs (xs.map (F 0)) i - F 1 (xs.getD i 0)| ≤ M / 2 * gap xs i ∧
      |slope xs (xs.map (F 0)) i - F 1 (xs.getD (i + 1) 0)| ≤ M / 2 * gap xs i := by
    intro i hi
    have g0 := hgp i hi
    have k0 := knot_mem xs m hx hs i (by omega)
    have k1 := knot_mem xs m hx hs (i + 1) (by omega)
    have t1 := tay _ k0 _ k1
    have t2 := tay _ k1 _ k0
    have hd : xs.getD (i + 1) 0 - xs.getD i 0 = gap xs i := rfl
    rw [abs_sub_comm (xs.getD i 0)] at t2
    rw [hd, abs_of_pos g0] at t1 t2
    have q1 := quot_le _ _ _ 1 g0 t1
    have q2 := quot_le _ _ _ 1 g0 t2
    rw [pow_one] at q1 q2
    rw [slope_map xs m hx F i hi]
    constructor
    · have : (F 0 (xs.getD (i + 1) 0) - F 0 (xs.getD i 0)) / gap xs i - F 1 (xs.getD i 0) =
          (F 0 (xs.getD (i + 1) 0) - (F 0 (xs.getD i 0) + F 1 (xs.getD i 0) * gap xs i)) / gap xs i := by
        field_simp
        ring
      rw [this]
      exact q1
    · have : (F 0 (xs.getD (i + 1) 0) - F 0 (xs.getD i 0)) / gap xs i - F 1 (xs.getD (i + 1) 0) =
          -((F 0 (xs.getD i 0) - (F 0 (xs.getD (i + 1) 0) + F 1 (xs.getD (i + 1) 0) * (xs.getD i 0 - xs.getD (i + 1) 0))) / gap xs i) := by
        rw [show xs.getD i 0 - xs.getD (i + 1) 0 = -gap xs i by rw [← hd]; ring]
        field_simp
        ring
      rw [this, abs_neg]
      exact q2
  have hB := spline_system_bound (fun i => s2 (xs.getD i 0)) (gap xs) m (3 * M) hgp
    (by
      rcases h0 with h0 | h0
      · left; simp only [h0, abs_zero]; linarith
      · right
        have := (sl 0 (by omega)).1
        rw [h0] at e2
        have g0 := hgp 0 (by omega)
        have e : 2 * s2 (xs.getD 0 0) + s2 (xs.getD 1 0) = 6 * ((slope xs (xs.map (F 0)) 0 - F 1 (xs.getD 0 0)) / gap xs 0) := by
          field_simp
          linarith
        rw [e, abs_mul, abs_of_pos (by norm_num : (0 : ℝ) < 6), abs_div, abs_of_pos g0]
        have := (div_le_iff₀ g0).2 this
        linarith)
    (by
      rcases h1 with h1 | h1
      · left; simp only [h1, abs_zero]; linarith
      · right
        have := (sl m le_rfl).2
        rw [h1] at e3
        have g0 := hgp m le_rfl
        have e : s2 (xs.getD m 0) + 2 * s2 (xs.getD (m + 1) 0) = -(6 * ((slope xs (xs.map (F 0)) m - F 1 (xs.getD (m + 1) 0)) / gap xs m)) := by
          field_simp
          linarith
        rw [e, abs_neg, abs_mul, abs_of_pos (by norm_num : (0 : ℝ) < 6), abs_div, abs_of_pos g0]
        have := (div_le_iff₀ g0).2 this
        linarith)
    (by
      intro i hi
      rw [e1 i hi]
      have a1 := (sl i (by omega)).2
      have a2 := (sl (i + 1) (by omega)).1
      rw [abs_le] at *
      constructor <;> linarith [a1.1, a1.2, a2.1, a2.2])
  have hS : ∀ t ∈ Icc (xs.getD 0 0) (xs.getD (m + 1) 0), |s2 t| ≤ 3 * M := by
    intro t ht
    obtain ⟨k, hk, htk⟩ := knot_interval xs m t ht
    rw [spline_second xs _ m hx hyl hs s s1 s2 hsp k hk t htk]
    exact chord_le _ _ _ _ _ t (strict_getD xs m hx hs k (k + 1) (by omega) (by omega)) htk (hB k (by omega)) (hB (k + 1) (by omega))
  obtain ⟨r1, r2⟩ := spline_error_of_second xs m hx hs F s s1 s2 hsp h hh (4 * M) hF.1 (fun y hy => by
    have c1 := abs_sub (s2 y) (F 2 y)
    linarith [hS y hy, hF.2 y hy]) t ht
  exact ⟨by linarith, by linarith, hS t ht⟩

include hx hs hsp hh in
theorem spline_fourth_order (hF : SmoothOn F 4 (xs.getD 0 0) (xs.getD (m + 1) 0) M)
    (h0 : s2 (xs.getD 0 0) = F 2 (xs.getD 0 0) ∨ s1 (xs.getD 0 0) = F 1 (xs.getD 0 0))
    (h1 : s2 (xs.getD (m + 1) 0) = F 2 (xs.getD (m + 1) 0) ∨ s1 (xs.getD (m + 1) 0) = F 1 (xs.getD (m + 1) 0))
    (t : ℝ) (ht : t ∈ Icc (xs.getD 0 0) (xs.getD (m + 1) 0)) :
    |s t - F 0 t| ≤ 7 / 64 * M * h ^ 4 ∧ |s1 t - F 1 t| ≤ 7 / 16 * M * h ^ 3 ∧ |s2 t - F 2 t| ≤ 7 / 8 * M * h ^ 2 := by
  have hM0 : 0 ≤ M := (abs_nonneg _).trans (hF.2 t ht)
  have hgp := gap_pos xs m hx hs
  have hyl : (xs.map (F 0)).length = m + 2 := by simpa using hx
  obtain ⟨e1, e2, e3⟩ := spline_moments xs _ m hx hyl hs s s1 s2 hsp
  have tay : ∀ z ∈ Icc (xs.getD 0 0) (xs.getD (m + 1) 0), ∀ y ∈ Icc (xs.getD 0 0) (xs.getD (m + 1) 0),
      |F 0 y - (F 0 z + F 1 z * (y - z) + F 2 z * (y - z) ^ 2 / 2 + F 3 z * (y - z) ^ 3 / 6)| ≤ M / 24 * |y - z| ^ 4 := by
    intro z hz y hy
    have := taylor_bound _ _ M 4 F hF.1 hF.2 z y hz hy
    simp only [Finset.sum_range_succ, Finset.sum_range_zero, zero_add, pow_zero, mul_one, Nat.factorial, Nat.cast_one, div_one, pow_one, one_mul,
      Nat.cast_ofNat, Nat.mul_one, Nat.reduceMul, Nat.reduceAdd, mul_one] at this
    linarith
  have tay2 : ∀ z ∈ Icc (xs.getD 0 0) (xs.getD (m + 1) 0), ∀ y ∈ Icc (xs.getD 0 0) (xs.getD (m + 1) 0),
      |F 2 y - (F 2 z + F 3 z * (y - z))| ≤ M / 2 * |y - z| ^ 2 := by
    intro z hz y hy
    have := taylor_bound _ _ M 2 (fun k => F (k + 2)) (fun k hk => hF.1 (k + 2) (by omega)) hF.2 z y hz hy
    simp only [Finset.sum_range_succ, Finset.sum_range_zero, zero_add, pow_zero, mul_one, Nat.factorial, Nat.cast_one, div_one, pow_one, one_mul,
      Nat.cast_ofNat, Nat.mul_one, Nat.reduceMul, Nat.reduceAdd, mul_one] at this
    linarith
  -- the defect of the exact second derivatives on one interval, seen from either end
  have sl : ∀ i, i ≤ m →
      |6 * (slope xs (xs.map (F 0)) i - F 1 (xs.getD i 0)) - gap xs i * (2 * F 2 (xs.getD i 0) + F 2 (xs.getD (i + 1) 0))| ≤
        3 / 4 * M * h ^ 2 * gap xs i ∧
      |6 * (F 1 (xs.getD (i + 1) 0) - slope xs (xs.map (F 0)) i) - gap xs i * (F 2 (xs.getD i 0) + 2 * F 2 (xs.getD (i + 1) 0))| ≤
        3 / 4 * M * h ^ 2 * gap xs i := by
    intro i hi
    have g0 := hgp i hi
    have k0 := knot_mem xs m hx hs i (by omega)
    have k1 := knot_mem xs m hx hs (i + 1) (by omega)
    have t1 := tay _ k0 _ k1
    have t2 := tay _ k1 _ k0
    have u1 := tay2 _ k0 _ k1
    have u2 := tay2 _ k1 _ k0
    have hd : xs.getD (i + 1) 0 - xs.getD i 0 = gap xs i := rfl
    have hd' : xs.getD i 0 - xs.getD (i + 1) 0 = -gap xs i := by rw [← hd]; ring
    rw [hd'] at t2 u2
    rw [hd] at t1 u1
    rw [abs_neg] at t2 u2
    rw [abs_of_pos g0] at t1 t2 u1 u2
    have q1 := quot_le _ _ _ 3 g0 t1
    have q2 := quot_le _ _ _ 3 g0 t2
    have hg2 : gap xs i ^ 2 ≤ h ^ 2 := pow_le_pow_left₀ g0.le (hh i hi) 2
    have hg3 : M * gap xs i ^ 3 ≤ M * (h ^ 2 * gap xs i) := by
      refine mul_le_mul_of_nonneg_left ?_ hM0
      rw [pow_succ]
      exact mul_le_mul_of_nonneg_right hg2 g0.le
    have v1 := mul_le_mul_of_nonneg_left u1 g0.le
    have v2 := mul_le_mul_of_nonneg_left u2 g0.le
    rw [← abs_of_pos g0, ← abs_mul, abs_of_pos g0] at v1 v2
    rw [slope_map xs m hx F i hi]
    generalize gap xs i = g at *
    have w1 : g * (M / 2 * g ^ 2) = M * g ^ 3 / 2 := by ring
    constructor
    · have : 6 * ((F 0 (xs.getD (i + 1) 0) - F 0 (xs.getD i 0)) / g - F 1 (xs.getD i 0)) - g * (2 * F 2 (xs.getD i 0) + F 2 (xs.getD (i + 1) 0)) =
          6 * ((F 0 (xs.getD (i + 1) 0) - (F 0 (xs.getD i 0) + F 1 (xs.getD i 0) * g + F 2 (xs.getD i 0) * g ^ 2 / 2 + F 3 (xs.getD i 0) * g ^ 3 / 6)) / g) -
            g * (F 2 (xs.getD (i + 1) 0) - (F 2 (xs.getD i 0) + F 3 (xs.getD i 0) * g)) := by
        field_simp
        ring
      rw [this]
      refine (abs_sub _ _).trans ?_
      rw [abs_mul, abs_of_pos (by norm_num : (0 : ℝ) < 6)]
      linarith
    · have : 6 * (F 1 (xs.getD (i + 1) 0) - (F 0 (xs.getD (i + 1) 0) - F 0 (xs.getD i 0)) / g) - g * (F 2 (xs.getD i 0) + 2 * F 2 (xs.getD (i + 1) 0)) =
          6 * ((F 0 (xs.getD i 0) - (F 0 (xs.getD (i + 1) 0) + F 1 (xs.getD (i + 1) 0) * -g + F 2 (xs.getD (i + 1) 0) * (-g) ^ 2 / 2 +
            F 3 (xs.getD (i + 1) 0) * (-g) ^ 3 / 6)) / g) - g * (F 2 (xs.getD i 0) - (F 2 (xs.getD (i + 1) 0) + F 3 (xs.getD (i + 1) 0) * -g)) := by
        field_simp
        ring
      rw [this]
      refine (abs_sub _ _).trans ?_
      rw [abs_mul, abs_of_pos (by norm_num : (0 : ℝ) < 6)]
      linarith
  have hB0 : 0 ≤ 3 / 4 * M * h ^ 2 := by positivity
  have cancel : ∀ g x B : ℝ, 0 < g → |g * x| ≤ B * g → |x| ≤ B := by
    intro g x B hg hb
    rw [abs_mul, abs_of_pos hg, mul_comm] at hb
    exact le_of_mul_le_mul_right hb hg
  have hB := spline_system_bound (fun i => s2 (xs.getD i 0) - F 2 (xs.getD i 0)) (gap xs) m (3 / 4 * M * h ^ 2) hgp
    (by
      rcases h0 with h0 | h0
      · left; simp only [h0, sub_self, abs_zero]; exact hB0
      · right
        have := (sl 0 (by omega)).1
        rw [h0] at e2
        refine cancel _ _ _ (hgp 0 (by omega)) ?_
        rw [← e2, ← mul_sub, zero_add] at this
        refine le_of_eq_of_le (congrArg abs ?_) this
        ring)
    (by
      rcases h1 with h1 | h1
      · left; simp only [h1, sub_self, abs_zero]; exact hB0
      · right
        have := (sl m le_rfl).2
        rw [h1] at e3
        refine cancel _ _ _ (hgp m le_rfl) ?_
        rw [← e3, ← mul_sub] at this
        refine le_of_eq_of_le (congrArg abs ?_) this
        ring)
    (by
      intro i hi
      have a1 := (sl i (by omega)).2
      have a2 := (sl (i + 1) (by omega)).1
      have e := e1 i hi
      rw [mul_add (3 / 4 * M * h ^ 2)]
      refine le_trans (le_of_eq_of_le (congrArg abs ?_) (abs_add_le _ _)) (add_le_add a1 a2)
      rw [show i + 1 + 1 = i + 2 from rfl]
      linarith)
  have hS : ∀ t ∈ Icc (xs.getD 0 0) (xs.getD (m + 1) 0), |s2 t - F 2 t| ≤ 7 / 8 * M * h ^ 2 := by
    intro t ht
    obtain ⟨k, hk, htk⟩ := knot_interval xs m t ht
    have hlt := strict_getD xs m hx hs k (k + 1) (by omega) (by omega)
    have hsub : Icc (xs.getD k 0) (xs.getD (k + 1) 0) ⊆ Icc (xs.getD 0 0) (xs.getD (m + 1) 0) :=
      Icc_subset_Icc (le_getD xs m hx hs 0 k (by omega) (by omega)) (le_getD xs m hx hs (k + 1) (m + 1) (by omega) le_rfl)
    have c1 := chord_le _ _ _ _ _ t hlt htk (hB k (by omega)) (hB (k + 1) (by omega))
    have c2 := (chord_error _ _ M hlt (fun k => F (k + 2)) (fun j hj y hy => (hF.1 (j + 2) (by omega) y (hsub hy)).mono hsub)
      (fun y hy => hF.2 y (hsub hy)) t htk).1
    have c3 := mul_le_mul_of_nonneg_left (distances_le _ _ t h htk (hh k hk)) hM0
    rw [spline_second xs _ m hx hyl hs s s1 s2 hsp k hk t htk]
    have hd : xs.getD (k + 1) 0 - xs.getD k 0 = gap xs k := rfl
    rw [hd] at c1 c2
    simp only [zero_add] at c1 c2
    rw [abs_sub_comm] at c2
    have := abs_add_le _ _ |>.trans (add_le_add c1 c2)
    refine le_trans (le_of_eq_of_le (congrArg abs ?_) this) (by linarith)
    ring
  obtain ⟨r1, r2⟩ := spline_error_of_second xs m hx hs F s s1 s2 hsp h hh (7 / 8 * M * h ^ 2) (fun k hk => hF.1 k (by omega)) hS t ht
  exact ⟨r1.trans_eq (by ring), r2.trans_eq (by ring), hS t ht⟩

end

/-- The antiderivative of a continuous function on an interval, differentiated from within. -/
theorem integral_within (A f : ℝ → ℝ) (p q : ℝ) (hpq : p ≤ q) (hA : ∀ t ∈ Icc p q, HasDerivWithinAt A (f t) (Icc p q) t) (hf : ContinuousOn f (Icc p q)) :
    ∫ t in p..q, f t = A q - A p :=
  intervalIntegral.integral_eq_sub_of_hasDeriv_right_of_le hpq (fun t ht => (hA t ht).continuousWithinAt)
    (fun t ht => ((hA t ⟨ht.1.le, ht.2.le⟩).hasDerivAt (Icc_mem_nhds ht.1 ht.2)).hasDerivWithinAt)
    (ContinuousOn.intervalIntegrable (by rwa [uIcc_of_le hpq]))

section
variable (xs ys : List ℝ) (m : Nat) (hx : xs.length = m + 2) (hy : ys.length = m + 2) (hs : xs.Pairwise (· < ·))
  (s s1 s2 : ℝ → ℝ) (hsp : IsCubicSpline xs ys (xs.getD 0 0) (xs.getD (m + 1) 0) s s1 s2)
  (e e1 e2 : ℝ → ℝ) (h1 : ∀ t ∈ Icc (xs.getD 0 0) (xs.getD (m + 1) 0), HasDerivWithinAt e (e1 t) (Icc (xs.getD 0 0) (xs.getD (m + 1) 0)) t)
  (h2 : ∀ t ∈ Icc (xs.getD 0 0) (xs.getD (m + 1) 0), HasDerivWithinAt e1 (e2 t) (Icc (xs.getD 0 0) (xs.getD (m + 1) 0)) t)
  (hc : ContinuousOn e2 (Icc (xs.getD 0 0) (xs.getD (m + 1) 0))) (hz : ∀ i, i < m + 2 → e (xs.getD i 0) = 0)

include hx hs hsp h1 h2 hc hz in
/-- The curvature of a spline against the curvature of a function that vanishes at the knots: only the ends matter. -/
theorem spline_orthogonal (k : Nat) (hk : k ≤ m + 1) :
    ∫ t in (xs.getD 0 0)..(xs.getD k 0), s2 t * e2 t = s2 (xs.getD k 0) * e1 (xs.getD k 0) - s2 (xs.getD 0 0) * e1 (xs.getD 0 0) := by
  have hsc : ContinuousOn (fun t => s2 t * e2 t) (Icc (xs.getD 0 0) (xs.getD (m + 1) 0)) := hsp.continuous.mul hc
  have hii : ∀ i j, i ≤ j → j ≤ m + 1 → IntervalIntegrable (fun t => s2 t * e2 t) MeasureTheory.volume (xs.getD i 0) (xs.getD j 0) := by
    intro i j hij hj
    have hle := le_getD xs m hx hs i j hij hj
    refine ContinuousOn.intervalIntegrable ?_
    rw [uIcc_of_le hle]
    exact hsc.mono (Icc_subset_Icc (le_getD xs m hx hs 0 i (by omega) (by omega)) (le_getD xs m hx hs j (m + 1) hj le_rfl))
  induction k with
  | zero => rw [intervalIntegral.integral_same, sub_self]
  | succ k ih =>
    rw [← intervalIntegral.integral_add_adjacent_intervals (hii 0 k (by omega) (by omega)) (hii k (k + 1) (by omega) hk), ih (by omega)]
    have hlt := strict_getD xs m hx hs k (k + 1) (by omega) hk
    have hsub : Icc (xs.getD k 0) (xs.getD (k + 1) 0) ⊆ Icc (xs.getD 0 0) (xs.getD (m + 1) 0) :=
      Icc_subset_Icc (le_getD xs m hx hs 0 k (by omega) (by omega)) (le_getD xs m hx hs (k + 1) (m + 1) hk le_rfl)
    obtain ⟨p, q, hpq⟩ := hsp.cubic k _ _ (getD_some xs k (by omega)) (getD_some xs (k + 1) (by omega))
    have := integral_within (fun t => (p + q * t) * e1 t - q * e t) (fun t => s2 t * e2 t) _ _ hlt.le (fun t ht => by
      have d1 : HasDerivWithinAt (fun t : ℝ => p + q * t) q (Icc (xs.getD k 0) (xs.getD (k + 1) 0)) t := by
        simpa using (((hasDerivAt_id t).const_mul q).const_add p).hasDerivWithinAt (s := Icc (xs.getD k 0) (xs.getD (k + 1) 0))
      have d2 := (d1.mul ((h2 t (hsub ht)).mono hsub)).sub (((h1 t (hsub ht)).mono hsub).const_mul q)
      refine d2.congr_deriv ?_
      rw [hpq t ht]
      ring) (hsc.mono hsub)
    rw [this, hz k (by omega), hz (k + 1) (by omega), hpq _ (left_mem_Icc.2 hlt.le), hpq _ (right_mem_Icc.2 hlt.le)]
    ring

end

section
variable (xs ys : List ℝ) (m : Nat) (hx : xs.length = m + 2) (hy : ys.length = m + 2) (hs : xs.Pairwise (· < ·))
  (s s1 s2 : ℝ → ℝ) (hsp : IsCubicSpline xs ys (xs.getD 0 0) (xs.getD (m + 1) 0) s s1 s2) (f f1 f2 : ℝ → ℝ)
  (h1 : ∀ t ∈ Icc (xs.getD 0 0) (xs.getD (m + 1) 0), HasDerivWithinAt f (f1 t) (Icc (xs.getD 0 0) (xs.getD (m + 1) 0)) t)
  (h2 : ∀ t ∈ Icc (xs.getD 0 0) (xs.getD (m + 1) 0), HasDerivWithinAt f1 (f2 t) (Icc (xs.getD 0 0) (xs.getD (m + 1) 0)) t)
  (hc : ContinuousOn f2 (Icc (xs.getD 0 0) (xs.getD (m + 1) 0)))
  (hz : ∀ (i : Nat) (x y : ℝ), xs[i]? = some x → ys[i]? = some y → f x = y)
  (hb : (s2 (xs.getD 0 0) = 0 ∨ f1 (xs.getD 0 0) = s1 (xs.getD 0 0)) ∧ (s2 (xs.getD (m + 1) 0) = 0 ∨ f1 (xs.getD (m + 1) 0) = s1 (xs.getD (m + 1) 0)))

include hx hy hs hsp h1 h2 hc hz hb

theorem curvature_sum : ∫ t in (xs.getD 0 0)..(xs.getD (m + 1) 0), f2 t ^ 2 =
    (∫ t in (xs.getD 0 0)..(xs.getD (m + 1) 0), s2 t ^ 2) + ∫ t in (xs.getD 0 0)..(xs.getD (m + 1) 0), (f2 t - s2 t) ^ 2 := by
  have hle := le_getD xs m hx hs 0 (m + 1) (by omega) le_rfl
  have ii : ∀ g : ℝ → ℝ, ContinuousOn g (Icc (xs.getD 0 0) (xs.getD (m + 1) 0)) →
      IntervalIntegrable g MeasureTheory.volume (xs.getD 0 0) (xs.getD (m + 1) 0) := fun g hg =>
    ContinuousOn.intervalIntegrable (by rwa [uIcc_of_le hle])
  have o := spline_orthogonal xs ys m hx hs s s1 s2 hsp (fun t => f t - s t) (fun t => f1 t - s1 t) (fun t => f2 t - s2 t)
    (fun t ht => (h1 t ht).sub (hsp.first t ht)) (fun t ht => (h2 t ht).sub (hsp.second t ht)) (hc.sub hsp.continuous)
    (fun i hi => by
      rw [hz i _ _ (getD_some xs i (by omega)) (getD_some ys i (by omega)), hsp.knots i _ _ (getD_some xs i (by omega)) (getD_some ys i (by omega)), sub_self])
    (m + 1) le_rfl
  have z0 : s2 (xs.getD 0 0) * (f1 (xs.getD 0 0) - s1 (xs.getD 0 0)) = 0 := by
    rcases hb.1 with h | h
    · rw [h, zero_mul]
    · rw [h, sub_self, mul_zero]
  have z1 : s2 (xs.getD (m + 1) 0) * (f1 (xs.getD (m + 1) 0) - s1 (xs.getD (m + 1) 0)) = 0 := by
    rcases hb.2 with h | h
    · rw [h, zero_mul]
    · rw [h, sub_self, mul_zero]
  simp only [z0, z1, sub_self] at o
  have e : ∀ t, f2 t ^ 2 = s2 t ^ 2 + (f2 t - s2 t) ^ 2 + 2 * (s2 t * (f2 t - s2 t)) := fun t => by ring
  simp only [e]
  rw [intervalIntegral.integral_add, intervalIntegral.integral_add, intervalIntegral.integral_const_mul, o, mul_zero, add_zero]
  · exact ii _ (hsp.continuous.pow 2)
  · exact ii _ ((hc.sub hsp.continuous).pow 2)
  · exact ii _ ((hsp.continuous.pow 2).add ((hc.sub hsp.continuous).pow 2))
  · exact ii _ (continuousOn_const.mul (hsp.continuous.mul (hc.sub hsp.continuous)))

theorem curvature_min : (∫ t in (xs.getD 0 0)..(xs.getD (m + 1) 0), s2 t ^ 2) ≤ (∫ t in (xs.getD 0 0)..(xs.getD (m + 1) 0), f2 t ^ 2) ∧
    ((∫ t in (xs.getD 0 0)..(xs.getD (m + 1) 0), s2 t ^ 2) = (∫ t in (xs.getD 0 0)..(xs.getD (m + 1) 0), f2 t ^ 2) →
      ∀ t ∈ Icc (xs.getD 0 0) (xs.getD (m + 1) 0), f t = s t) := by
  have hlt := strict_getD xs m hx hs 0 (m + 1) (by omega) le_rfl
  have hsum := curvature_sum xs ys m hx hy hs s s1 s2 hsp f f1 f2 h1 h2 hc hz hb
  have hec : ContinuousOn (fun t => (f2 t - s2 t) ^ 2) (Icc (xs.getD 0 0) (xs.getD (m + 1) 0)) := (hc.sub hsp.continuous).pow 2
  have hnn : 0 ≤ ∫ t in (xs.getD 0 0)..(xs.getD (m + 1) 0), (f2 t - s2 t) ^ 2 :=
    intervalIntegral.integral_nonneg hlt.le (fun t _ => sq_nonneg _)
  refine ⟨by linarith, fun he => ?_⟩
  have hzero : ∀ t ∈ Icc (xs.getD 0 0) (xs.getD (m + 1) 0), f2 t - s2 t = 0 := by
    by_contra hne
    push Not at hne
    obtain ⟨c, hc1, hc2⟩ := hne
    have := intervalIntegral.integral_pos hlt hec (fun t _ => sq_nonneg _) ⟨c, hc1, by positivity⟩
    linarith
  have key := zero_of_second_zero (fun t => f t - s t) (fun t => f1 t - s1 t) _ _ hlt (fun t ht => (h1 t ht).sub (hsp.first t ht))
    (fun t ht => by
      have := (h2 t ht).sub (hsp.second t ht)
      rw [hzero t ht] at this
      exact this)
    (by rw [hz 0 _ _ (getD_some xs 0 (by omega)) (getD_some ys 0 (by omega)), hsp.knots 0 _ _ (getD_some xs 0 (by omega)) (getD_some ys 0 (by omega)), sub_self])
    (by rw [hz (m + 1) _ _ (getD_some xs (m + 1) (by omega)) (getD_some ys (m + 1) (by omega)),
      hsp.knots (m + 1) _ _ (getD_some xs (m + 1) (by omega)) (getD_some ys (m + 1) (by omega)), sub_self])
  exact fun t ht => sub_eq_zero.1 (key.1 t ht)

end

end Lemmas

namespace Spec
open Set

/-- No two neighbouring points are further apart than `h`. -/
def MeshAtMost (xs : List ℝ) (h : ℝ) : Prop :=
  ∀ (i : Nat) (x0 x1 : ℝ), xs[i]? = some x0 → xs[i + 1]? = some x1 → x1 - x0 ≤ h

/-- `f` is twice continuously differentiable on `[a, b]` with derivatives `f1` and `f2`. -/
structure TwiceOn (a b : ℝ) (f f1 f2 : ℝ → ℝ) : Prop where
  first : ∀ t ∈ Icc a b, HasDerivWithinAt f (f1 t) (Icc a b) t
  second : ∀ t ∈ Icc a b, HasDerivWithinAt f1 (f2 t) (Icc a b) t
  continuous : ContinuousOn f2 (Icc a b)

/-- `f` takes the data at the knots. -/
def Takes (xs ys : List ℝ) (f : ℝ → ℝ) : Prop := ∀ (i : Nat) (x y : ℝ), xs[i]? = some x → ys[i]? = some y → f x = y

end Spec

namespace Props
open Set Model Spec Lemmas

theorem mesh_gap (xs : List ℝ) (m : Nat) (hx : xs.length = m + 2) (h : ℝ) (hm : MeshAtMost xs h) : ∀ i, i ≤ m → gap xs i ≤ h :=
  fun i hi => hm i _ _ (getD_some xs i (by omega)) (getD_some xs (i + 1) (by omega))

/-- C122: linear interpolation of a function with second derivative at most `M` has an error of at most `M h² / 8` between the first and the last
knot, where `h` is the largest distance of neighbouring knots. -/
theorem C122_linear (xs : List ℝ) (hs : xs.Pairwise (· < ·)) (a b : ℝ) (ha : xs.head? = some a) (hb : xs.getLast? = some b) (F : ℕ → ℝ → ℝ)
    (M h : ℝ) (hF : SmoothOn F 2 a b M) (hm : MeshAtMost xs h) (ls rs : ℝ) (x : ℝ) (hx : x ∈ Icc a b) :
    |linearInterpolate x xs (xs.map (F 0)) ls rs - F 0 x| ≤ M * h ^ 2 / 8 := by
  have hM0 : 0 ≤ M := (abs_nonneg _).trans (hF.2 x hx)
  have hw : xs.Pairwise (· ≤ ·) := hs.imp le_of_lt
  have hmem : ∀ (i : Nat) (y : ℝ), xs[i]? = some y → y ∈ Icc a b := by
    intro i y hy
    have hl := (List.getElem?_eq_some_iff.1 hy).1
    rw [List.head?_eq_getElem?] at ha
    rw [List.getLast?_eq_getElem?] at hb
    rw [List.pairwise_iff_getElem] at hw
    constructor
    · rcases Nat.eq_zero_or_pos i with rfl | hi
      · rw [ha] at hy; exact (Option.some.inj hy).le
      · have := hw 0 i (by omega) hl hi
        rw [List.getElem?_eq_getElem (by omega)] at ha hy
        cases ha; cases hy; exact this
    · rcases Nat.lt_or_ge i (xs.length - 1) with hi | hi
      · have := hw i (xs.length - 1) hl (by omega) hi
        rw [List.getElem?_eq_getElem (by omega)] at hb hy
        cases hb; cases hy; exact this
      · have : i = xs.length - 1 := by omega
        rw [this, hb] at hy
        exact (Option.some.inj hy).ge
  rcases C21_cases x a b xs hw (by rw [← List.head?_eq_getElem?]; exact ha) hb with h1 | h1 | ⟨i, c, d, hc, hd, h1, h2⟩
  · have hxa : x = a := le_antisymm h1 hx.1
    obtain ⟨l, rfl⟩ : ∃ l, xs = a :: l := by
      cases xs with
      | nil => simp at ha
      | cons y l => simp at ha; exact ⟨l, by rw [ha]⟩
    rw [List.map_cons, C21_left x a (F 0 a) l (l.map (F 0)) ls rs hw h1, hxa, sub_self, mul_zero, add_zero, sub_self, abs_zero]
    positivity
  · exact absurd hx.2 (not_le.2 h1)
  · rw [C21_cell x c d (F 0 c) (F 0 d) xs _ ls rs i hw hc hd (by rw [List.getElem?_map, hc]; rfl) (by rw [List.getElem?_map, hd]; rfl) h1 h2]
    have hsub : Icc c d ⊆ Icc a b := Icc_subset_Icc (hmem i c hc).1 (hmem (i + 1) d hd).2
    have key := (chord_error c d M (h1.trans_le h2) F (fun k hk y hy => (hF.1 k hk y (hsub hy)).mono hsub) (fun y hy => hF.2 y (hsub hy)) x ⟨h1.le, h2⟩).1
    rw [abs_sub_comm]
    have := mul_le_mul_of_nonneg_left (distances_le c d x h ⟨h1.le, h2⟩ (hm i c d hc hd)) hM0
    linarith

/-- C122: linear interpolation of a continuous function converges uniformly as the grid gets finer. -/
theorem C122_linear_convergence (f : ℝ → ℝ) (a b : ℝ) (hf : ContinuousOn f (Icc a b)) (e : ℝ) (he : 0 < e) :
    ∃ d, 0 < d ∧ ∀ xs : List ℝ, xs.Pairwise (· < ·) → xs.head? = some a → xs.getLast? = some b → MeshAtMost xs d → ∀ ls rs : ℝ, ∀ x ∈ Icc a b,
      |linearInterpolate x xs (xs.map f) ls rs - f x| ≤ e := by
  have hu := isCompact_Icc.uniformContinuousOn_of_continuous hf
  rw [Metric.uniformContinuousOn_iff] at hu
  obtain ⟨d, hd, hdist⟩ := hu e he
  refine ⟨d / 2, by linarith, ?_⟩
  intro xs hs ha hb hm ls rs x hx
  have hw : xs.Pairwise (· ≤ ·) := hs.imp le_of_lt
  have hwi := List.pairwise_iff_getElem.1 hw
  rcases C21_cases x a b xs hw (by rw [← List.head?_eq_getElem?]; exact ha) hb with h1 | h1 | ⟨i, p, q, hp, hq, h1, h2⟩
  · have hxa : x = a := le_antisymm h1 hx.1
    obtain ⟨l, rfl⟩ : ∃ l, xs = a :: l := by
      cases xs with
      | nil => simp at ha
      | cons y l => simp at ha; exact ⟨l, by rw [ha]⟩
    rw [List.map_cons, C21_left x a (f a) l (l.map f) ls rs hw h1, hxa, sub_self, mul_zero, add_zero, sub_self, abs_zero]
    exact he.le
  · exact absurd hx.2 (not_le.2 h1)
  · rw [C21_cell x p q (f p) (f q) xs _ ls rs i hw hp hq (by rw [List.getElem?_map, hp]; rfl) (by rw [List.getElem?_map, hq]; rfl) h1 h2]
    have hlt := h1.trans_le h2
    have hpq := hm i p q hp hq
    have hl := (List.getElem?_eq_some_iff.1 hq).1
    have pa : a ≤ p := by
      rw [List.head?_eq_getElem?] at ha
      rw [List.getElem?_eq_getElem (by omega)] at ha hp
      cases ha
      cases hp
      rcases Nat.eq_zero_or_pos i with h0 | h0
      · simp [h0]
      · exact hwi 0 i (by omega) (by omega) h0
    have qb : q ≤ b := by
      rw [List.getLast?_eq_getElem?] at hb
      rw [List.getElem?_eq_getElem (by omega)] at hb hq
      cases hb
      cases hq
      rcases Nat.lt_or_ge (i + 1) (xs.length - 1) with h0 | h0
      · exact hwi (i + 1) (xs.length - 1) (by omega) (by omega) h0
      · have : i + 1 = xs.length - 1 := by omega
        simp [this]
    have k1 := hdist p ⟨pa, by linarith⟩ x hx (by rw [Real.dist_eq, abs_of_neg (by linarith)]; linarith)
    have k2 := hdist q ⟨by linarith, qb⟩ x hx (by rw [Real.dist_eq, abs_of_nonneg (by linarith)]; linarith)
    rw [Real.dist_eq] at k1 k2
    have key := chord_le p q (f p - f x) (f q - f x) e x hlt ⟨h1.le, h2⟩ k1.le k2.le
    refine le_of_eq_of_le (congrArg abs ?_) key
    ring

/-- C122: the default (natural) spline of a function with second derivative at most `M`, on any grid: the error is at most `M h² / 2`, that of the
derivative at most `2 M h`, and the second derivative stays below `3 M`. -/
theorem C122_natural (xs : List ℝ) (hn : 3 ≤ xs.length) (hs : xs.Pairwise (· < ·)) (a b : ℝ) (ha : xs.head? = some a) (hb : xs.getLast? = some b)
    (F : ℕ → ℝ → ℝ) (M h : ℝ) (hF : SmoothOn F 2 a b M) (hm : MeshAtMost xs h) (tpu : Bool) :
    ∃ c, splineBuild xs (xs.map (F 0)) none none none = some c ∧
      ∃ s1 s2, TwiceOn a b (fun t => cubicInterpolate t xs (xs.map (F 0)) c tpu) s1 s2 ∧
        ∀ t ∈ Icc a b, |cubicInterpolate t xs (xs.map (F 0)) c tpu - F 0 t| ≤ M * h ^ 2 / 2 ∧ |s1 t - F 1 t| ≤ 2 * M * h ∧ |s2 t| ≤ 3 * M := by
  obtain ⟨m, hx⟩ : ∃ m, xs.length = m + 2 := ⟨xs.length - 2, by omega⟩
  obtain ⟨c, hc, _, s1, s2, hsp, e0, e1⟩ := C38_natural xs (xs.map (F 0)) hn (by simp) hs a b ha hb tpu
  rw [← head_getD xs a ha, ← last_getD xs m hx b hb] at *
  exact ⟨c, hc, s1, s2, ⟨hsp.first, hsp.second, hsp.continuous⟩,
    spline_second_order xs m hx hs F _ s1 s2 hsp h M (mesh_gap xs m hx h hm) hF (Or.inl e0) (Or.inl e1)⟩

/-- C122: if the fourth derivative is at most `M` and the second one is zero at both ends, as that of the natural spline, then the error is of
fourth order. -/
theorem C122_natural_fourth (xs : List ℝ) (hn : 3 ≤ xs.length) (hs : xs.Pairwise (· < ·)) (a b : ℝ) (ha : xs.head? = some a)
    (hb : xs.getLast? = some b) (F : ℕ → ℝ → ℝ) (M h : ℝ) (hF : SmoothOn F 4 a b M) (hm : MeshAtMost xs h) (h0 : F 2 a = 0) (h1 : F 2 b = 0)
    (tpu : Bool) :
    ∃ c, splineBuild xs (xs.map (F 0)) none none none = some c ∧
      ∃ s1 s2, TwiceOn a b (fun t => cubicInterpolate t xs (xs.map (F 0)) c tpu) s1 s2 ∧
        ∀ t ∈ Icc a b, |cubicInterpolate t xs (xs.map (F 0)) c tpu - F 0 t| ≤ 7 / 64 * M * h ^ 4 ∧ |s1 t - F 1 t| ≤ 7 / 16 * M * h ^ 3 ∧
          |s2 t - F 2 t| ≤ 7 / 8 * M * h ^ 2 := by
  obtain ⟨m, hx⟩ : ∃ m, xs.length = m + 2 := ⟨xs.length - 2, by omega⟩
  obtain ⟨c, hc, _, s1, s2, hsp, e0, e1⟩ := C38_natural xs (xs.map (F 0)) hn (by simp) hs a b ha hb tpu
  rw [← head_getD xs a ha, ← last_getD xs m hx b hb] at *
  exact ⟨c, hc, s1, s2, ⟨hsp.first, hsp.second, hsp.continuous⟩,
    spline_fourth_order xs m hx hs F _ s1 s2 hsp h M (mesh_gap xs m hx h hm) hF (Or.inl (by rw [e0, h0])) (Or.inl (by rw [e1, h1]))⟩

/-- C122: prescribed first derivatives equal to those of the function: second order for bounded second derivatives, fourth order for bounded
fourth derivatives.  As in C38, flat segments must not be followed by others. -/
theorem C122_first_derivative_partial (xs : List ℝ) (hn : 2 ≤ xs.length) (hs : xs.Pairwise (· < ·)) (a b : ℝ) (ha : xs.head? = some a)
    (hb : xs.getLast? = some b) (F : ℕ → ℝ → ℝ) (h : ℝ) (hm : MeshAtMost xs h) (hf : FlatToTheEnd (xs.map (F 0)) (F 1 b)) (tpu : Bool) :
    ∃ c, splineBuild xs (xs.map (F 0)) (some .fixedFirstDerivative) (some (F 1 a)) (some (F 1 b)) = some c ∧
      ∃ s1 s2, TwiceOn a b (fun t => cubicInterpolate t xs (xs.map (F 0)) c tpu) s1 s2 ∧ ∀ M,
        (SmoothOn F 2 a b M → ∀ t ∈ Icc a b, |cubicInterpolate t xs (xs.map (F 0)) c tpu - F 0 t| ≤ M * h ^ 2 / 2 ∧ |s1 t - F 1 t| ≤ 2 * M * h ∧
          |s2 t| ≤ 3 * M) ∧
        (SmoothOn F 4 a b M → ∀ t ∈ Icc a b, |cubicInterpolate t xs (xs.map (F 0)) c tpu - F 0 t| ≤ 7 / 64 * M * h ^ 4 ∧
          |s1 t - F 1 t| ≤ 7 / 16 * M * h ^ 3 ∧ |s2 t - F 2 t| ≤ 7 / 8 * M * h ^ 2) := by
  obtain ⟨m, hx⟩ : ∃ m, xs.length = m + 2 := ⟨xs.length - 2, by omega⟩
  obtain ⟨c, hc, s1, s2, hsp, e0, e1⟩ := C38_first_derivative_partial xs (xs.map (F 0)) hn (by simp) hs a b ha hb (F 1 a) (F 1 b) hf tpu
  rw [← head_getD xs a ha, ← last_getD xs m hx b hb] at *
  exact ⟨c, hc, s1, s2, ⟨hsp.first, hsp.second, hsp.continuous⟩, fun M =>
    ⟨fun hF => spline_second_order xs m hx hs F _ s1 s2 hsp h M (mesh_gap xs m hx h hm) hF (Or.inr e0) (Or.inr e1),
      fun hF => spline_fourth_order xs m hx hs F _ s1 s2 hsp h M (mesh_gap xs m hx h hm) hF (Or.inr e0) (Or.inr e1)⟩⟩

/-- C122: of all twice continuously differentiable functions through the data the default spline has the smallest integral of the squared second
derivative, and it is the only one. -/
theorem C122_smallest_curvature (xs ys : List ℝ) (hn : 3 ≤ xs.length) (hy : ys.length = xs.length) (hs : xs.Pairwise (· < ·)) (a b : ℝ)
    (ha : xs.head? = some a) (hb : xs.getLast? = some b) (tpu : Bool) :
    ∃ c, splineBuild xs ys none none none = some c ∧
      ∃ s1 s2, TwiceOn a b (fun t => cubicInterpolate t xs ys c tpu) s1 s2 ∧ Takes xs ys (fun t => cubicInterpolate t xs ys c tpu) ∧
        ∀ f f1 f2 : ℝ → ℝ, TwiceOn a b f f1 f2 → Takes xs ys f →
          (∫ t in a..b, s2 t ^ 2) ≤ (∫ t in a..b, f2 t ^ 2) ∧
          ((∫ t in a..b, s2 t ^ 2) = (∫ t in a..b, f2 t ^ 2) → ∀ t ∈ Icc a b, f t = cubicInterpolate t xs ys c tpu) := by
  obtain ⟨m, hx⟩ : ∃ m, xs.length = m + 2 := ⟨xs.length - 2, by omega⟩
  obtain ⟨c, hc, _, s1, s2, hsp, e0, e1⟩ := C38_natural xs ys hn hy hs a b ha hb tpu
  rw [← head_getD xs a ha, ← last_getD xs m hx b hb] at *
  exact ⟨c, hc, s1, s2, ⟨hsp.first, hsp.second, hsp.continuous⟩, hsp.knots, fun f f1 f2 hf ht =>
    curvature_min xs ys m hx (by omega) hs _ s1 s2 hsp f f1 f2 hf.first hf.second hf.continuous ht ⟨Or.inl e0, Or.inl e1⟩⟩

/-- C122: with prescribed first derivatives the spline has the smallest curvature of all functions with these derivatives at the ends.  As in C38,
flat segments must not be followed by others. -/
theorem C122_smallest_curvature_first_derivative_partial (xs ys : List ℝ) (hn : 2 ≤ xs.length) (hy : ys.length = xs.length)
    (hs : xs.Pairwise (· < ·)) (a b : ℝ) (ha : xs.head? = some a) (hb : xs.getLast? = some b) (left right : ℝ) (hfl : FlatToTheEnd ys right)
    (tpu : Bool) :
    ∃ c, splineBuild xs ys (some .fixedFirstDerivative) (some left) (some right) = some c ∧
      ∃ s1 s2, TwiceOn a b (fun t => cubicInterpolate t xs ys c tpu) s1 s2 ∧ Takes xs ys (fun t => cubicInterpolate t xs ys c tpu) ∧
        s1 a = left ∧ s1 b = right ∧
        ∀ f f1 f2 : ℝ → ℝ, TwiceOn a b f f1 f2 → Takes xs ys f → f1 a = left → f1 b = right →
          (∫ t in a..b, s2 t ^ 2) ≤ (∫ t in a..b, f2 t ^ 2) ∧
          ((∫ t in a..b, s2 t ^ 2) = (∫ t in a..b, f2 t ^ 2) → ∀ t ∈ Icc a b, f t = cubicInterpolate t xs ys c tpu) := by
  obtain ⟨m, hx⟩ : ∃ m, xs.length = m + 2 := ⟨xs.length - 2, by omega⟩
  obtain ⟨c, hc, s1, s2, hsp, e0, e1⟩ := C38_first_derivative_partial xs ys hn hy hs a b ha hb left right hfl tpu
  rw [← head_getD xs a ha, ← last_getD xs m hx b hb] at *
  exact ⟨c, hc, s1, s2, ⟨hsp.first, hsp.second, hsp.continuous⟩, hsp.knots, e0, e1, fun f f1 f2 hf ht g0 g1 =>
    curvature_min xs ys m hx (by omega) hs _ s1 s2 hsp f f1 f2 hf.first hf.second hf.continuous ht
      ⟨Or.inr (by rw [g0, e0]), Or.inr (by rw [g1, e1])⟩⟩

/-- Data that differ by at most `e` give interpolated values that differ by at most `e`. -/
theorem linear_stable (xs ys zs : List ℝ) (hs : xs.Pairwise (· < ·)) (hy : ys.length = xs.length) (hz : zs.length = xs.length) (a b : ℝ)
    (ha : xs.head? = some a) (hb : xs.getLast? = some b) (e : ℝ)
    (he : ∀ (i : Nat) (y z : ℝ), ys[i]? = some y → zs[i]? = some z → |y - z| ≤ e) (ls rs : ℝ) (x : ℝ) (hx : x ∈ Icc a b) :
    |linearInterpolate x xs ys ls rs - linearInterpolate x xs zs ls rs| ≤ e := by
  have hw : xs.Pairwise (· ≤ ·) := hs.imp le_of_lt
  rcases C21_cases x a b xs hw (by rw [← List.head?_eq_getElem?]; exact ha) hb with h1 | h1 | ⟨i, c, d, hc, hd, h1, h2⟩
  · obtain ⟨l, rfl⟩ : ∃ l, xs = a :: l := by
      cases xs with
      | nil => simp at ha
      | cons y l => simp at ha; exact ⟨l, by rw [ha]⟩
    obtain ⟨y, ys, rfl⟩ : ∃ y l, ys = y :: l := List.exists_cons_of_length_pos (by rw [hy]; simp)
    obtain ⟨z, zs, rfl⟩ : ∃ y l, zs = y :: l := List.exists_cons_of_length_pos (by rw [hz]; simp)
    rw [C21_left x a y l ys ls rs hw h1, C21_left x a z l zs ls rs hw h1, add_sub_add_right_eq_sub]
    exact he 0 y z rfl rfl
  · exact absurd hx.2 (not_le.2 h1)
  · have hl := (List.getElem?_eq_some_iff.1 hd).1
    have gy : ∀ j, j < xs.length → ys[j]? = some (ys.getD j 0) := fun j hj => getD_some ys j (by omega)
    have gz : ∀ j, j < xs.length → zs[j]? = some (zs.getD j 0) := fun j hj => getD_some zs j (by omega)
    rw [C21_cell x c d _ _ xs ys ls rs i hw hc hd (gy i (by omega)) (gy (i + 1) hl) h1 h2,
      C21_cell x c d _ _ xs zs ls rs i hw hc hd (gz i (by omega)) (gz (i + 1) hl) h1 h2]
    have key := chord_le c d _ _ e x (h1.trans_le h2) ⟨h1.le, h2⟩ (he i _ _ (gy i (by omega)) (gz i (by omega)))
      (he (i + 1) _ _ (gy (i + 1) hl) (gz (i + 1) hl))
    refine le_of_eq_of_le (congrArg abs ?_) key
    ring

/-- C122: interpolation in two dimensions, splines in `y` and lines in `x`: the errors of the two directions add up.  `D x` are `f x` and its
derivatives in `y`, `E` is `f · y` and its derivatives in `x`. -/
theorem C122_two_dimensions (f : ℝ → ℝ → ℝ) (xd : List ℝ) (yd : List (List ℝ)) (h : ValidData xd yd (List.zipWith (fun x ys => ys.map (f x)) xd yd))
    (D : ℝ → ℕ → ℝ → ℝ) (hD : ∀ x ∈ xd, D x 0 = f x) (E : ℕ → ℝ → ℝ) (x y a b hx hy Mx My : ℝ) (ha : xd.head? = some a) (hb : xd.getLast? = some b)
    (hE : ∀ x ∈ Icc a b, E 0 x = f x y) (hEs : SmoothOn E 2 a b Mx) (hmx : MeshAtMost xd hx) (hxi : x ∈ Icc a b)
    (hrow : ∀ (i : Nat) (xi : ℝ) (ys : List ℝ), xd[i]? = some xi → yd[i]? = some ys → MeshAtMost ys hy ∧
      ∀ y0 y1, ys.head? = some y0 → ys.getLast? = some y1 → y ∈ Icc y0 y1 ∧ SmoothOn (D xi) 2 y0 y1 My) :
    ∃ z, interpolate2D xd yd (List.zipWith (fun x ys => ys.map (f x)) xd yd) x y = some z ∧
      |z - f x y| ≤ Mx * hx ^ 2 / 8 + My * hy ^ 2 / 2 := by
  refine ⟨_, interpolate2D_eq _ _ _ h x y, ?_⟩
  have hl : (List.zip yd (List.zipWith (fun x ys => ys.map (f x)) xd yd)).length = xd.length := by simp [h.ylength]
  have c1 := linear_stable xd ((List.zip yd (List.zipWith (fun x ys => ys.map (f x)) xd yd)).map fun r => rowValue r.1 r.2 y) (xd.map (E 0)) h.sorted
    (by rw [List.length_map, hl]) (by simp) a b ha hb (My * hy ^ 2 / 2) (by
      intro i u v hu hv
      have hi : i < xd.length := by
        have := (List.getElem?_eq_some_iff.1 hv).1
        simpa using this
      have hyi : i < yd.length := by rw [h.ylength]; exact hi
      have hz : (List.zipWith (fun x ys => ys.map (f x)) xd yd)[i]? = some (yd[i].map (f xd[i])) := by
        rw [List.getElem?_zipWith, List.getElem?_eq_getElem hi, List.getElem?_eq_getElem hyi]
      rw [row_get yd _ y i yd[i] _ (List.getElem?_eq_getElem hyi) hz] at hu
      rw [List.getElem?_map, List.getElem?_eq_getElem hi] at hv
      cases hu
      cases hv
      have hv := h.rows i _ _ (List.getElem?_eq_getElem hyi) hz
      obtain ⟨p, q, hp, hq⟩ := row_ends _ _ hv
      obtain ⟨r1, r2⟩ := hrow i xd[i] yd[i] (List.getElem?_eq_getElem hi) (List.getElem?_eq_getElem hyi)
      obtain ⟨r3, r4⟩ := r2 p q hp hq
      obtain ⟨c, hc, _, _, _, hbound⟩ := C122_natural yd[i] hv.size hv.sorted p q hp hq (D xd[i]) My hy r4 r1 false
      have hd0 := hD xd[i] (List.getElem_mem hi)
      rw [hd0] at hc hbound
      unfold rowValue
      rw [hc, Option.getD_some]
      have hmem : xd[i] ∈ Icc a b := by
        have hw := List.pairwise_iff_getElem.1 (h.sorted.imp (S := (· ≤ ·)) le_of_lt)
        rw [List.head?_eq_getElem?] at ha
        rw [List.getLast?_eq_getElem?] at hb
        rw [List.getElem?_eq_getElem (by omega)] at ha hb
        cases ha
        cases hb
        constructor
        · rcases Nat.eq_zero_or_pos i with h0 | h0
          · simp [h0]
          · exact hw 0 i (by omega) hi h0
        · rcases Nat.lt_or_ge i (xd.length - 1) with h0 | h0
          · exact hw i (xd.length - 1) hi (by omega) h0
          · have : i = xd.length - 1 := by omega
            simp [this]
      rw [hE xd[i] hmem]
      exact (hbound y r3).1) 0 0 x hxi
  have c2 := C122_linear xd h.sorted a b ha hb E Mx hx hEs hmx 0 0 x hxi
  rw [hE x hxi] at c2
  have := (abs_add_le _ _).trans (add_le_add c2 c1)
  refine le_of_eq_of_le (congrArg abs ?_) this
  ring

/-- Non-trivial instance: the square on four points, with second derivative `2` and mesh `1`. -/
example : SmoothOn (fun k t => if k = 0 then t ^ 2 else if k = 1 then 2 * t else 2) 2 0 3 2 ∧ MeshAtMost [0, 1, 2, 3] 1 := by
  refine ⟨⟨fun k hk y _ => ?_, fun y _ => by norm_num⟩, ?_⟩
  · have hk' : k = 0 ∨ k = 1 := by omega
    rcases hk' with rfl | rfl
    · simpa using (hasDerivAt_pow 2 y).hasDerivWithinAt
    · simpa using ((hasDerivAt_id y).const_mul 2).hasDerivWithinAt
  · intro i x0 x1 h0 h1
    have hi' : i + 1 < 4 := (List.getElem?_eq_some_iff.1 h1).1
    have hi : i < 3 := by omega
    interval_cases i <;> simp at h0 h1 <;> subst h0 h1 <;> norm_num

/-- The bounds are attained in order: the chord of the square is off by `M h² / 8` in the middle, the natural spline by less than `M h² / 2`. -/
example : linearInterpolate (1 / 2 : ℚ) [0, 1, 2, 3] [0, 1, 4, 9] - (1 / 2) ^ 2 = 2 * 1 ^ 2 / 8 ∧
    (splineBuild [0, 1, 2, (3 : ℚ)] [0, 1, 4, 9] none none none).map
      (fun c => cubicInterpolate (1 / 2) [0, 1, 2, 3] [0, 1, 4, 9] c - (1 / 2) ^ 2) = some (1 / 10) := by decide +kernel

end Props
