import Verif.Lemmas.SimpsonBound
import Verif.Props.Simpson
import Verif.Props.Gauss
import Verif.Props.HestonPrice
import Mathlib.MeasureTheory.Measure.CharacteristicFunction.TaylorExpansion
import Mathlib.Analysis.Complex.ExponentialBounds

/-! # C119 Errors of the quadrature rules for smooth functions, and convergence for continuous functions -/

namespace Spec
open Set

/-- `F 0` has the derivatives `F 1`, ..., `F m` on `[a, b]` and the last one is bounded by `M`. -/
def SmoothOn (F : ℕ → ℝ → ℝ) (m : ℕ) (a b M : ℝ) : Prop :=
  (∀ k, k < m → ∀ y ∈ Icc a b, HasDerivWithinAt (F k) (F (k + 1) y) (Icc a b) y) ∧ ∀ y ∈ Icc a b, |F m y| ≤ M

/-- Sum of the Taylor coefficients at the middle of the interval, times powers of half of its length. -/
noncomputable def taylorSum (F : ℕ → ℝ → ℝ) (m : ℕ) (a b : ℝ) : ℝ :=
  ∑ k ∈ Finset.range m, |F k ((a + b) / 2)| * ((b - a) / 2) ^ k / k.factorial

end Spec

namespace Lemmas
open Model Spec Set

theorem smoothOn_continuous {F : ℕ → ℝ → ℝ} {m : ℕ} {a b M : ℝ} (h : SmoothOn F m a b M) (hm : 0 < m) : ContinuousOn (F 0) (Icc a b) :=
  fun y hy => (h.1 0 hm y hy).continuousWithinAt

theorem smoothOn_mono {F : ℕ → ℝ → ℝ} {m : ℕ} {a b M l u : ℝ} (h : SmoothOn F m a b M) (hl : a ≤ l) (hu : u ≤ b) : SmoothOn F m l u M :=
  ⟨fun k hk y hy => (h.1 k hk y ⟨hl.trans hy.1, hy.2.trans hu⟩).mono (Icc_subset_Icc hl hu), fun y hy => h.2 y ⟨hl.trans hy.1, hy.2.trans hu⟩⟩

/-- Errors of panels add up. -/
theorem simpson_of_panels (f : ℝ → ℝ) (a b e : ℝ) (k : ℕ) (hab : a ≤ b) (hf : ContinuousOn f (Icc a b))
    (he : ∀ c, a ≤ c - (b - a) / (2 * k + 2) → c + (b - a) / (2 * k + 2) ≤ b →
      |(∫ x in (c - (b - a) / (2 * k + 2))..(c + (b - a) / (2 * k + 2)), f x) -
        (b - a) / (2 * k + 2) / 3 * (f (c - (b - a) / (2 * k + 2)) + 4 * f c + f (c + (b - a) / (2 * k + 2)))| ≤ e) :
    ∃ r, simpson f a b (2 * k + 3) = .ok r ∧ |r - ∫ x in a..b, f x| ≤ (k + 1) * e := by
  refine ⟨_, Props.C24_panels f a b k, ?_⟩
  have hk : (0 : ℝ) < 2 * k + 2 := by positivity
  have hb : (b - a) / (2 * (k : ℝ) + 2) * (2 * k + 2) = b - a := div_mul_cancel₀ _ hk.ne'
  have hh : 0 ≤ (b - a) / (2 * (k : ℝ) + 2) := div_nonneg (by linarith) hk.le
  generalize (b - a) / (2 * (k : ℝ) + 2) = h at *
  have hin : ∀ j : ℕ, j ≤ k + 1 → a + h * (2 * j) ∈ Icc a b := by
    intro j hj
    have : (j : ℝ) ≤ k + 1 := by exact_mod_cast hj
    exact ⟨by nlinarith [mul_nonneg hh (show (0 : ℝ) ≤ 2 * j by positivity)], by nlinarith⟩
  have hsum : ∫ x in a..b, f x = ∑ j ∈ Finset.range (k + 1), ∫ x in (a + h * (2 * j))..(a + h * (2 * j + 2)), f x := by
    have := intervalIntegral.sum_integral_adjacent_intervals (f := f) (μ := MeasureTheory.volume) (a := fun j : ℕ => a + h * (2 * (j : ℝ))) (n := k + 1)
      (fun j hj => (hf.mono (by
        have h1 := hin j (by omega)
        have h2 := hin (j + 1) (by omega)
        exact uIcc_subset_Icc h1 h2)).intervalIntegrable)
    rw [show a + h * (2 * ((0 : ℕ) : ℝ)) = a by simp, show a + h * (2 * ((k + 1 : ℕ) : ℝ)) = b by push_cast; linarith] at this
    rw [← this]
    refine Finset.sum_congr rfl fun j _ => ?_
    rw [show a + h * (2 * ((j + 1 : ℕ) : ℝ)) = a + h * (2 * j + 2) by push_cast; ring]
  rw [hsum]
  simp only
  rw [← Finset.sum_sub_distrib]
  refine (Finset.abs_sum_le_sum_abs _ _).trans ((Finset.sum_le_sum (g := fun _ => e) fun j hj => ?_).trans (by simp))
  have hj : j < k + 1 := Finset.mem_range.1 hj
  have h1 := hin j (by omega)
  have h2 := hin (j + 1) (by omega)
  have := he (a + h * (2 * j + 1)) (by have := h1.1; linarith) (by have := h2.2; push_cast at this; linarith)
  rw [show a + h * (2 * (j : ℝ) + 1) - h = a + h * (2 * j) by ring, show a + h * (2 * (j : ℝ) + 1) + h = a + h * (2 * j + 2) by ring] at this
  rw [abs_sub_comm]
  refine le_trans (le_of_eq ?_) this
  congr 1
  ring

/-- Nodes inside `[-1, 1]` and positive weights. -/
def nodesOk (roots weights : List Int) : Bool := roots.all (fun r => decide (-10 ^ 25 ≤ r ∧ r ≤ 10 ^ 25)) && weights.all (fun w => decide (0 ≤ w))

theorem legendre_nodes : legendreSizes.all (fun n => nodesOk ((legendreRoots n).getD []) ((legendreWeights n).getD [])) = true := by decide +kernel

theorem kronrod_nodes : kronrodSizes.all (fun n => nodesOk ((legendreRoots ((n - 1) / 2)).getD [] ++ (stieltjesRoots n).getD []) ((kronrodWeights n).getD [])) = true := by
  decide +kernel

/-- A rule with such nodes and weights on a small function. -/
theorem quadrature_small (roots weights : List Int) (h : nodesOk roots weights = true) (g : ℝ → ℝ) (a b B : ℝ) (hab : a ≤ b) (hg : ∀ y ∈ Icc a b, |g y| ≤ B) :
    |quadrature g a b (tableValues roots) (tableValues weights)| ≤ quadrature (fun _ => B) a b (tableValues roots) (tableValues weights) := by
  unfold nodesOk at h
  rw [Bool.and_eq_true, List.all_eq_true, List.all_eq_true] at h
  obtain ⟨h1, h2⟩ := h
  unfold quadrature tableValues
  induction roots generalizing weights with
  | nil => simp
  | cons r roots ih =>
    cases weights with
    | nil => simp
    | cons w weights =>
      simp only [List.map_cons, List.zipWith_cons_cons, List.sum_cons]
      have hr := h1 r (by simp)
      have hw := h2 w (by simp)
      simp only [decide_eq_true_eq] at hr hw
      have hw' : (0 : ℝ) ≤ (w : ℝ) / 10 ^ 25 := div_nonneg (by exact_mod_cast hw) (by positivity)
      have hr1 : (-1 : ℝ) ≤ (r : ℝ) / 10 ^ 25 := by rw [le_div_iff₀ (by positivity)]; have := (Int.cast_le (R := ℝ)).2 hr.1; push_cast at this; linarith
      have hr2 : (r : ℝ) / 10 ^ 25 ≤ 1 := by rw [div_le_iff₀ (by positivity)]; have := (Int.cast_le (R := ℝ)).2 hr.2; push_cast at this; linarith
      generalize (r : ℝ) / 10 ^ 25 = x at *
      generalize (w : ℝ) / 10 ^ 25 = v at *
      refine (abs_add_le _ _).trans (add_le_add ?_ (ih weights (fun q hq => h1 q (by simp [hq])) (fun q hq => h2 q (by simp [hq]))))
      rw [abs_div, abs_two, abs_mul, abs_mul, abs_of_nonneg (sub_nonneg.2 hab), abs_of_nonneg hw']
      have := hg (((b - a) * x + b + a) / 2) ⟨by nlinarith, by nlinarith⟩
      have hba : 0 ≤ (b - a) * v := mul_nonneg (sub_nonneg.2 hab) hw'
      nlinarith

theorem quadrature_sub (f g : ℝ → ℝ) (a b : ℝ) (roots weights : List ℝ) :
    quadrature f a b roots weights = quadrature (fun x => f x - g x) a b roots weights + quadrature g a b roots weights := by
  unfold quadrature
  induction roots generalizing weights with
  | nil => simp
  | cons r roots ih =>
    cases weights with
    | nil => simp
    | cons w weights =>
      simp only [List.zipWith_cons_cons, List.sum_cons]
      rw [ih weights]
      ring

/-- The error of a rule that is exact up to some degree, with positive weights. -/
theorem rule_error (e degree : Nat) (he : e ≤ 25) (roots weights : List Int) (h : ruleOk e degree roots weights = true) (hn : nodesOk roots weights = true)
    (F : ℕ → ℝ → ℝ) (a b M : ℝ) (hab : a ≤ b) (hF : SmoothOn F (degree + 1) a b M) :
    |quadrature (F 0) a b (tableValues roots) (tableValues weights) - ∫ x in a..b, F 0 x| ≤
      (b - a) * (2 + 1 / 10 ^ e) * (M * ((b - a) / 2) ^ (degree + 1) / (degree + 1).factorial) + (b - a) / 2 * (1 / 10 ^ e) * taylorSum F (degree + 1) a b := by
  set c := (a + b) / 2 with hc
  set p : Polynomial ℝ := ∑ k ∈ Finset.range (degree + 1), Polynomial.C (F k c / k.factorial) * (Polynomial.X - Polynomial.C c) ^ k with hp
  have hpe : ∀ x, p.eval x = ∑ k ∈ Finset.range (degree + 1), F k c * (x - c) ^ k / k.factorial := by
    intro x
    rw [hp, Polynomial.eval_finset_sum]
    refine Finset.sum_congr rfl fun k _ => ?_
    simp only [Polynomial.eval_mul, Polynomial.eval_C, Polynomial.eval_pow, Polynomial.eval_sub, Polynomial.eval_X]
    ring
  have hdeg : p.natDegree ≤ degree := by
    refine Polynomial.natDegree_sum_le_of_forall_le _ _ fun k hk => ?_
    refine (Polynomial.natDegree_C_mul_le _ _).trans ((Polynomial.natDegree_pow_le).trans ?_)
    rw [Polynomial.natDegree_X_sub_C, mul_one]
    have := Finset.mem_range.1 hk
    omega
  have hcoeff : coeffSum p a b (degree + 1) = taylorSum F (degree + 1) a b := by
    have hcomp : p.comp (Polynomial.C ((b - a) / 2) * Polynomial.X + Polynomial.C ((a + b) / 2)) =
        ∑ k ∈ Finset.range (degree + 1), Polynomial.C (F k c * ((b - a) / 2) ^ k / k.factorial) * Polynomial.X ^ k := by
      rw [hp, Polynomial.sum_comp]
      refine Finset.sum_congr rfl fun k _ => ?_
      simp only [Polynomial.mul_comp, Polynomial.C_comp, Polynomial.pow_comp, Polynomial.sub_comp, Polynomial.X_comp]
      rw [← hc, add_sub_cancel_right, mul_pow, ← Polynomial.C_pow, ← mul_assoc, ← Polynomial.C_mul]
      congr 2
      ring
    unfold coeffSum taylorSum
    rw [hcomp]
    refine Finset.sum_congr rfl fun k hk => ?_
    rw [Polynomial.finset_sum_coeff, Finset.sum_eq_single k]
    · rw [Polynomial.coeff_C_mul_X_pow, if_pos rfl, abs_div, abs_mul, abs_of_nonneg (show 0 ≤ ((b - a) / 2) ^ k from pow_nonneg (by linarith) k), Nat.abs_cast, hc]
    · intro j _ hj
      rw [Polynomial.coeff_C_mul_X_pow, if_neg (Ne.symm hj)]
    · intro hk'; exact absurd hk hk'
  have hpoly := rule_poly e degree he roots weights h p hdeg a b
  rw [hcoeff, abs_of_nonneg (sub_nonneg.2 hab)] at hpoly
  set B := M * ((b - a) / 2) ^ (degree + 1) / (degree + 1).factorial with hB
  have hM0 : 0 ≤ M := (abs_nonneg _).trans (hF.2 a ⟨le_rfl, hab⟩)
  have hB0 : 0 ≤ B := div_nonneg (mul_nonneg hM0 (pow_nonneg (by linarith) _)) (by positivity)
  have hrem : ∀ y ∈ Icc a b, |F 0 y - p.eval y| ≤ B := by
    intro y hy
    rw [hpe]
    refine (taylor_bound a b M (degree + 1) F hF.1 hF.2 c y ⟨by rw [hc]; linarith, by rw [hc]; linarith⟩ hy).trans ?_
    rw [hB]
    gcongr
    rw [abs_le, hc]
    exact ⟨by linarith [hy.1], by linarith [hy.2]⟩
  have hq1 := quadrature_small roots weights hn (fun x => F 0 x - p.eval x) a b B hab hrem
  have hq2 : quadrature (fun _ => B) a b (tableValues roots) (tableValues weights) ≤ (b - a) * (1 + 1 / 10 ^ e) * B := by
    have h1 := rule_poly e degree he roots weights h (Polynomial.C B) (by simp) a b
    simp only [Polynomial.eval_C] at h1
    rw [intervalIntegral.integral_const, smul_eq_mul, abs_of_nonneg (sub_nonneg.2 hab)] at h1
    have h2 : coeffSum (Polynomial.C B) a b (degree + 1) = B := by
      unfold coeffSum
      rw [Polynomial.C_comp, Finset.sum_eq_single 0]
      · rw [Polynomial.coeff_C_zero, abs_of_nonneg hB0]
      · intro j _ hj; rw [Polynomial.coeff_C, if_neg hj, abs_zero]
      · intro hk; simp at hk
    rw [h2] at h1
    have h3 := (abs_le.1 h1).2
    have h4 : 0 ≤ (b - a) * (1 / 10 ^ e) * B := mul_nonneg (mul_nonneg (sub_nonneg.2 hab) (by positivity)) hB0
    nlinarith
  have hcont : ContinuousOn (F 0) (uIcc a b) := by rw [uIcc_of_le hab]; exact smoothOn_continuous hF (by omega)
  have hi : |∫ x in a..b, (F 0 x - p.eval x)| ≤ B * (b - a) := by
    have := intervalIntegral.norm_integral_le_of_norm_le_const (a := a) (b := b) (C := B) (f := fun x => F 0 x - p.eval x)
      (fun x hx => by rw [uIoc_of_le hab] at hx; exact hrem x ⟨hx.1.le, hx.2⟩)
    rwa [Real.norm_eq_abs, abs_of_nonneg (sub_nonneg.2 hab)] at this
  have hi2 : ∫ x in a..b, (F 0 x - p.eval x) = (∫ x in a..b, F 0 x) - ∫ x in a..b, p.eval x :=
    intervalIntegral.integral_sub hcont.intervalIntegrable ((show Continuous fun x => p.eval x by simp only [hpe]; fun_prop).intervalIntegrable _ _)
  rw [quadrature_sub (F 0) (fun x => p.eval x)]
  rw [hi2] at hi
  have t1 := abs_le.1 hi
  have t2 := abs_le.1 (hq1.trans hq2)
  have t3 := abs_le.1 hpoly
  generalize quadrature (fun x => F 0 x - p.eval x) a b (tableValues roots) (tableValues weights) = Q1 at *
  generalize quadrature (fun x => p.eval x) a b (tableValues roots) (tableValues weights) = Q2 at *
  rw [abs_le]
  constructor <;> linarith [t1.1, t1.2, t2.1, t2.2, t3.1, t3.2]

end Lemmas

namespace Props
open Model Lemmas Spec Set Filter Topology

/-- C119: the classical error of the composite rule of Simpson with the best constant, for functions with a bounded fourth derivative. -/
theorem C119_simpson (F : ℕ → ℝ → ℝ) (a b M : ℝ) (hab : a ≤ b) (hF : SmoothOn F 4 a b M) (n : ℕ) (h3 : 3 ≤ n) (hodd : n % 2 = 1) :
    ∃ r, simpson (F 0) a b n = .ok r ∧ |r - ∫ x in a..b, F 0 x| ≤ M * (b - a) ^ 5 / (180 * ((n : ℝ) - 1) ^ 4) := by
  obtain ⟨k, rfl⟩ : ∃ k, n = 2 * k + 3 := ⟨(n - 3) / 2, by omega⟩
  obtain ⟨A, hA, hint⟩ := antiderivative_within (F 0) a b hab (smoothOn_continuous hF (by norm_num))
  have hk : (0 : ℝ) < 2 * k + 2 := by positivity
  have hh : 0 ≤ (b - a) / (2 * (k : ℝ) + 2) := div_nonneg (by linarith) hk.le
  obtain ⟨r, h1, h2⟩ := simpson_of_panels (F 0) a b (M * ((b - a) / (2 * k + 2)) ^ 5 / 90) k hab (smoothOn_continuous hF (by norm_num)) (fun c hl hu => by
    generalize (b - a) / (2 * (k : ℝ) + 2) = h at *
    rw [hint _ _ ⟨hl, by linarith⟩ ⟨by linarith, hu⟩]
    have hs := smoothOn_mono hF hl hu
    exact simpson_panel_bound (fun i => Nat.casesOn i A F) c h M hh
      (fun i hi y hy => by
        cases i with
        | zero => exact (hA y ⟨hl.trans hy.1, hy.2.trans hu⟩).mono (Icc_subset_Icc hl hu)
        | succ i => exact hs.1 i (by omega) y hy) hs.2)
  refine ⟨r, h1, h2.trans (le_of_eq ?_)⟩
  push_cast
  rw [show 2 * (k : ℝ) + 3 - 1 = 2 * k + 2 by ring]
  have : (k : ℝ) + 1 ≠ 0 := by positivity
  field_simp
  ring

/-- C119: the results of the rule of Simpson converge to the integral of every continuous function. -/
theorem C119_simpson_limit (f : ℝ → ℝ) (a b : ℝ) (hab : a ≤ b) (hf : ContinuousOn f (Icc a b)) (ε : ℝ) (hε : 0 < ε) :
    ∃ N, ∀ n ≥ N, n % 2 = 1 → ∃ r, simpson f a b n = .ok r ∧ |r - ∫ x in a..b, f x| ≤ ε := by
  have huc := isCompact_Icc.uniformContinuousOn_of_continuous hf
  rw [Metric.uniformContinuousOn_iff] at huc
  obtain ⟨δ, hδ, hu⟩ := huc (ε / (b - a + 1)) (div_pos hε (by linarith))
  obtain ⟨N, hN⟩ := exists_nat_gt ((b - a) / δ)
  refine ⟨2 * N + 3, fun n hn hodd => ?_⟩
  obtain ⟨k, rfl⟩ : ∃ k, n = 2 * k + 3 := ⟨(n - 3) / 2, by omega⟩
  have hk : (0 : ℝ) < 2 * k + 2 := by positivity
  have hh : 0 ≤ (b - a) / (2 * (k : ℝ) + 2) := div_nonneg (by linarith) hk.le
  have hhd : 2 * ((b - a) / (2 * (k : ℝ) + 2)) < δ := by
    have hkN : (N : ℝ) ≤ k := by exact_mod_cast (by omega : N ≤ k)
    rw [div_lt_iff₀ hδ] at hN
    rw [← mul_div_assoc, div_lt_iff₀ hk]
    nlinarith
  have hmul : ((k : ℝ) + 1) * (2 * ((b - a) / (2 * (k : ℝ) + 2))) = b - a := by field_simp
  obtain ⟨r, h1, h2⟩ := simpson_of_panels f a b (2 * ((b - a) / (2 * k + 2)) * (ε / (b - a + 1))) k hab hf (fun c hl hr => by
    generalize (b - a) / (2 * (k : ℝ) + 2) = h at *
    have hcont : ContinuousOn f (uIcc (c - h) (c + h)) := hf.mono (uIcc_subset_Icc ⟨hl, by linarith⟩ ⟨by linarith, hr⟩)
    have e : (∫ x in (c - h)..(c + h), f x) - h / 3 * (f (c - h) + 4 * f c + f (c + h)) =
        ∫ x in (c - h)..(c + h), (f x - (f (c - h) + 4 * f c + f (c + h)) / 6) := by
      rw [intervalIntegral.integral_sub hcont.intervalIntegrable (by simp), intervalIntegral.integral_const, smul_eq_mul]
      ring
    rw [e]
    have hb := intervalIntegral.norm_integral_le_of_norm_le_const (a := c - h) (b := c + h) (C := ε / (b - a + 1))
      (f := fun x => f x - (f (c - h) + 4 * f c + f (c + h)) / 6) (fun x hx => by
        rw [uIoc_of_le (by linarith)] at hx
        have hd : ∀ y, c - h ≤ y → y ≤ c + h → |f x - f y| ≤ ε / (b - a + 1) := by
          intro y hy1 hy2
          refine (hu x ⟨by linarith [hx.1], hx.2.trans hr⟩ y ⟨hl.trans hy1, hy2.trans hr⟩ ?_).le
          rw [Real.dist_eq, abs_lt]
          exact ⟨by linarith [hx.1], by linarith [hx.2]⟩
        have h1 := abs_le.1 (hd (c - h) le_rfl (by linarith))
        have h2 := abs_le.1 (hd c (by linarith) (by linarith))
        have h3 := abs_le.1 (hd (c + h) (by linarith) le_rfl)
        rw [Real.norm_eq_abs, abs_le]
        constructor <;> linarith [h1.1, h1.2, h2.1, h2.2, h3.1, h3.2])
    rw [Real.norm_eq_abs, show c + h - (c - h) = 2 * h by ring, abs_of_nonneg (show 0 ≤ 2 * h by linarith), mul_comm (ε / _)] at hb
    exact hb)
  refine ⟨r, h1, h2.trans ?_⟩
  rw [← mul_assoc, hmul, ← mul_div_assoc, div_le_iff₀ (by linarith)]
  nlinarith

/-- C119: the error of the Gauss-Legendre rules for functions with `2 n` derivatives: the remainder of the Taylor formula, and the accuracy
of the decimals in the table times the Taylor coefficients. -/
theorem C119_legendre (F : ℕ → ℝ → ℝ) (a b M : ℝ) (hab : a ≤ b) (n : ℕ) (hn : (legendreRoots n).isSome) (hF : SmoothOn F (2 * n) a b M) :
    ∃ r, gaussLegendre (F 0) a b n = some r ∧ |r - ∫ x in a..b, F 0 x| ≤
      (b - a) * (2 + 1 / 10 ^ 24) * (M * ((b - a) / 2) ^ (2 * n) / (2 * n).factorial) + (b - a) / 2 * (1 / 10 ^ 24) * taylorSum F (2 * n) a b := by
  have hmem : n ∈ legendreSizes := by
    by_contra hc
    unfold legendreSizes at hc
    simp only [List.mem_cons, List.not_mem_nil, or_false, not_or] at hc
    unfold legendreRoots at hn
    split at hn <;> simp_all
  have h := List.all_eq_true.1 legendre_table n hmem
  have h' := List.all_eq_true.1 legendre_nodes n hmem
  unfold legendreOk at h
  unfold gaussLegendre
  split at h
  · rename_i r w hr hw
    rw [hr, hw] at h' ⊢
    have hn0 : 2 * n = 2 * n - 1 + 1 := by
      unfold legendreSizes at hmem
      simp only [List.mem_cons, List.not_mem_nil, or_false] at hmem
      omega
    rw [Bool.and_eq_true] at h
    have := rule_error 24 (2 * n - 1) (by norm_num) r w h.1 h' F a b M hab (by rw [← hn0]; exact hF)
    rw [← hn0] at this
    exact ⟨_, rfl, this⟩
  · cases h

/-- C119: the same for the Gauss-Kronrod rules. -/
theorem C119_kronrod (F : ℕ → ℝ → ℝ) (a b M : ℝ) (n : ℕ) (hn : (stieltjesRoots n).isSome) (hF : SmoothOn F (3 * ((n - 1) / 2) + 2) a b M) :
    ∃ pair, kronrodPair (F 0) n = some pair ∧ ∀ l u, a ≤ l → l ≤ u → u ≤ b → |(pair l u).1 - ∫ x in l..u, F 0 x| ≤
      (u - l) * (2 + 1 / 10 ^ 20) * (M * ((u - l) / 2) ^ (3 * ((n - 1) / 2) + 2) / (3 * ((n - 1) / 2) + 2).factorial) +
        (u - l) / 2 * (1 / 10 ^ 20) * taylorSum F (3 * ((n - 1) / 2) + 2) l u := by
  have hmem : n ∈ kronrodSizes := by
    by_contra hc
    unfold kronrodSizes at hc
    simp only [List.mem_cons, List.not_mem_nil, or_false, not_or] at hc
    unfold stieltjesRoots at hn
    split at hn <;> simp_all
  have h := List.all_eq_true.1 kronrod_table n hmem
  have h' := List.all_eq_true.1 kronrod_nodes n hmem
  unfold kronrodOk at h
  unfold kronrodPair
  split at h
  · rename_i r s w l hr hs hw hl
    rw [hr, hs, hw] at h'
    rw [hr, hs, hw, hl]
    refine ⟨_, rfl, fun lo up h1 h2 h3 => ?_⟩
    exact rule_error 20 (3 * ((n - 1) / 2) + 1) (by norm_num) (r ++ s) w (by simpa using h) h' F lo up M h2 (smoothOn_mono hF h1 h3)
  · cases h

/-- C119: adaptive integration of a function with bounded derivatives: if all intervals of some level are accepted, the result is the
integral up to the error of the rule on the whole interval. -/
theorem C119_adaptive (F : ℕ → ℝ → ℝ) (a b M tol : ℝ) (hab : a ≤ b) (n d depth : ℕ) (hd : d < depth) (hn : (stieltjesRoots n).isSome)
    (hF : SmoothOn F (3 * ((n - 1) / 2) + 2) a b M) (B : ℕ → ℝ) (hB : ∀ k, ∀ y ∈ Icc a b, |F k y| ≤ B k) (pair : ℝ → ℝ → ℝ × ℝ)
    (hpair : kronrodPair (F 0) n = some pair) (hgood : ∀ l u, a ≤ l → u ≤ b → u - l = (b - a) / 2 ^ d → isBad pair tol (l, u) = false) :
    ∃ r, gaussKronrod (F 0) a b tol n depth = some r ∧ |r - ∫ x in a..b, F 0 x| ≤
      ((2 + 1 / 10 ^ 20) * (M * ((b - a) / 2) ^ (3 * ((n - 1) / 2) + 2) / (3 * ((n - 1) / 2) + 2).factorial) +
        1 / 10 ^ 20 / 2 * ∑ k ∈ Finset.range (3 * ((n - 1) / 2) + 2), B k * ((b - a) / 2) ^ k / k.factorial) * (b - a) := by
  obtain ⟨A, hA, hint⟩ := antiderivative_within (F 0) a b hab (smoothOn_continuous hF (by omega))
  have hM0 : 0 ≤ M := (abs_nonneg _).trans (hF.2 a ⟨le_rfl, hab⟩)
  obtain ⟨r, hr⟩ : ∃ r, gaussKronrod (F 0) a b tol n depth = some r := by unfold gaussKronrod; rw [hpair]; exact ⟨_, rfl⟩
  obtain ⟨pair', hpair', herr⟩ := C119_kronrod F a b M n hn hF
  rw [hpair] at hpair'
  cases hpair'
  refine ⟨r, hr, ?_⟩
  rw [hint a b ⟨le_rfl, hab⟩ ⟨hab, le_rfl⟩]
  refine C50_error (F 0) A a b tol _ hab n d depth hd r pair hpair hgood (fun l u hl hlu hu _ => ?_) hr
  rw [← hint l u ⟨hl, hlu.trans hu⟩ ⟨hl.trans hlu, hu⟩]
  refine (herr l u hl hlu hu).trans ?_
  have hlen : (u - l) / 2 ≤ (b - a) / 2 := by linarith
  have hl0 : 0 ≤ (u - l) / 2 := by linarith
  have h1 : M * ((u - l) / 2) ^ (3 * ((n - 1) / 2) + 2) / (3 * ((n - 1) / 2) + 2).factorial ≤
      M * ((b - a) / 2) ^ (3 * ((n - 1) / 2) + 2) / (3 * ((n - 1) / 2) + 2).factorial := by gcongr
  have h2 : taylorSum F (3 * ((n - 1) / 2) + 2) l u ≤ ∑ k ∈ Finset.range (3 * ((n - 1) / 2) + 2), B k * ((b - a) / 2) ^ k / k.factorial := by
    unfold taylorSum
    refine Finset.sum_le_sum fun k _ => ?_
    have hBk := hB k ((l + u) / 2) ⟨by linarith, by linarith⟩
    have := (abs_nonneg _).trans hBk
    gcongr
  generalize M * ((u - l) / 2) ^ (3 * ((n - 1) / 2) + 2) / (3 * ((n - 1) / 2) + 2).factorial = X at *
  generalize M * ((b - a) / 2) ^ (3 * ((n - 1) / 2) + 2) / (3 * ((n - 1) / 2) + 2).factorial = Y at *
  generalize taylorSum F (3 * ((n - 1) / 2) + 2) l u = T at *
  generalize ∑ k ∈ Finset.range (3 * ((n - 1) / 2) + 2), B k * ((b - a) / 2) ^ k / (k.factorial : ℝ) = S at *
  have hE : (0 : ℝ) ≤ 1 / 10 ^ 20 := by positivity
  generalize (1 : ℝ) / 10 ^ 20 = E at *
  have k1 : (u - l) * (2 + E) * X ≤ (u - l) * (2 + E) * Y := mul_le_mul_of_nonneg_left h1 (mul_nonneg (by linarith) (by linarith))
  have k2 : (u - l) / 2 * E * T ≤ (u - l) / 2 * E * S := mul_le_mul_of_nonneg_left h2 (mul_nonneg hl0 hE)
  nlinarith

open MeasureTheory in
/-- C119: prices in the model of Heston converge: with many points of the rule of Simpson the price is the discounted expectation of the payoff
up to the part of the integral beyond the limits, which is small for a small lower and a large upper limit. -/
theorem C119_heston (a : HestonOptionArgs) (ha : HestonAccepted a) (law : Measure ℝ) (hl : Spec.IsLogPriceLaw law)
    (hφ : ∀ u, 0 < u → a.params.charFun a.expiry u = charFun law u) (hK : 0 < a.strike) (hF : 0 < a.forwardPrice) (lower upper ε : ℝ)
    (h0 : 0 < lower) (hlu : lower ≤ upper) (hε : 0 < ε) :
    ∃ N, ∀ n ≥ N, n % 2 = 1 → ∃ r, hestonPrice { a with integration := { lower := some lower, upper := some upper, numPoints := some n } } = .ok r ∧
      |r - (if a.isCall.getD true then Spec.callValue law a.forwardPrice a.strike else Spec.putValue law a.forwardPrice a.strike) * a.factor| ≤
        a.strike * (1 / upper + lower * (1 + ∫ x, |x - Real.log (a.strike / a.forwardPrice)| ∂law) + ε) / Real.pi * |a.factor| := by
  haveI := hl.probability
  set k := Real.log (a.strike / a.forwardPrice) with hk
  have heq : ∀ u, 0 < u → attariIntegrand (a.params.charFun a.expiry) k u = attariIntegrand (charFun law) k u := by
    intro u hu
    unfold attariIntegrand
    rw [hφ u hu]
  have hc : Continuous (charFun law) := continuous_charFun
  have hcont : ContinuousOn (attariIntegrand (a.params.charFun a.expiry) k) (Icc lower upper) := by
    refine ContinuousOn.congr ?_ (fun u hu => heq u (h0.trans_le hu.1))
    have hne : ∀ u ∈ Icc lower upper, u ≠ 0 := fun u hu => (h0.trans_le hu.1).ne'
    have hne2 : ∀ u ∈ Icc lower upper, 1 + u * u ≠ 0 := fun u _ => by nlinarith [mul_self_nonneg u]
    have hre : ContinuousOn (fun u => (charFun law u).re) (Icc lower upper) := (Complex.continuous_re.comp hc).continuousOn
    have him : ContinuousOn (fun u => (charFun law u).im) (Icc lower upper) := (Complex.continuous_im.comp hc).continuousOn
    unfold attariIntegrand
    exact ((((hre.add (him.div continuousOn_id hne)).mul (by fun_prop)).add ((him.sub (hre.div continuousOn_id hne)).mul (by fun_prop))).div (by fun_prop) hne2)
  obtain ⟨N, hN⟩ := C119_simpson_limit _ lower upper hlu hcont ε hε
  refine ⟨N, fun n hn hodd => ?_⟩
  obtain ⟨q, hq, hqe⟩ := hN n hn hodd
  have hint : hestonIntegral { lower := some lower, upper := some upper, numPoints := some n } (attariIntegrand (a.params.charFun a.expiry) k) = .ok q := hq
  have ht := C82_truncation law hl k lower upper h0.le hlu (h0.trans_le hlu)
  have e1 : ∫ u in Ioi (0 : ℝ), attariIntegrand (a.params.charFun a.expiry) k u = ∫ u in Ioi (0 : ℝ), attariIntegrand (charFun law) k u :=
    setIntegral_congr_fun measurableSet_Ioi fun u hu => heq u hu
  have e2 : ∫ u in lower..upper, attariIntegrand (a.params.charFun a.expiry) k u = ∫ u in lower..upper, attariIntegrand (charFun law) k u := by
    refine intervalIntegral.integral_congr fun u hu => heq u ?_
    rw [uIcc_of_le hlu] at hu
    exact h0.trans_le hu.1
  refine C82_price { a with integration := { lower := some lower, upper := some upper, numPoints := some n } } ha law hl hφ hK hF q _ hint ?_
  change |q - ∫ u in Ioi (0 : ℝ), attariIntegrand (a.params.charFun a.expiry) k u| ≤ _
  rw [e1]
  rw [e2] at hqe
  have t1 := abs_le.1 hqe
  have t2 := abs_le.1 ht
  rw [abs_le]
  constructor <;> linarith [t1.1, t1.2, t2.1, t2.2]

/-- The exponential function on `[0, 1]`: eleven points of the rule of Simpson, five points of the rule of Gauss. -/
example : (∃ r, simpson Real.exp 0 1 11 = .ok r ∧ |r - (Real.exp 1 - 1)| ≤ Real.exp 1 / 1800000) ∧
    ∃ r, gaussLegendre Real.exp 0 1 5 = some r ∧ |r - (Real.exp 1 - 1)| ≤ 1 / 10 ^ 8 := by
  have hs : ∀ m, SmoothOn (fun _ => Real.exp) m 0 1 (Real.exp 1) := fun m =>
    ⟨fun k _ y _ => (Real.hasDerivAt_exp y).hasDerivWithinAt, fun y hy => by rw [abs_of_pos (Real.exp_pos y)]; exact Real.exp_le_exp.2 hy.2⟩
  have hI : ∫ x in (0 : ℝ)..1, Real.exp x = Real.exp 1 - 1 := by simp
  constructor
  · obtain ⟨r, h1, h2⟩ := C119_simpson (fun _ => Real.exp) 0 1 (Real.exp 1) (by norm_num) (hs 4) 11 (by norm_num) (by norm_num)
    refine ⟨r, h1, ?_⟩
    rw [hI] at h2
    refine h2.trans (le_of_eq ?_)
    norm_num
  · obtain ⟨r, h1, h2⟩ := C119_legendre (fun _ => Real.exp) 0 1 (Real.exp 1) (by norm_num) 5 rfl (hs 10)
    refine ⟨r, h1, ?_⟩
    rw [hI] at h2
    refine h2.trans ?_
    have he : Real.exp 1 < 3 := by have := Real.exp_one_lt_d9; linarith
    have hh : |Real.exp ((0 + 1) / 2)| < 3 := by
      rw [abs_of_pos (Real.exp_pos _)]
      exact (Real.exp_lt_exp.2 (by norm_num)).trans he
    unfold taylorSum
    simp only [Finset.sum_range_succ, Finset.sum_range_zero, Nat.factorial]
    generalize |Real.exp ((0 + 1) / 2)| = X at *
    norm_num
    linarith

end Props
