import Mathlib.Analysis.Convex.Function
import Mathlib.Analysis.SpecialFunctions.Pow.Real
import Mathlib.Topology.Algebra.Order.Field
import Verif.Model.Svi

/-!
# Property theorems C73: the smile of raw SVI parameters
-/

namespace Props
open Model

/-- The total variance as a function of the log-moneyness. -/
noncomputable def sviSmile (p : SviParameters) (k : ℝ) : ℝ :=
  p.a + p.b * (p.rho * (k - p.m) + Real.sqrt ((k - p.m) ^ 2 + p.sigma ^ 2))

/-- C73: exactly one way to give the moneyness is accepted, and both ways agree. -/
theorem C73_moneyness (p : SviParameters) (k f x : Option ℝ) :
    (∀ k', k = some k' → f = none → x = none → sviTotalVariance p k f x = .ok (sviSmile p k')) ∧
    (∀ f' x', k = none → f = some f' → x = some x' → sviTotalVariance p k f x = .ok (sviSmile p (Real.log (x' / f')))) ∧
    (¬ (k.isSome ∧ f = none ∧ x = none) → ¬ (k = none ∧ f.isSome ∧ x.isSome) → ∃ e, sviTotalVariance p k f x = .error e) := by
  refine ⟨?_, ?_, ?_⟩
  · rintro k' rfl rfl rfl; rfl
  · rintro f' x' rfl rfl rfl; rfl
  · intro h1 h2
    cases k <;> cases f <;> cases x <;>
      first
        | exact ⟨_, rfl⟩
        | (exfalso; apply h1; simp; done)
        | (exfalso; apply h2; simp; done)

/-- C73: the variance depends on the forward and the strike only through their ratio. -/
theorem C73_scale (p : SviParameters) (c f x : ℝ) (hc : c ≠ 0) :
    sviTotalVariance p none (some (c * f)) (some (c * x)) = sviTotalVariance p none (some f) (some x) := by
  rw [(C73_moneyness p none _ _).2.1 _ _ rfl rfl rfl, (C73_moneyness p none _ _).2.1 _ _ rfl rfl rfl,
    mul_div_mul_left _ _ hc]

/-- C73: the least total variance is `a + b σ √(1 - ρ²)`, at `m - ρ σ / √(1 - ρ²)`. -/
theorem C73_minimum (p : SviParameters) (hb : 0 ≤ p.b) (hs : 0 ≤ p.sigma) (hr : p.rho ^ 2 < 1) :
    (∀ k, p.a + p.b * p.sigma * Real.sqrt (1 - p.rho ^ 2) ≤ sviSmile p k) ∧
      sviSmile p (p.m - p.rho * p.sigma / Real.sqrt (1 - p.rho ^ 2)) = p.a + p.b * p.sigma * Real.sqrt (1 - p.rho ^ 2) := by
  have hq : 0 < 1 - p.rho ^ 2 := by linarith
  have hq0 : 0 < Real.sqrt (1 - p.rho ^ 2) := Real.sqrt_pos.2 hq
  have hq2 : Real.sqrt (1 - p.rho ^ 2) ^ 2 = 1 - p.rho ^ 2 := Real.sq_sqrt hq.le
  generalize Real.sqrt (1 - p.rho ^ 2) = q at hq0 hq2
  constructor
  · intro k
    unfold sviSmile
    have key : p.sigma * q - p.rho * (k - p.m) ≤ Real.sqrt ((k - p.m) ^ 2 + p.sigma ^ 2) := by
      apply Real.le_sqrt_of_sq_le
      nlinarith [sq_nonneg (p.sigma * p.rho + (k - p.m) * q)]
    nlinarith
  · unfold sviSmile
    have e : Real.sqrt ((p.m - p.rho * p.sigma / q - p.m) ^ 2 + p.sigma ^ 2) = p.sigma / q := by
      rw [show (p.m - p.rho * p.sigma / q - p.m) ^ 2 + p.sigma ^ 2 = (p.sigma / q) ^ 2 by
        field_simp
        rw [hq2]
        ring]
      exact Real.sqrt_sq (div_nonneg hs hq0.le)
    rw [e]
    have : p.rho * (p.m - p.rho * p.sigma / q - p.m) + p.sigma / q = p.sigma * q := by
      field_simp
      rw [hq2]
      ring
    rw [this]
    ring

/-- C73: the smile is convex. -/
theorem C73_convex (p : SviParameters) (hb : 0 ≤ p.b) : ConvexOn ℝ Set.univ (sviSmile p) := by
  refine ⟨convex_univ, ?_⟩
  intro x _ y _ u w hu hw huw
  unfold sviSmile
  simp only [smul_eq_mul]
  have key : Real.sqrt ((u * x + w * y - p.m) ^ 2 + p.sigma ^ 2) ≤
      u * Real.sqrt ((x - p.m) ^ 2 + p.sigma ^ 2) + w * Real.sqrt ((y - p.m) ^ 2 + p.sigma ^ 2) := by
    have hA := Real.sqrt_nonneg ((x - p.m) ^ 2 + p.sigma ^ 2)
    have hB := Real.sqrt_nonneg ((y - p.m) ^ 2 + p.sigma ^ 2)
    have hA2 := Real.sq_sqrt (show 0 ≤ (x - p.m) ^ 2 + p.sigma ^ 2 by positivity)
    have hB2 := Real.sq_sqrt (show 0 ≤ (y - p.m) ^ 2 + p.sigma ^ 2 by positivity)
    have hAB : (x - p.m) * (y - p.m) + p.sigma ^ 2 ≤
        Real.sqrt ((x - p.m) ^ 2 + p.sigma ^ 2) * Real.sqrt ((y - p.m) ^ 2 + p.sigma ^ 2) := by
      rw [← Real.sqrt_mul (by positivity)]
      apply Real.le_sqrt_of_sq_le
      nlinarith [sq_nonneg ((x - p.m) * p.sigma - (y - p.m) * p.sigma)]
    generalize Real.sqrt ((x - p.m) ^ 2 + p.sigma ^ 2) = A at *
    generalize Real.sqrt ((y - p.m) ^ 2 + p.sigma ^ 2) = B at *
    apply Real.sqrt_le_iff.2
    refine ⟨by positivity, ?_⟩
    have hw' : w = 1 - u := by linarith
    have e : u * x + w * y - p.m = u * (x - p.m) + w * (y - p.m) := by rw [hw']; ring
    have e2 : p.sigma ^ 2 = (u + w) ^ 2 * p.sigma ^ 2 := by rw [huw]; ring
    have huw' := mul_nonneg hu hw
    rw [e, e2]
    have : (u * A + w * B) ^ 2 = u ^ 2 * A ^ 2 + w ^ 2 * B ^ 2 + 2 * (u * w) * (A * B) := by ring
    rw [this, hA2, hB2]
    nlinarith [mul_le_mul_of_nonneg_left hAB huw']
  have hw' : w = 1 - u := by linarith
  have h2 := mul_le_mul_of_nonneg_left key hb
  have e3 : p.a + p.b * (p.rho * (u * x + w * y - p.m) + Real.sqrt ((u * x + w * y - p.m) ^ 2 + p.sigma ^ 2)) =
      p.a + p.b * (p.rho * (u * x + w * y - p.m)) + p.b * Real.sqrt ((u * x + w * y - p.m) ^ 2 + p.sigma ^ 2) := by ring
  rw [e3]
  have e4 : u * (p.a + p.b * (p.rho * (x - p.m) + Real.sqrt ((x - p.m) ^ 2 + p.sigma ^ 2))) +
      w * (p.a + p.b * (p.rho * (y - p.m) + Real.sqrt ((y - p.m) ^ 2 + p.sigma ^ 2))) =
      p.a + p.b * (p.rho * (u * x + w * y - p.m)) +
        p.b * (u * Real.sqrt ((x - p.m) ^ 2 + p.sigma ^ 2) + w * Real.sqrt ((y - p.m) ^ 2 + p.sigma ^ 2)) := by
    rw [hw']; ring
  rw [e4]
  linarith

/-- The distance of the square root from its asymptote. -/
theorem sqrt_asymptote (u s : ℝ) (hu : 0 < u) : 0 ≤ Real.sqrt (u ^ 2 + s ^ 2) - u ∧ Real.sqrt (u ^ 2 + s ^ 2) - u ≤ s ^ 2 / u := by
  constructor
  · have : u ≤ Real.sqrt (u ^ 2 + s ^ 2) := Real.le_sqrt_of_sq_le (by nlinarith [sq_nonneg s])
    linarith
  · have : Real.sqrt (u ^ 2 + s ^ 2) ≤ u + s ^ 2 / u := by
      apply Real.sqrt_le_iff.2
      refine ⟨by positivity, ?_⟩
      have h1 : u * (s ^ 2 / u) = s ^ 2 := by field_simp
      nlinarith [sq_nonneg (s ^ 2 / u), sq_nonneg s]
    linarith

open Filter Topology in
/-- C73: the asymptotes of the smile have the slopes `b (ρ + 1)` on the right and `b (ρ - 1)` on the left. -/
theorem C73_asymptotes (p : SviParameters) :
    Tendsto (fun k => sviSmile p k - (p.a + p.b * (p.rho + 1) * (k - p.m))) atTop (𝓝 0) ∧
      Tendsto (fun k => sviSmile p k - (p.a + p.b * (p.rho - 1) * (k - p.m))) atBot (𝓝 0) := by
  have h : Tendsto (fun u => Real.sqrt (u ^ 2 + p.sigma ^ 2) - u) atTop (𝓝 0) := by
    have h2 : Tendsto (fun u : ℝ => p.sigma ^ 2 / u) atTop (𝓝 0) := tendsto_const_nhds.div_atTop tendsto_id
    refine tendsto_of_tendsto_of_tendsto_of_le_of_le' tendsto_const_nhds h2 ?_ ?_
    · filter_upwards [eventually_gt_atTop 0] with u hu using (sqrt_asymptote u p.sigma hu).1
    · filter_upwards [eventually_gt_atTop 0] with u hu using (sqrt_asymptote u p.sigma hu).2
  constructor
  · have h2 := (h.comp (tendsto_atTop_add_const_right atTop (-p.m) tendsto_id)).const_mul p.b
    rw [mul_zero] at h2
    refine h2.congr (fun k => ?_)
    simp only [Function.comp_apply, id, sviSmile, ← sub_eq_add_neg]
    ring
  · have h2 := (h.comp (tendsto_atTop_add_const_right atBot p.m tendsto_neg_atBot_atTop)).const_mul p.b
    rw [mul_zero] at h2
    refine h2.congr (fun k => ?_)
    simp only [Function.comp_apply, sviSmile]
    rw [show (-k + p.m) ^ 2 = (k - p.m) ^ 2 by ring]
    ring

/-- C73: the implied volatility has the total variance of the smile, wherever that is not negative; by `C73_minimum` this is
everywhere if `a + b σ √(1 - ρ²)` is not negative. -/
theorem C73_implied_volatility (p : SviParameters) (k f x : Option ℝ) (t w : ℝ) (ht : 0 < t)
    (hw : sviTotalVariance p k f x = .ok w) (h0 : 0 ≤ w) :
    ∃ v, sviImpliedVolatility p k f x t = .ok v ∧ 0 ≤ v ∧ v ^ 2 * t = w := by
  refine ⟨Real.sqrt (w / t), ?_, Real.sqrt_nonneg _, ?_⟩
  · unfold sviImpliedVolatility
    rw [hw]
    rfl
  · rw [Real.sq_sqrt (div_nonneg h0 ht.le)]
    field_simp

/-- A smile: at the money, and three and four away. -/
example : sviTotalVariance ⟨1 / 100, 1 / 10, 0, 0, 4⟩ (some 3) none none = .ok (51 / 100) := by
  rw [(C73_moneyness _ _ _ _).1 3 rfl rfl rfl, sviSmile]
  have : Real.sqrt (((3 : ℝ) - 0) ^ 2 + 4 ^ 2) = 5 := by
    rw [show ((3 : ℝ) - 0) ^ 2 + 4 ^ 2 = 5 ^ 2 by norm_num]
    exact Real.sqrt_sq (by norm_num)
  rw [this]
  norm_num

example : sviSmile ⟨-(1 / 10), 1 / 10, 3 / 5, 1, 2⟩ (1 - 3 / 2) = -(1 / 10) + 16 / 100 := by
  have h := (C73_minimum ⟨-(1 / 10), 1 / 10, 3 / 5, 1, 2⟩ (by norm_num) (by norm_num) (by norm_num)).2
  have : Real.sqrt (1 - (3 / 5) ^ 2) = 4 / 5 := by
    rw [show (1 - (3 / 5) ^ 2 : ℝ) = (4 / 5) ^ 2 by norm_num]
    exact Real.sqrt_sq (by norm_num)
  simp only [this] at h
  rw [show (1 - 3 / 2 : ℝ) = 1 - 3 / 5 * 2 / (4 / 5) by norm_num, h]
  norm_num

example (p : SviParameters) : ∃ e, sviTotalVariance p (some 0) (some 1) (some 1) = .error e :=
  (C73_moneyness p _ _ _).2.2 (by simp) (by simp)

end Props
