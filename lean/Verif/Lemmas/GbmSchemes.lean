import Verif.Props.MonteCarloLimit
import Verif.Lemmas.Heston
import Mathlib.MeasureTheory.Measure.CharacteristicFunction.Basic
import Mathlib.Analysis.SpecialFunctions.Log.Summable
import Mathlib.Analysis.SpecialFunctions.Exponential

/-! # Products of steps of discretisation schemes for geometric Brownian motion -/

namespace Lemmas
open Model Spec MeasureTheory ProbabilityTheory Filter Topology
open scoped BigOperators

/-! ## Moments of one step -/

theorem gauss_integrable_pow (n : ℕ) : Integrable (fun z : ℝ => z ^ n) (gaussianReal 0 1) := by
  rcases Nat.eq_zero_or_pos n with rfl | hn
  · simp
  · have h : MemLp (id : ℝ → ℝ) n (gaussianReal 0 1) := memLp_id_gaussianReal n
    have h2 := h.integrable_norm_pow (by omega)
    refine h2.mono' (by fun_prop) (Eventually.of_forall fun z => ?_)
    simp

theorem gauss_integrable_exp (b : ℝ) : Integrable (fun z : ℝ => Real.exp (b * z)) (gaussianReal 0 1) := integrable_exp_mul_gaussianReal b

theorem gauss_exp (b : ℝ) : ∫ z, Real.exp (b * z) ∂(gaussianReal 0 1) = Real.exp (b ^ 2 / 2) := by
  have h := mgf_gaussianReal (μ := 0) (v := 1) (p := gaussianReal 0 1) (X := id) (by simp) b
  unfold mgf at h
  simp only [id] at h
  rw [h]
  congr 1
  simp

/-- The exponential shifts the normal law. -/
theorem gauss_shift (g : ℝ → ℝ) (b : ℝ) : ∫ z, g z * Real.exp (b * z) ∂(gaussianReal 0 1) = Real.exp (b ^ 2 / 2) * ∫ z, g (z + b) ∂(gaussianReal 0 1) := by
  rw [integral_gaussianReal_eq_integral_smul (by norm_num), integral_gaussianReal_eq_integral_smul (by norm_num), ← integral_const_mul]
  have h := integral_add_right_eq_self (μ := volume) (fun z : ℝ => gaussianPDFReal 0 1 z • (g z * Real.exp (b * z))) b
  rw [← h]
  refine integral_congr_ae (Eventually.of_forall fun z => ?_)
  simp only [gaussianPDFReal, smul_eq_mul, NNReal.coe_one, mul_one, sub_zero]
  have e : Real.exp (-(z + b) ^ 2 / 2) * Real.exp (b * (z + b)) = Real.exp (b ^ 2 / 2) * Real.exp (-z ^ 2 / 2) := by
    rw [← Real.exp_add, ← Real.exp_add]
    congr 1
    ring
  linear_combination ((Real.sqrt (2 * Real.pi))⁻¹ * g (z + b)) * e

/-- One step: the growth of the Euler scheme (`θ = 0`) or of the Milstein scheme (`θ = 1`). -/
noncomputable def growth (θ a b z : ℝ) : ℝ := 1 + a + b * z + θ * (b ^ 2 / 2) * (z ^ 2 - 1)

/-- The growth of the process with the same normal number. -/
noncomputable def exactGrowth (a b z : ℝ) : ℝ := Real.exp (a - b ^ 2 / 2 + b * z)

theorem growth_sq (θ a b : ℝ) : Integrable (fun z => growth θ a b z ^ 2) (gaussianReal 0 1) ∧
    ∫ z, growth θ a b z ^ 2 ∂(gaussianReal 0 1) = (1 + a) ^ 2 + b ^ 2 + θ ^ 2 * (b ^ 4 / 2) := by
  set α := 1 + a - θ * (b ^ 2 / 2) with hα
  set γ := θ * (b ^ 2 / 2) with hγ
  have e : ∀ z, growth θ a b z ^ 2 = α ^ 2 + 2 * α * b * z + (b ^ 2 + 2 * α * γ) * z ^ 2 + 2 * b * γ * z ^ 3 + γ ^ 2 * z ^ 4 := by
    intro z
    simp only [growth, hα, hγ]
    ring
  have i1 := gauss_integrable_pow 1
  simp only [pow_one] at i1
  have i2 := gauss_integrable_pow 2
  have i3 := gauss_integrable_pow 3
  have i4 := gauss_integrable_pow 4
  have hq := normalExpectation_quadratic (α ^ 2) (2 * α * b) (b ^ 2 + 2 * α * γ)
  unfold normalExpectation at hq
  rw [show Real.toNNReal ((1 : ℝ) ^ 2) = 1 by simp] at hq
  have iq : Integrable (fun z : ℝ => α ^ 2 + 2 * α * b * z + (b ^ 2 + 2 * α * γ) * z ^ 2) (gaussianReal 0 1) :=
    ((integrable_const _).add (i1.const_mul _)).add (i2.const_mul _)
  have ic : Integrable (fun z : ℝ => α ^ 2 + 2 * α * b * z + (b ^ 2 + 2 * α * γ) * z ^ 2 + 2 * b * γ * z ^ 3) (gaussianReal 0 1) := iq.add (i3.const_mul _)
  simp_rw [e]
  refine ⟨ic.add (i4.const_mul _), ?_⟩
  rw [integral_add ic (i4.const_mul _), integral_add iq (i3.const_mul _), hq, integral_const_mul, integral_const_mul, normal_moments.1, normal_moments.2, hα, hγ]
  ring

theorem exactGrowth_sq (a b : ℝ) : Integrable (fun z => exactGrowth a b z ^ 2) (gaussianReal 0 1) ∧
    ∫ z, exactGrowth a b z ^ 2 ∂(gaussianReal 0 1) = Real.exp (2 * a + b ^ 2) := by
  have e : ∀ z, exactGrowth a b z ^ 2 = Real.exp (2 * a - b ^ 2) * Real.exp (2 * b * z) := by
    intro z
    rw [exactGrowth, ← Real.exp_nat_mul, ← Real.exp_add]
    congr 1
    push_cast
    ring
  simp_rw [e]
  refine ⟨(gauss_integrable_exp _).const_mul _, ?_⟩
  rw [integral_const_mul, gauss_exp, ← Real.exp_add]
  congr 1
  ring

theorem growth_measurable (θ a b : ℝ) : Measurable (growth θ a b) := by
  unfold growth
  fun_prop

theorem exactGrowth_measurable (a b : ℝ) : Measurable (exactGrowth a b) := by
  unfold exactGrowth
  fun_prop

theorem growth_exact (θ a b : ℝ) : Integrable (fun z => growth θ a b z * exactGrowth a b z) (gaussianReal 0 1) ∧
    ∫ z, growth θ a b z * exactGrowth a b z ∂(gaussianReal 0 1) = Real.exp a * (1 + a + b ^ 2 + θ * (b ^ 4 / 2)) := by
  constructor
  · have h := ((growth_sq θ a b).1.add (exactGrowth_sq a b).1)
    refine h.mono' ((growth_measurable θ a b).mul (exactGrowth_measurable a b)).aestronglyMeasurable (Eventually.of_forall fun z => ?_)
    rw [Real.norm_eq_abs, abs_le]
    simp only [Pi.add_apply]
    constructor <;> nlinarith [sq_nonneg (growth θ a b z + exactGrowth a b z), sq_nonneg (growth θ a b z - exactGrowth a b z), sq_nonneg (growth θ a b z), sq_nonneg (exactGrowth a b z)]
  · have e : ∀ z, growth θ a b z * exactGrowth a b z = Real.exp (a - b ^ 2 / 2) * (growth θ a b z * Real.exp (b * z)) := by
      intro z
      rw [exactGrowth, Real.exp_add]
      ring
    simp_rw [e]
    rw [integral_const_mul, gauss_shift]
    have e2 : ∀ z, growth θ a b (z + b) = (1 + a + b ^ 2 + θ * (b ^ 2 / 2) * (b ^ 2 - 1)) + (b + θ * b ^ 3) * z + (θ * (b ^ 2 / 2)) * z ^ 2 := by
      intro z
      simp only [growth]
      ring
    simp_rw [e2]
    have hq := normalExpectation_quadratic (1 + a + b ^ 2 + θ * (b ^ 2 / 2) * (b ^ 2 - 1)) (b + θ * b ^ 3) (θ * (b ^ 2 / 2))
    unfold normalExpectation at hq
    rw [show Real.toNNReal ((1 : ℝ) ^ 2) = 1 by simp] at hq
    rw [hq, ← mul_assoc, ← Real.exp_add, show a - b ^ 2 / 2 + b ^ 2 / 2 = a by ring]
    ring

theorem exp_neg_le_three (c : ℝ) (hc : |c| ≤ 1) : Real.exp (-c) ≤ 3 := by
  have h1 : Real.exp (-c) ≤ Real.exp 1 := Real.exp_le_exp.2 (by linarith [(abs_le.1 hc).1])
  linarith [Real.exp_one_lt_d9]

/-- The moments of one step are close to those of the process. -/
theorem growth_close (θ a b u : ℝ) (hθ : 0 ≤ θ) (hθ1 : θ ≤ 1) (ha : |a| ≤ u) (hb : b ^ 2 ≤ u) (hu : 3 * u ≤ 1) :
    |(1 + a) ^ 2 + b ^ 2 + θ ^ 2 * (b ^ 4 / 2) - Real.exp (2 * a + b ^ 2)| ≤ 32 * u ^ 2 * Real.exp (2 * a + b ^ 2) ∧
    |Real.exp a * (1 + a + b ^ 2 + θ * (b ^ 4 / 2)) - Real.exp (2 * a + b ^ 2)| ≤ 32 * u ^ 2 * Real.exp (2 * a + b ^ 2) := by
  have hu0 : 0 ≤ u := (abs_nonneg a).trans ha
  have hb0 := sq_nonneg b
  obtain ⟨ha1, ha2⟩ := abs_le.1 ha
  have hb4 : b ^ 4 ≤ u ^ 2 := by
    have := mul_le_mul hb hb hb0 hu0
    calc b ^ 4 = b ^ 2 * b ^ 2 := by ring
      _ ≤ u * u := this
      _ = u ^ 2 := by ring
  have hb40 : 0 ≤ b ^ 4 := by positivity
  have hasq : a ^ 2 ≤ u ^ 2 := sq_le_sq' (by linarith) ha2
  have hθ2 : θ ^ 2 ≤ 1 := by nlinarith
  have hk1 : 0 ≤ θ ^ 2 * (b ^ 4 / 2) ∧ θ ^ 2 * (b ^ 4 / 2) ≤ u ^ 2 / 2 := ⟨by positivity, by nlinarith [sq_nonneg θ]⟩
  have hk2 : 0 ≤ θ * (b ^ 4 / 2) ∧ θ * (b ^ 4 / 2) ≤ u ^ 2 / 2 := ⟨by positivity, by nlinarith⟩
  constructor
  · have hc : |2 * a + b ^ 2| ≤ 3 * u := abs_le.2 ⟨by linarith, by linarith⟩
    have h1 := Real.abs_exp_sub_one_sub_id_le (hc.trans hu)
    have hcsq : (2 * a + b ^ 2) ^ 2 ≤ 9 * u ^ 2 := by
      have := sq_le_sq' (abs_le.1 hc).1 (abs_le.1 hc).2
      nlinarith
    have h3 := exp_neg_le_three _ (hc.trans hu)
    have hone : Real.exp (-(2 * a + b ^ 2)) * Real.exp (2 * a + b ^ 2) = 1 := by rw [← Real.exp_add]; simp
    have hE := Real.exp_pos (2 * a + b ^ 2)
    have h4 : 1 ≤ 3 * Real.exp (2 * a + b ^ 2) := by
      rw [← hone]
      exact mul_le_mul_of_nonneg_right h3 hE.le
    have h5 : |(1 + a) ^ 2 + b ^ 2 + θ ^ 2 * (b ^ 4 / 2) - Real.exp (2 * a + b ^ 2)| ≤ 21 / 2 * u ^ 2 := by
      obtain ⟨h6, h7⟩ := abs_le.1 h1
      exact abs_le.2 ⟨by nlinarith [hk1.1], by nlinarith [hk1.2]⟩
    have hu2 := sq_nonneg u
    nlinarith [mul_le_mul_of_nonneg_left h4 hu2]
  · have hv : |a + b ^ 2| ≤ 2 * u := abs_le.2 ⟨by linarith, by linarith⟩
    have h1 := Real.abs_exp_sub_one_sub_id_le (hv.trans (by linarith))
    have hvsq : (a + b ^ 2) ^ 2 ≤ 4 * u ^ 2 := by
      have := sq_le_sq' (abs_le.1 hv).1 (abs_le.1 hv).2
      nlinarith
    have h3 := exp_neg_le_three _ (hv.trans (by linarith))
    have e : Real.exp (2 * a + b ^ 2) = Real.exp a * Real.exp (a + b ^ 2) := by rw [← Real.exp_add]; congr 1; ring
    have hone : Real.exp (-(a + b ^ 2)) * Real.exp (a + b ^ 2) = 1 := by rw [← Real.exp_add]; simp
    have hE := Real.exp_pos (a + b ^ 2)
    have hA := Real.exp_pos a
    have h4 : 1 ≤ 3 * Real.exp (a + b ^ 2) := by
      rw [← hone]
      exact mul_le_mul_of_nonneg_right h3 hE.le
    have h5 : |(1 + a + b ^ 2 + θ * (b ^ 4 / 2)) - Real.exp (a + b ^ 2)| ≤ 9 / 2 * u ^ 2 := by
      obtain ⟨h6, h7⟩ := abs_le.1 h1
      exact abs_le.2 ⟨by nlinarith [hk2.1], by nlinarith [hk2.2]⟩
    have hu2 := sq_nonneg u
    have h6 : |(1 + a + b ^ 2 + θ * (b ^ 4 / 2)) - Real.exp (a + b ^ 2)| ≤ 32 * u ^ 2 * Real.exp (a + b ^ 2) := by
      nlinarith [mul_le_mul_of_nonneg_left h4 hu2]
    rw [e, ← mul_sub, abs_mul, abs_of_pos hA]
    calc Real.exp a * |(1 + a + b ^ 2 + θ * (b ^ 4 / 2)) - Real.exp (a + b ^ 2)| ≤ Real.exp a * (32 * u ^ 2 * Real.exp (a + b ^ 2)) := mul_le_mul_of_nonneg_left h6 hA.le
      _ = _ := by ring

/-! ## Products -/

/-- Products of factors close to exponentials. -/
theorem prod_close {n : ℕ} (p c ε : Fin n → ℝ) (h : ∀ k, |p k - Real.exp (c k)| ≤ ε k * Real.exp (c k)) :
    |∏ k, p k - Real.exp (∑ k, c k)| ≤ Real.exp (∑ k, c k) * (Real.exp (∑ k, ε k) - 1) := by
  have hf : ∀ k, p k = Real.exp (c k) * (1 + (p k / Real.exp (c k) - 1)) := by
    intro k
    have := (Real.exp_pos (c k)).ne'
    field_simp
    ring
  have hε : ∀ k, |p k / Real.exp (c k) - 1| ≤ ε k := by
    intro k
    have hp := Real.exp_pos (c k)
    rw [div_sub_one hp.ne', abs_div, abs_of_pos hp, div_le_iff₀ hp]
    exact h k
  have h1 : ∏ k, p k = Real.exp (∑ k, c k) * ∏ k, (1 + (p k / Real.exp (c k) - 1)) := by
    rw [Real.exp_sum, ← Finset.prod_mul_distrib]
    exact Finset.prod_congr rfl fun k _ => hf k
  have h2 := Finset.norm_prod_one_add_sub_one_le Finset.univ (fun k => p k / Real.exp (c k) - 1)
  simp only [Real.norm_eq_abs] at h2
  have h3 : Real.exp (∑ k, |p k / Real.exp (c k) - 1|) ≤ Real.exp (∑ k, ε k) := Real.exp_le_exp.2 (Finset.sum_le_sum fun k _ => hε k)
  rw [h1, ← mul_sub_one, abs_mul, abs_of_pos (Real.exp_pos _)]
  exact mul_le_mul_of_nonneg_left (by linarith) (Real.exp_pos _).le

section
variable {E : Type} [MeasurableSpace E] (μ : Measure E) [IsProbabilityMeasure μ]

/-- The mean square distance of two products of independent factors. -/
theorem prod_distance {n : ℕ} (m e : Fin n → E → ℝ) (hmm : ∀ k, Measurable (m k)) (hem : ∀ k, Measurable (e k))
    (h1 : ∀ k, Integrable (fun z => m k z ^ 2) μ) (h2 : ∀ k, Integrable (fun z => e k z ^ 2) μ) (h3 : ∀ k, Integrable (fun z => m k z * e k z) μ) :
    MemLp (fun z : Fin n → E => ∏ k, m k (z k)) 2 (Measure.pi fun _ => μ) ∧ MemLp (fun z : Fin n → E => ∏ k, e k (z k)) 2 (Measure.pi fun _ => μ) ∧
    ∫ z : Fin n → E, (∏ k, m k (z k) - ∏ k, e k (z k)) ^ 2 ∂(Measure.pi fun _ => μ) =
      ∏ k, ∫ z, m k z ^ 2 ∂μ - 2 * ∏ k, ∫ z, m k z * e k z ∂μ + ∏ k, ∫ z, e k z ^ 2 ∂μ := by
  have i1 : Integrable (fun z : Fin n → E => ∏ k, m k (z k) ^ 2) (Measure.pi fun _ => μ) := Integrable.fintype_prod (f := fun k z => m k z ^ 2) h1
  have i2 : Integrable (fun z : Fin n → E => ∏ k, e k (z k) ^ 2) (Measure.pi fun _ => μ) := Integrable.fintype_prod (f := fun k z => e k z ^ 2) h2
  have i3 : Integrable (fun z : Fin n → E => ∏ k, (m k (z k) * e k (z k))) (Measure.pi fun _ => μ) := Integrable.fintype_prod (f := fun k z => m k z * e k z) h3
  have mm : Measurable (fun z : Fin n → E => ∏ k, m k (z k)) := Finset.measurable_prod _ fun k _ => (hmm k).comp (measurable_pi_apply k)
  have me : Measurable (fun z : Fin n → E => ∏ k, e k (z k)) := Finset.measurable_prod _ fun k _ => (hem k).comp (measurable_pi_apply k)
  refine ⟨(memLp_two_iff_integrable_sq mm.aestronglyMeasurable).2 (by simpa only [Finset.prod_pow] using i1),
    (memLp_two_iff_integrable_sq me.aestronglyMeasurable).2 (by simpa only [Finset.prod_pow] using i2), ?_⟩
  have ex : ∀ z : Fin n → E, (∏ k, m k (z k) - ∏ k, e k (z k)) ^ 2 = ∏ k, m k (z k) ^ 2 - 2 * ∏ k, (m k (z k) * e k (z k)) + ∏ k, e k (z k) ^ 2 := by
    intro z
    rw [Finset.prod_pow, Finset.prod_pow, Finset.prod_mul_distrib]
    ring
  simp_rw [ex]
  have i4 : Integrable (fun z : Fin n → E => ∏ k, m k (z k) ^ 2 - 2 * ∏ k, (m k (z k) * e k (z k))) (Measure.pi fun _ => μ) := i1.sub (i3.const_mul 2)
  rw [integral_add i4 i2, integral_sub i1 (i3.const_mul 2), integral_const_mul,
    integral_fintype_prod_eq_prod (μ := fun _ : Fin n => μ) (f := fun k z => m k z ^ 2),
    integral_fintype_prod_eq_prod (μ := fun _ : Fin n => μ) (f := fun k z => m k z * e k z),
    integral_fintype_prod_eq_prod (μ := fun _ : Fin n => μ) (f := fun k z => e k z ^ 2)]

/-- The mean square distance of the scheme and the process, driven by the same normal numbers. -/
theorem scheme_distance (ξ : E → ℝ) (hξ : Measurable ξ) (hlaw : μ.map ξ = gaussianReal 0 1) {n : ℕ} (θ : ℝ) (hθ : 0 ≤ θ) (hθ1 : θ ≤ 1) (a b u : Fin n → ℝ)
    (ha : ∀ k, |a k| ≤ u k) (hb : ∀ k, b k ^ 2 ≤ u k) (hu : ∀ k, 3 * u k ≤ 1) :
    MemLp (fun z : Fin n → E => ∏ k, growth θ (a k) (b k) (ξ (z k))) 2 (Measure.pi fun _ => μ) ∧
    MemLp (fun z : Fin n → E => ∏ k, exactGrowth (a k) (b k) (ξ (z k))) 2 (Measure.pi fun _ => μ) ∧
    ∫ z : Fin n → E, (∏ k, growth θ (a k) (b k) (ξ (z k)) - ∏ k, exactGrowth (a k) (b k) (ξ (z k))) ^ 2 ∂(Measure.pi fun _ => μ) ≤
      3 * Real.exp (∑ k, (2 * a k + b k ^ 2)) * (Real.exp (∑ k, 32 * u k ^ 2) - 1) := by
  have tr : ∀ g : ℝ → ℝ, Measurable g → (Integrable g (gaussianReal 0 1) → Integrable (fun z => g (ξ z)) μ) ∧ ∫ z, g (ξ z) ∂μ = ∫ x, g x ∂(gaussianReal 0 1) := by
    intro g hg
    rw [← hlaw, integral_map hξ.aemeasurable hg.aestronglyMeasurable]
    exact ⟨fun h => h.comp_measurable hξ, rfl⟩
  have mg := fun k => growth_measurable θ (a k) (b k)
  have mx := fun k => exactGrowth_measurable (a k) (b k)
  obtain ⟨r1, r2, r3⟩ := prod_distance μ (fun k z => growth θ (a k) (b k) (ξ z)) (fun k z => exactGrowth (a k) (b k) (ξ z))
    (fun k => (mg k).comp hξ) (fun k => (mx k).comp hξ)
    (fun k => (tr _ ((mg k).pow_const 2)).1 (growth_sq θ (a k) (b k)).1) (fun k => (tr _ ((mx k).pow_const 2)).1 (exactGrowth_sq (a k) (b k)).1)
    (fun k => (tr _ ((mg k).mul (mx k))).1 (growth_exact θ (a k) (b k)).1)
  refine ⟨r1, r2, ?_⟩
  rw [r3]
  have t1 : ∀ k, ∫ z, growth θ (a k) (b k) (ξ z) ^ 2 ∂μ = (1 + a k) ^ 2 + b k ^ 2 + θ ^ 2 * (b k ^ 4 / 2) := fun k =>
    ((tr _ ((mg k).pow_const 2)).2).trans (growth_sq θ (a k) (b k)).2
  have t2 : ∀ k, ∫ z, exactGrowth (a k) (b k) (ξ z) ^ 2 ∂μ = Real.exp (2 * a k + b k ^ 2) := fun k =>
    ((tr _ ((mx k).pow_const 2)).2).trans (exactGrowth_sq (a k) (b k)).2
  have t3 : ∀ k, ∫ z, growth θ (a k) (b k) (ξ z) * exactGrowth (a k) (b k) (ξ z) ∂μ = Real.exp (a k) * (1 + a k + b k ^ 2 + θ * (b k ^ 4 / 2)) := fun k =>
    ((tr _ ((mg k).mul (mx k))).2).trans (growth_exact θ (a k) (b k)).2
  simp_rw [t1, t2, t3]
  have c1 := prod_close (fun k => (1 + a k) ^ 2 + b k ^ 2 + θ ^ 2 * (b k ^ 4 / 2)) (fun k => 2 * a k + b k ^ 2) (fun k => 32 * u k ^ 2)
    (fun k => (growth_close θ (a k) (b k) (u k) hθ hθ1 (ha k) (hb k) (hu k)).1)
  have c2 := prod_close (fun k => Real.exp (a k) * (1 + a k + b k ^ 2 + θ * (b k ^ 4 / 2))) (fun k => 2 * a k + b k ^ 2) (fun k => 32 * u k ^ 2)
    (fun k => (growth_close θ (a k) (b k) (u k) hθ hθ1 (ha k) (hb k) (hu k)).2)
  rw [← Real.exp_sum]
  linarith [(abs_le.1 c1).2, (abs_le.1 c2).1]

end

/-- The mean of an absolute value is at most the root of the mean square. -/
theorem mean_abs_le {Ω : Type} [MeasurableSpace Ω] (P : Measure Ω) [IsProbabilityMeasure P] (Y : Ω → ℝ) (hY : MemLp Y 2 P) : ∫ ω, |Y ω| ∂P ≤ Real.sqrt (∫ ω, Y ω ^ 2 ∂P) := by
  have h := variance_nonneg (fun ω => |Y ω|) P
  have hA : MemLp (fun ω => |Y ω|) 2 P := hY.abs
  rw [variance_eq_sub hA] at h
  refine Real.le_sqrt_of_sq_le ?_
  have e : ∀ ω, ((fun ω => |Y ω|) ^ 2) ω = Y ω ^ 2 := fun ω => by simp [sq_abs]
  simp_rw [e] at h
  linarith

/-- A linear combination of vectors of normal numbers. -/
theorem pi_combination_law {n d : ℕ} (s : Fin n → ℝ) :
    (Measure.pi fun _ : Fin n => Measure.pi fun _ : Fin d => gaussianReal 0 1).map (fun z k => ∑ j, s j * z j k) =
      (Measure.pi fun _ : Fin d => gaussianReal 0 1).map (fun z k => Real.sqrt (∑ j, s j ^ 2) * z k) := by
  have m1 : Measurable (fun (z : Fin n → Fin d → ℝ) (k : Fin d) => ∑ j, s j * z j k) := by fun_prop
  have m2 : Measurable (fun (z : Fin d → ℝ) (k : Fin d) => Real.sqrt (∑ j, s j ^ 2) * z k) := by fun_prop
  have p1 := Measure.isProbabilityMeasure_map (μ := Measure.pi fun _ : Fin n => Measure.pi fun _ : Fin d => gaussianReal 0 1) m1.aemeasurable
  have p2 := Measure.isProbabilityMeasure_map (μ := Measure.pi fun _ : Fin d => gaussianReal 0 1) m2.aemeasurable
  refine Measure.ext_of_charFunDual ?_
  ext L
  have hL : ∀ v : Fin d → ℝ, L v = ∑ k, L (Pi.single k 1) * v k := by
    intro v
    conv_lhs => rw [← Finset.univ_sum_single v, map_sum]
    refine Finset.sum_congr rfl fun k _ => ?_
    have : (Pi.single k (v k) : Fin d → ℝ) = v k • Pi.single k 1 := by
      rw [← Pi.single_smul]; simp
    rw [this, map_smul, smul_eq_mul, mul_comm]
  rw [charFunDual_apply, charFunDual_apply, integral_map m1.aemeasurable (by fun_prop), integral_map m2.aemeasurable (by fun_prop)]
  have hg : ∀ t : ℝ, ∫ x : ℝ, Complex.exp ((t : ℝ) * (x : ℝ) * Complex.I) ∂(gaussianReal 0 1) = Complex.exp (-(t ^ 2 / 2 : ℝ)) := by
    intro t
    rw [← charFun_apply_real, charFun_gaussianReal]
    congr 1
    push_cast
    simp
  have e1 : ∀ z : Fin n → Fin d → ℝ, Complex.exp ((L (fun k => ∑ j, s j * z j k) : ℝ) * Complex.I) =
      ∏ j, ∏ k, Complex.exp ((L (Pi.single k 1) * s j : ℝ) * (z j k : ℝ) * Complex.I) := by
    intro z
    simp_rw [← Complex.exp_sum]
    congr 1
    rw [hL]
    push_cast
    simp_rw [Finset.mul_sum, Finset.sum_mul]
    rw [Finset.sum_comm]
    exact Finset.sum_congr rfl fun j _ => Finset.sum_congr rfl fun k _ => by ring
  have e2 : ∀ z : Fin d → ℝ, Complex.exp ((L (fun k => Real.sqrt (∑ j, s j ^ 2) * z k) : ℝ) * Complex.I) =
      ∏ k, Complex.exp ((L (Pi.single k 1) * Real.sqrt (∑ j, s j ^ 2) : ℝ) * (z k : ℝ) * Complex.I) := by
    intro z
    rw [← Complex.exp_sum, hL]
    congr 1
    push_cast
    rw [Finset.sum_mul]
    exact Finset.sum_congr rfl fun k _ => by ring
  simp_rw [e1, e2]
  rw [integral_fintype_prod_eq_prod (μ := fun _ : Fin n => Measure.pi fun _ : Fin d => gaussianReal 0 1)
    (f := fun j (v : Fin d → ℝ) => ∏ k, Complex.exp ((L (Pi.single k 1) * s j : ℝ) * (v k : ℝ) * Complex.I))]
  rw [integral_fintype_prod_eq_prod (μ := fun _ : Fin d => gaussianReal 0 1)
    (f := fun k (x : ℝ) => Complex.exp ((L (Pi.single k 1) * Real.sqrt (∑ j, s j ^ 2) : ℝ) * (x : ℝ) * Complex.I))]
  have e3 : ∀ j : Fin n, ∫ v : Fin d → ℝ, ∏ k, Complex.exp ((L (Pi.single k 1) * s j : ℝ) * (v k : ℝ) * Complex.I) ∂(Measure.pi fun _ : Fin d => gaussianReal 0 1) =
      ∏ k, Complex.exp (-((L (Pi.single k 1) * s j) ^ 2 / 2 : ℝ)) := by
    intro j
    rw [integral_fintype_prod_eq_prod (μ := fun _ : Fin d => gaussianReal 0 1) (f := fun k (x : ℝ) => Complex.exp ((L (Pi.single k 1) * s j : ℝ) * (x : ℝ) * Complex.I))]
    exact Finset.prod_congr rfl fun k _ => hg _
  simp_rw [e3, hg, ← Complex.exp_sum]
  congr 1
  rw [Finset.sum_comm]
  refine Finset.sum_congr rfl fun k _ => ?_
  rw [mul_pow, Real.sq_sqrt (Finset.sum_nonneg fun j _ => sq_nonneg _)]
  push_cast
  rw [Finset.mul_sum, Finset.sum_div, ← Finset.sum_neg_distrib]
  exact Finset.sum_congr rfl fun j _ => by ring

end Lemmas
