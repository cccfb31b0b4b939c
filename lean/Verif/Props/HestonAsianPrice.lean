import Verif.Props.HestonAsian
import Verif.Lemmas.Dirichlet

/-! C102, continued: the inversion of the transform and the price. -/

namespace Props

open Model Complex

namespace HestonAsian

open MeasureTheory Filter Topology Set

variable (h : Model.HestonAsian)

theorem root_zero (hk : 0 < h.params.meanReversion) : h.root 0 = h.params.meanReversion := root_pos h 0 _ hk (by simp)

theorem z_zero (q : Nat) : h.z 0 0 q = 0 := by simp [Model.HestonAsian.z]

theorem f_null (hk : 0 < h.params.meanReversion) (t : ℝ) : h.f 0 0 t = ((Real.exp (1 / 2 * t * h.params.meanReversion) : ℝ) : ℂ) ∧
    h.fTilde 0 0 t = 1 / 2 * h.params.meanReversion * ((Real.exp (1 / 2 * t * h.params.meanReversion) : ℝ) : ℂ) := by
  have hk' : (h.params.meanReversion : ℂ) ≠ 0 := by exact_mod_cast hk.ne'
  unfold Model.HestonAsian.f Model.HestonAsian.fTilde
  rw [root_zero h hk]
  push_cast
  rw [← Complex.cosh_add_sinh]
  constructor
  · field_simp
    ring
  · ring

theorem omegaTilde_null (hk : 0 < h.params.meanReversion) (hs : h.params.volvol ≠ 0) (q : Nat) (hq : q ≤ h.times.length + 1) : h.omegaTilde 0 0 q = 0 := by
  obtain ⟨j, hj⟩ : ∃ j, j = h.times.length + 1 - q := ⟨_, rfl⟩
  induction j generalizing q with
  | zero =>
    have : q = h.times.length + 1 := by omega
    rw [this, omegaTilde_last]
    simp
  | succ j ih =>
    rw [omegaTilde_step h 0 0 q (by omega), ih (q + 1) (by omega) (by omega), z_zero]
    unfold coef
    rw [(f_null h hk _).1, (f_null h hk _).2]
    have hs' : (h.params.volvol : ℂ) ≠ 0 := by exact_mod_cast hs
    have he : ((Real.exp (1 / 2 * h.dTau q * h.params.meanReversion) : ℝ) : ℂ) ≠ 0 := by exact_mod_cast (Real.exp_pos _).ne'
    have ho : h.omega 0 0 q = 0 := by
      unfold Model.HestonAsian.omega
      split_ifs <;> simp
    rw [ho]
    field_simp
    ring

end HestonAsian

/-- At zero the transform is one: it is the transform of a probability. -/
theorem C102_at_zero (h : Model.HestonAsian) (hk : 0 < h.params.meanReversion) (hs : h.params.volvol ≠ 0) : h.phi 0 0 = 1 := by
  have hs' : (h.params.volvol : ℂ) ≠ 0 := by exact_mod_cast hs
  unfold Model.HestonAsian.phi
  dsimp only
  rw [HestonAsian.omegaTilde_null h hk hs 0 (Nat.zero_le _), HestonAsian.list_sum_range]
  have e : ∑ q ∈ Finset.range (h.times.length + 1), log (h.f (h.z 0 0 q) (h.omegaTilde 0 0 (q + 1)) (h.dTau q)) =
      ∑ q ∈ Finset.range (h.times.length + 1), ((1 / 2 * h.params.meanReversion * (h.tau (q + 1) - h.tau q) : ℝ) : ℂ) := by
    refine Finset.sum_congr rfl fun q hq => ?_
    rw [HestonAsian.omegaTilde_null h hk hs (q + 1) (by have := Finset.mem_range.1 hq; omega), HestonAsian.z_zero, (HestonAsian.f_null h hk _).1, ← ofReal_log (Real.exp_pos _).le,
      Real.log_exp]
    congr 1
    unfold Model.HestonAsian.dTau
    ring
  rw [e, ← ofReal_sum, ← Finset.mul_sum, Finset.sum_range_sub, HestonAsian.tau_last, HestonAsian.tau_zero, ← exp_zero]
  congr 1
  unfold Model.HestonAsian.a
  push_cast
  field_simp
  ring

namespace HestonAsian

open MeasureTheory Filter Topology Set

/-- The integrand at a positive number, for the transform of a law: an expectation. -/
theorem integrand_eq (h : Model.HestonAsian) (law : Measure ℝ) [IsProbabilityMeasure law] (hexp : Integrable Real.exp law) (u : ℝ) (hu : 0 < u)
    (h0 : h.phi (u * I) 0 = ∫ x, exp (u * I * x) ∂law) (h1 : h.phi (1 + u * I) 0 = ∫ x, exp ((1 + u * I) * x) ∂law) :
    h.integrand u = ∫ x, (Real.exp x - h.strike) * (Real.sin (u * (x - Real.log h.strike)) / u) ∂law := by
  have hu' : (u : ℂ) ≠ 0 := by exact_mod_cast hu.ne'
  have n1 : ∀ x : ℝ, ‖exp (u * I * x)‖ = 1 := by
    intro x
    rw [Complex.norm_exp]
    simp
  have n2 : ∀ x : ℝ, ‖exp ((1 + u * I) * x)‖ = Real.exp x := by
    intro x
    rw [Complex.norm_exp]
    simp
  have i1 : Integrable (fun x : ℝ => exp (u * I * x)) law := by
    refine (integrable_const (1 : ℝ)).mono (Continuous.aestronglyMeasurable (by fun_prop)) (ae_of_all _ fun x => ?_)
    rw [n1]
    simp
  have i2 : Integrable (fun x : ℝ => exp ((1 + u * I) * x)) law := by
    refine hexp.mono (Continuous.aestronglyMeasurable (by fun_prop)) (ae_of_all _ fun x => ?_)
    rw [n2, Real.norm_eq_abs, abs_of_pos (Real.exp_pos x)]
  unfold Model.HestonAsian.integrand
  dsimp only
  rw [h0, h1, ← integral_const_mul, ← integral_sub i2 (i1.const_mul _), ← integral_mul_const]
  have i3 : Integrable (fun x : ℝ => (exp ((1 + u * I) * x) - h.strike * exp (u * I * x)) * (exp (-I * u * (Real.log h.strike : ℝ)) / (u * I))) law :=
    (i2.sub (i1.const_mul _)).mul_const _
  rw [← Complex.reCLM_apply, ← ContinuousLinearMap.integral_comp_comm _ i3]
  refine integral_congr_ae (ae_of_all _ fun x => ?_)
  simp only [Complex.reCLM_apply]
  have e : (exp ((1 + u * I) * x) - h.strike * exp (u * I * x)) * (exp (-I * u * (Real.log h.strike : ℝ)) / (u * I)) =
      (((Real.exp x - h.strike) / u : ℝ) : ℂ) * (exp ((u * (x - Real.log h.strike) : ℝ) * I) * -I) := by
    have e1 : exp ((1 + u * I) * x) = (Real.exp x : ℝ) * exp (u * I * x) := by
      rw [ofReal_exp, ← exp_add]
      congr 1
      ring
    have e2 : exp ((u * (x - Real.log h.strike) : ℝ) * I) = exp (u * I * x) * exp (-I * u * (Real.log h.strike : ℝ)) := by
      rw [← exp_add]
      congr 1
      push_cast
      ring
    rw [e1, e2]
    push_cast
    have hI := I_ne_zero
    field_simp
    rw [I_sq]
    ring
  rw [e, re_ofReal_mul, Complex.mul_re, exp_ofReal_mul_I_im, exp_ofReal_mul_I_re]
  simp
  ring

/-- Truncated, the integral is an expectation of sine integrals. -/
theorem truncated_eq (h : Model.HestonAsian) (law : Measure ℝ) [IsProbabilityMeasure law] (hexp : Integrable Real.exp law)
    (h0 : ∀ u : ℝ, 0 < u → h.phi (u * I) 0 = ∫ x, exp (u * I * x) ∂law) (h1 : ∀ u : ℝ, 0 < u → h.phi (1 + u * I) 0 = ∫ x, exp ((1 + u * I) * x) ∂law)
    (a b : ℝ) (ha : 0 < a) (hab : a ≤ b) :
    ∫ u in a..b, h.integrand u = ∫ x, (Real.exp x - h.strike) *
      (Dirichlet.sinInt (b * (x - Real.log h.strike)) - Dirichlet.sinInt (a * (x - Real.log h.strike))) ∂law := by
  rw [intervalIntegral.integral_of_le hab]
  have e : ∫ u in Ioc a b, h.integrand u =
      ∫ u in Ioc a b, ∫ x, (Real.exp x - h.strike) * (Real.sin (u * (x - Real.log h.strike)) / u) ∂law :=
    setIntegral_congr_fun measurableSet_Ioc fun u hu => integrand_eq h law hexp u (ha.trans hu.1) (h0 u (ha.trans hu.1)) (h1 u (ha.trans hu.1))
  have hE : Integrable (fun x => Real.exp x - h.strike) law := hexp.sub (integrable_const _)
  have hint : Integrable (Function.uncurry fun u x : ℝ => (Real.exp x - h.strike) * (Real.sin (u * (x - Real.log h.strike)) / u))
      ((volume.restrict (Ioc a b)).prod law) := by
    have hg : Integrable (fun p : ℝ × ℝ => a⁻¹ * |Real.exp p.2 - h.strike|) ((volume.restrict (Ioc a b)).prod law) :=
      Integrable.mul_prod (f := fun _ : ℝ => a⁻¹) (g := fun x : ℝ => |Real.exp x - h.strike|) (integrable_const _) hE.abs
    refine hg.mono (Measurable.aestronglyMeasurable (by unfold Function.uncurry; fun_prop)) ?_
    have hmem : ∀ᵐ p : ℝ × ℝ ∂((volume.restrict (Ioc a b)).prod law), p.1 ∈ Ioc a b := by
      have := Measure.quasiMeasurePreserving_fst (μ := volume.restrict (Ioc a b)) (ν := law)
      exact this.ae (ae_restrict_mem measurableSet_Ioc)
    filter_upwards [hmem] with p hp
    have hp0 : 0 < p.1 := ha.trans hp.1
    unfold Function.uncurry
    dsimp only
    rw [norm_mul, norm_mul, norm_div, Real.norm_eq_abs, Real.norm_eq_abs, Real.norm_eq_abs, Real.norm_eq_abs, Real.norm_eq_abs, abs_abs, abs_of_pos hp0, abs_of_pos (inv_pos.2 ha), mul_comm]
    refine mul_le_mul_of_nonneg_right ?_ (abs_nonneg _)
    rw [div_le_iff₀ hp0]
    refine (Real.abs_sin_le_one _).trans ?_
    rw [inv_mul_eq_div, one_le_div ha]
    exact hp.1.le
  rw [e, integral_integral_swap hint]
  refine integral_congr_ae (ae_of_all _ fun x => ?_)
  dsimp only
  rw [integral_const_mul, ← intervalIntegral.integral_of_le hab, Dirichlet.sinInt_sub a b _ ha hab]

end HestonAsian

open MeasureTheory Filter Topology Set in
/-- **C102, price.** If `phi` is the transform of a law of the logarithm of the mean, the formula, integrated over all positive numbers, is the expected payoff:
of the call with the plus sign before half the forward minus half the strike, of the put with the minus sign. -/
theorem C102_inversion (h : Model.HestonAsian) (law : Measure ℝ) [IsProbabilityMeasure law] (hexp : Integrable Real.exp law) (hK : 0 < h.strike)
    (h0 : ∀ u : ℝ, 0 < u → h.phi (u * I) 0 = ∫ x, exp (u * I * x) ∂law) (h1 : ∀ u : ℝ, 0 < u → h.phi (1 + u * I) 0 = ∫ x, exp ((1 + u * I) * x) ∂law) :
    Tendsto (fun b : ℝ × ℝ => ((∫ x, Real.exp x ∂law) - h.strike) / 2 + (∫ u in b.1..b.2, h.integrand u) / Real.pi) (𝓝[>] 0 ×ˢ atTop)
      (𝓝 (∫ x, max (Real.exp x - h.strike) 0 ∂law)) ∧
    Tendsto (fun b : ℝ × ℝ => (h.strike - ∫ x, Real.exp x ∂law) / 2 + (∫ u in b.1..b.2, h.integrand u) / Real.pi) (𝓝[>] 0 ×ˢ atTop)
      (𝓝 (∫ x, max (h.strike - Real.exp x) 0 ∂law)) := by
  have hE : Integrable (fun x => Real.exp x - h.strike) law := hexp.sub (integrable_const _)
  have hm : ∫ x, (Real.exp x - h.strike) ∂law = (∫ x, Real.exp x ∂law) - h.strike := by
    rw [integral_sub hexp (integrable_const _)]
    simp
  obtain ⟨C, hC⟩ := Dirichlet.sinInt_bounded
  have hlim : Tendsto (fun b : ℝ × ℝ => ∫ u in b.1..b.2, h.integrand u) (𝓝[>] 0 ×ˢ atTop) (𝓝 (Real.pi / 2 * ∫ x, |Real.exp x - h.strike| ∂law)) := by
    have hd : Tendsto (fun b : ℝ × ℝ => ∫ x, (Real.exp x - h.strike) *
        (Dirichlet.sinInt (b.2 * (x - Real.log h.strike)) - Dirichlet.sinInt (b.1 * (x - Real.log h.strike))) ∂law) (𝓝[>] 0 ×ˢ atTop)
        (𝓝 (∫ x, (Real.exp x - h.strike) * (Real.pi / 2 * SignType.sign (x - Real.log h.strike)) ∂law)) := by
      refine tendsto_integral_filter_of_dominated_convergence (fun x => |Real.exp x - h.strike| * (C + C)) ?_ ?_ (hE.abs.mul_const _) ?_
      · refine Eventually.of_forall fun b => Continuous.aestronglyMeasurable ?_
        have := Dirichlet.sinInt_continuous
        fun_prop
      · refine Eventually.of_forall fun b => ae_of_all _ fun x => ?_
        rw [norm_mul, Real.norm_eq_abs, Real.norm_eq_abs]
        exact mul_le_mul_of_nonneg_left ((abs_sub _ _).trans (add_le_add (hC _) (hC _))) (abs_nonneg _)
      · exact ae_of_all _ fun x => (Dirichlet.truncated_tendsto _).const_mul _
    have e : ∫ x, (Real.exp x - h.strike) * (Real.pi / 2 * SignType.sign (x - Real.log h.strike)) ∂law = Real.pi / 2 * ∫ x, |Real.exp x - h.strike| ∂law := by
      rw [← integral_const_mul]
      refine integral_congr_ae (ae_of_all _ fun x => ?_)
      dsimp only
      rcases lt_trichotomy x (Real.log h.strike) with hx | hx | hx
      · have : Real.exp x < h.strike := (Real.lt_log_iff_exp_lt hK).1 hx
        rw [sign_neg (by linarith), abs_of_neg (by linarith)]
        simp
        ring
      · rw [hx, Real.exp_log hK]
        simp
      · have : h.strike < Real.exp x := (Real.log_lt_iff_lt_exp hK).1 hx
        rw [sign_pos (by linarith), abs_of_pos (by linarith)]
        simp
        ring
    rw [e] at hd
    refine hd.congr' ?_
    have ev : ∀ᶠ b : ℝ × ℝ in 𝓝[>] 0 ×ˢ atTop, 0 < b.1 ∧ b.1 ≤ b.2 := by
      have e1 : ∀ᶠ a : ℝ in 𝓝[>] 0, 0 < a ∧ a ≤ 1 := by
        filter_upwards [Ioc_mem_nhdsGT (zero_lt_one' ℝ)] with a ha
        exact ha
      filter_upwards [prod_mem_prod e1 (eventually_ge_atTop (1 : ℝ))] with b hb
      exact ⟨hb.1.1, hb.1.2.trans hb.2⟩
    filter_upwards [ev] with b hb
    exact (HestonAsian.truncated_eq h law hexp h0 h1 b.1 b.2 hb.1 hb.2).symm
  have hpi := Real.pi_pos
  have hlim2 := hlim.div_const Real.pi
  have hdiv : (Real.pi / 2 * ∫ x, |Real.exp x - h.strike| ∂law) / Real.pi = ∫ x, |Real.exp x - h.strike| / 2 ∂law := by
    rw [integral_div]
    field_simp
  rw [hdiv] at hlim2
  have hI : Integrable (fun x => |Real.exp x - h.strike| / 2) law := hE.abs.div_const 2
  have hJ : Integrable (fun x => (Real.exp x - h.strike) / 2) law := hE.div_const 2
  have hhalf : ((∫ x, Real.exp x ∂law) - h.strike) / 2 = ∫ x, (Real.exp x - h.strike) / 2 ∂law := by rw [integral_div, hm]
  constructor
  · have ht := hlim2.const_add (((∫ x, Real.exp x ∂law) - h.strike) / 2)
    have e : ((∫ x, Real.exp x ∂law) - h.strike) / 2 + ∫ x, |Real.exp x - h.strike| / 2 ∂law = ∫ x, max (Real.exp x - h.strike) 0 ∂law := by
      rw [hhalf, ← integral_add hJ hI]
      refine integral_congr_ae (ae_of_all _ fun x => ?_)
      dsimp only
      rcases le_total (Real.exp x) h.strike with hx | hx
      · rw [abs_of_nonpos (by linarith), max_eq_right (by linarith)]
        ring
      · rw [abs_of_nonneg (by linarith), max_eq_left (by linarith)]
        ring
    rwa [e] at ht
  · have ht := hlim2.const_add ((h.strike - ∫ x, Real.exp x ∂law) / 2)
    have e : (h.strike - ∫ x, Real.exp x ∂law) / 2 + ∫ x, |Real.exp x - h.strike| / 2 ∂law = ∫ x, max (h.strike - Real.exp x) 0 ∂law := by
      rw [show (h.strike - ∫ x, Real.exp x ∂law) / 2 = -(((∫ x, Real.exp x ∂law) - h.strike) / 2) by ring, hhalf, ← integral_neg, ← integral_add (f := fun x => -((Real.exp x - h.strike) / 2)) hJ.neg hI]
      refine integral_congr_ae (ae_of_all _ fun x => ?_)
      dsimp only
      rcases le_total (Real.exp x) h.strike with hx | hx
      · rw [abs_of_nonpos (by linarith), max_eq_left (by linarith)]
        ring
      · rw [abs_of_nonneg (by linarith), max_eq_right (by linarith)]
        ring
    rwa [e] at ht

/-- The function prices with the integral of the rule in the place of the integral of the theorem before, the prefactor of the past fixings and the discount factor. -/
theorem C102_price (a : HestonAsianArgs) (times : List ℝ) (hc : a.check = .ok times) (i : ℝ) (hi : a.integral (a.handler times).integrand = .ok i) :
    hestonAsianPrice a = .ok ((a.handler times).forward.map fun F =>
      a.prefactor times * a.dcf * ((if a.isCall.getD true then F - a.strike / a.prefactor times else a.strike / a.prefactor times - F) / 2 + i / Real.pi)) := by
  unfold hestonAsianPrice
  rw [hc]
  simp only [bind, Except.bind, hi, pure, Except.pure]
  refine congrArg _ ?_
  cases (a.handler times).forward with
  | none => rfl
  | some F =>
    simp only [Option.bind_some, Option.map_some]
    refine congrArg some ?_
    have hst : (a.handler times).strike = a.strike / a.prefactor times := rfl
    rw [hst]
    cases a.isCall with
    | none => simp
    | some c => cases c <;> simp

/-- Call minus put is the discounted difference of forward and strike, whatever the rule of integration. -/
theorem C102_parity (a : HestonAsianArgs) (times : List ℝ) (hc : a.check = .ok times) (c p : ℝ)
    (hcall : hestonAsianPrice { a with isCall := some true } = .ok (some c)) (hput : hestonAsianPrice { a with isCall := some false } = .ok (some p))
    (hacc : 0 < a.accumulator) :
    ∃ F, (a.handler times).forward = some F ∧ c - p = a.dcf * (a.prefactor times * F - a.strike) := by
  have hP : a.prefactor times ≠ 0 := (Real.rpow_pos_of_pos hacc _).ne'
  cases hi : a.integral (a.handler times).integrand with
  | error e =>
    exfalso
    unfold hestonAsianPrice at hcall
    have : HestonAsianArgs.check { a with isCall := some true } = .ok times := hc
    rw [this] at hcall
    have h2 : HestonAsianArgs.integral { a with isCall := some true } (HestonAsianArgs.handler { a with isCall := some true } times).integrand = .error e := hi
    simp only [bind, Except.bind, h2] at hcall
    exact absurd hcall (by simp)
  | ok i =>
    have h1 := C102_price { a with isCall := some true } times hc i hi
    have h2 := C102_price { a with isCall := some false } times hc i hi
    rw [hcall] at h1
    rw [hput] at h2
    have e1 : (HestonAsianArgs.handler { a with isCall := some true } times).forward = (a.handler times).forward := rfl
    have e2 : (HestonAsianArgs.handler { a with isCall := some false } times).forward = (a.handler times).forward := rfl
    rw [e1] at h1
    rw [e2] at h2
    cases hF : (a.handler times).forward with
    | none =>
      rw [hF] at h1
      simp at h1
    | some F =>
      rw [hF] at h1 h2
      refine ⟨F, rfl, ?_⟩
      simp only [Option.map_some, Except.ok.injEq, Option.some.injEq, Option.getD_some, if_true, Bool.false_eq_true, if_false] at h1 h2
      rw [h1, h2]
      have e3 : HestonAsianArgs.prefactor { a with isCall := some true } times = a.prefactor times := rfl
      have e4 : HestonAsianArgs.prefactor { a with isCall := some false } times = a.prefactor times := rfl
      have e5 : HestonAsianArgs.dcf { a with isCall := some true } = a.dcf := rfl
      have e6 : HestonAsianArgs.dcf { a with isCall := some false } = a.dcf := rfl
      rw [e3, e4, e5, e6]
      field_simp
      ring

open MeasureTheory in
/-- The prefactor carries the past fixings: the payoff on the geometric mean of the past fixings and of `m` more prices with the sum of logarithms `n x`,
`n` being the number of all of them, is the prefactor times the payoff on `e ^ x` with the strike of the handler. -/
theorem C102_seasoned (a : HestonAsianArgs) (times : List ℝ) (fixings : List ℝ) (hf : a.pastFixings = some fixings) (hpos : ∀ y ∈ fixings, 0 < y) (prices : List ℝ)
    (hprices : ∀ y ∈ prices, 0 < y) :
    let n : ℝ := ((times.length + fixings.length : Nat) : ℝ)
    max (((fixings ++ prices).prod) ^ (1 / n) - a.strike) 0 =
      a.prefactor times * max (Real.exp (1 / n * (prices.map Real.log).sum) - (a.handler times).strike) 0 := by
  dsimp only
  have hprod : ∀ l : List ℝ, (∀ y ∈ l, 0 < y) → 0 < l.prod := fun l hl => List.prod_pos hl
  have hsum : ∀ l : List ℝ, (∀ y ∈ l, 0 < y) → Real.exp ((l.map Real.log).sum) = l.prod := by
    intro l
    induction l with
    | nil => simp
    | cons y l ih =>
      intro hl
      rw [List.map_cons, List.sum_cons, Real.exp_add, Real.exp_log (hl y (by simp)), ih (fun z hz => hl z (by simp [hz])), List.prod_cons]
  have hP : a.prefactor times = fixings.prod ^ (1 / ((times.length + fixings.length : Nat) : ℝ)) := by
    unfold HestonAsianArgs.prefactor HestonAsianArgs.accumulator HestonAsianArgs.count
    rw [hf]
  have hP0 : 0 < a.prefactor times := by
    rw [hP]
    exact Real.rpow_pos_of_pos (hprod _ hpos) _
  have hst : (a.handler times).strike = a.strike / a.prefactor times := rfl
  rw [List.prod_append, Real.mul_rpow (hprod _ hpos).le (hprod _ hprices).le, ← hP, hst, mul_max_of_nonneg _ _ hP0.le, mul_zero]
  congr 1
  rw [mul_comm (1 / _ : ℝ) ((prices.map Real.log).sum), Real.exp_mul, hsum prices hprices]
  field_simp

/-- The arguments that are refused. -/
theorem C102_rejects (a : HestonAsianArgs)
    (hbad : a.spot.isSome = a.forward.isSome ∨ (a.discountRate.isSome ∧ a.discountFactor.isSome) ∨ a.averagingType = .arithmetic ∨
      a.averagingFrequency = .continuous ∨ a.samplingTimes = none ∨ a.samplingTimes = some [] ∨
      ∃ times last, a.samplingTimes = some times ∧ times.getLast? = some last ∧ a.expiry < last) : ∃ e, hestonAsianPrice a = .error e := by
  suffices h : ∃ e, a.check = .error e by
    obtain ⟨e, he⟩ := h
    refine ⟨e, ?_⟩
    unfold hestonAsianPrice
    rw [he]
    rfl
  unfold HestonAsianArgs.check
  split_ifs with h1 h2 h3
  · exact ⟨_, rfl⟩
  · exact ⟨_, rfl⟩
  · exact ⟨_, rfl⟩
  · cases hfr : a.averagingFrequency with
    | continuous => exact ⟨_, rfl⟩
    | discrete =>
      rcases hbad with hb | hb | hb | hb | hb | hb | ⟨times, last, hb, hl, hlt⟩
      · exfalso
        apply h1
        revert hb
        cases a.spot <;> cases a.forward <;> simp
      · exact absurd hb h2
      · exact absurd hb h3
      · rw [hfr] at hb
        exact absurd hb (by simp)
      · rw [hb]
        exact ⟨_, rfl⟩
      · rw [hb]
        exact ⟨_, rfl⟩
      · rw [hb]
        simp only [hl]
        rw [if_neg]
        · exact ⟨_, rfl⟩
        · rw [max_eq_left hlt.le]
          exact hlt.ne'

/-- The market: the rate out of the discount factor, the discount factor and the spot out of the forward. -/
theorem C102_market (a : HestonAsianArgs) (hT : a.expiry ≠ 0) :
    (∀ df, 0 < df → a.discountFactor = some df → a.discountRate = none → a.dcf = df) ∧
    (∀ f, a.forward = some f → a.spotPrice * Real.exp ((a.rate - a.dividendRate.getD 0) * a.expiry) = f) ∧
    (∀ s, a.spot = some s → a.forward = none → a.spotPrice = s) := by
  refine ⟨fun df hdf h1 h2 => ?_, fun f hf => ?_, fun s hs hf => ?_⟩
  · unfold HestonAsianArgs.dcf HestonAsianArgs.rate
    rw [h1, h2]
    dsimp only
    rw [show -(-Real.log df / a.expiry) * a.expiry = Real.log df by field_simp, Real.exp_log hdf]
  · unfold HestonAsianArgs.spotPrice
    rw [hf]
    dsimp only
    rw [mul_assoc, ← Real.exp_add, show -(a.rate - a.dividendRate.getD 0) * a.expiry + (a.rate - a.dividendRate.getD 0) * a.expiry = 0 by ring, Real.exp_zero, mul_one]
  · unfold HestonAsianArgs.spotPrice
    rw [hs, hf]
    rfl

/-- Two samplings, a discount factor of one half. -/
example : (⟨⟨4 / 100, 1, 4 / 100, 1 / 2, -1 / 2⟩, 100, 1, some 100, none, some [1 / 2, 1], none, none, none, some (1 / 2), none, .geometric, .discrete, {}⟩ :
    HestonAsianArgs).check = .ok [1 / 2, 1] := by
  simp [HestonAsianArgs.check]

/-- When all the prices of the mean are known, `phi` is one. -/
theorem HestonAsian.phi_known (p : HestonOptionParams) (spot r d K T : ℝ) (c : Nat) (hk : 0 < p.meanReversion) (hs : p.volvol ≠ 0) (s : ℂ) :
    (⟨p, spot, r, d, K, T, [], c⟩ : Model.HestonAsian).phi s 0 = 1 := by
  obtain ⟨h, hh⟩ : ∃ h : Model.HestonAsian, h = ⟨p, spot, r, d, K, T, [], c⟩ := ⟨_, rfl⟩
  rw [← hh]
  have hz : ∀ q, q = 0 → h.z s 0 q = h.z 0 0 q := by
    intro q hq
    simp [hq, hh, Model.HestonAsian.z, Model.HestonAsian.n]
  have hl : h.times.length = 0 := by rw [hh]; rfl
  have ho : ∀ q, h.omega s 0 q = h.omega 0 0 q := by
    intro q
    unfold Model.HestonAsian.omega
    have : h.n - h.fixingCount = 0 := by simp [hh, Model.HestonAsian.n]
    rw [this]
    split_ifs with h1 h2
    · simp
    · omega
    · rfl
  have h1 : h.omegaTilde s 0 1 = h.omegaTilde 0 0 1 := by
    unfold Model.HestonAsian.omegaTilde
    rw [hl]
    exact ho _
  have h0 : h.omegaTilde s 0 0 = h.omegaTilde 0 0 0 := by
    rw [HestonAsian.omegaTilde_step h s 0 0 (Nat.zero_le _), HestonAsian.omegaTilde_step h 0 0 0 (Nat.zero_le _), h1, hz 0 rfl, ho]
  have ha : h.a s 0 = h.a 0 0 := by simp [hh, Model.HestonAsian.a, Model.HestonAsian.n]
  have hp : h.phi s 0 = h.phi 0 0 := by
    unfold Model.HestonAsian.phi
    rw [hl]
    simp only [zero_add, List.range_one, List.map_cons, List.map_nil]
    rw [ha, h0, h1, hz 0 rfl]
  rw [hp]
  exact C102_at_zero h (by rw [hh]; exact hk) (by rw [hh]; exact hs)

open MeasureTheory Filter Topology in
/-- The theorem of the inversion when all prices of the mean are known: the formula gives the payoff on the number one, with strike three quarters. -/
example : Tendsto (fun b : ℝ × ℝ => ((∫ x, Real.exp x ∂(Measure.dirac 0)) - 3 / 4) / 2 +
    (∫ u in b.1..b.2, (⟨⟨4 / 100, 1, 4 / 100, 1 / 2, -1 / 2⟩, 100, 0, 0, 3 / 4, 1, [], 2⟩ : Model.HestonAsian).integrand u) / Real.pi) (𝓝[>] 0 ×ˢ atTop)
    (𝓝 (1 / 4)) := by
  have h := (C102_inversion ⟨⟨4 / 100, 1, 4 / 100, 1 / 2, -1 / 2⟩, 100, 0, 0, 3 / 4, 1, [], 2⟩ (Measure.dirac 0) (integrable_dirac (by simp)) (by norm_num)
    (fun u _ => by rw [HestonAsian.phi_known _ _ _ _ _ _ _ (by norm_num) (by norm_num), integral_dirac]; simp)
    (fun u _ => by rw [HestonAsian.phi_known _ _ _ _ _ _ _ (by norm_num) (by norm_num), integral_dirac]; simp)).1
  have e : ∫ x, max (Real.exp x - 3 / 4) 0 ∂(Measure.dirac (0 : ℝ)) = 1 / 4 := by
    rw [integral_dirac, Real.exp_zero]
    norm_num
  rw [← e]
  exact h

/-- Two samplings ahead. -/
example : (⟨⟨4 / 100, 1, 4 / 100, 1 / 2, -1 / 2⟩, 100, 0, 0, 100, 1, [1 / 2, 1], 2⟩ : Model.HestonAsian).phi 0 0 = 1 :=
  C102_at_zero _ (by norm_num) (by norm_num)

end Props
