import Verif.Props.CmsSwap
import Verif.Props.QuadratureError
import Verif.Props.VarianceSwaps
import Mathlib.MeasureTheory.Integral.DominatedConvergence
import Mathlib.Analysis.SpecialFunctions.Pow.Deriv

/-! # C129: the replication of coupons of constant maturity swaps with any law of the rate and many points -/

namespace Spec
open MeasureTheory ProbabilityTheory

/-- The law of the swap rate at the fixing in the normal and the lognormal model, with mean `R` and total volatility `s`. -/
noncomputable def rateLaw (isNormal : Bool) (R s : ℝ) : Measure ℝ :=
  if isNormal then gaussianReal R (Real.toNNReal (s ^ 2)) else (gaussianReal (Real.log R - s ^ 2 / 2) (Real.toNNReal (s ^ 2))).map Real.exp

end Spec

namespace Lemmas
open Model Spec MeasureTheory Set ProbabilityTheory Filter Topology

theorem rateLaw_facts (b : Bool) (R s : ℝ) (hR : 0 < R) :
    IsProbabilityMeasure (rateLaw b R s) ∧ Integrable (fun x => x) (rateLaw b R s) ∧ ∫ x, x ∂(rateLaw b R s) = R := by
  rcases b with _ | _
  · have e : rateLaw false R s = (gaussianReal (Real.log R - s ^ 2 / 2) (Real.toNNReal (s ^ 2))).map Real.exp := rfl
    rw [e]
    have hm : AEMeasurable Real.exp (gaussianReal (Real.log R - s ^ 2 / 2) (Real.toNNReal (s ^ 2))) := Real.measurable_exp.aemeasurable
    have hid : AEStronglyMeasurable (fun x : ℝ => x) ((gaussianReal (Real.log R - s ^ 2 / 2) (Real.toNNReal (s ^ 2))).map Real.exp) :=
      measurable_id.aestronglyMeasurable
    obtain ⟨f1, _, f3⟩ := lognormal_facts R s hR
    refine ⟨Measure.isProbabilityMeasure_map hm, (integrable_map_measure hid hm).2 f1, ?_⟩
    rw [integral_map hm hid]
    exact f3
  · have e : rateLaw true R s = gaussianReal R (Real.toNNReal (s ^ 2)) := rfl
    rw [e]
    refine ⟨inferInstance, ?_, integral_id_gaussianReal⟩
    exact (memLp_id_gaussianReal (μ := R) (v := Real.toNNReal (s ^ 2)) 1).integrable (by norm_num)

theorem rateLaw_lognormal (R s : ℝ) (f : ℝ → ℝ) (hf : AEStronglyMeasurable f (rateLaw false R s)) :
    ∫ x, f x ∂(rateLaw false R s) = lognormalExpectation R s f := by
  have hm : AEMeasurable Real.exp (gaussianReal (Real.log R - s ^ 2 / 2) (Real.toNNReal (s ^ 2))) := Real.measurable_exp.aemeasurable
  exact integral_map hm hf

/-- The derivatives of `_f_atm`. -/
theorem fAtm_smooth (h : ℝ → ℝ) (R : ℝ) (hh : ContDiffOn ℝ 2 h (Ioi 0)) :
    (∀ u, 0 < u → HasDerivAt (fun s => fAtm h s R) (deriv (fun s => fAtm h s R) u) u) ∧
    (∀ u, 0 < u → HasDerivAt (deriv (fun s => fAtm h s R)) (deriv (deriv (fun s => fAtm h s R)) u) u) ∧
    ContinuousOn (deriv (deriv (fun s => fAtm h s R))) (Ioi 0) := by
  have hg : ContDiffOn ℝ 2 (fun s => fAtm h s R) (Ioi 0) := by
    unfold fAtm
    exact (contDiffOn_id.sub contDiffOn_const).mul ((hh.div_const _).sub contDiffOn_const)
  have h1 : ContDiffOn ℝ 1 (deriv (fun s => fAtm h s R)) (Ioi 0) :=
    ((contDiffOn_succ_iff_deriv_of_isOpen (n := 1) isOpen_Ioi).1 hg).2.2
  have h0 : ContinuousOn (deriv (deriv (fun s => fAtm h s R))) (Ioi 0) := h1.continuousOn_deriv_of_isOpen isOpen_Ioi le_rfl
  refine ⟨fun u hu => ?_, fun u hu => ?_, h0⟩
  · exact ((hg.differentiableOn (by norm_num)).differentiableAt (Ioi_mem_nhds hu)).hasDerivAt
  · exact ((h1.differentiableOn (by norm_num)).differentiableAt (Ioi_mem_nhds hu)).hasDerivAt

theorem fAtm_at (h : ℝ → ℝ) (R : ℝ) (hR : 0 < R) (hh : ContDiffOn ℝ 2 h (Ioi 0)) (h0 : h R ≠ 0) :
    fAtm h R R = 0 ∧ deriv (fun s => fAtm h s R) R = 0 := by
  refine ⟨by simp [fAtm], ?_⟩
  have hd : HasDerivAt h (deriv h R) R := ((hh.differentiableOn (by norm_num)).differentiableAt (Ioi_mem_nhds hR)).hasDerivAt
  have : HasDerivAt (fun s => fAtm h s R) (1 * (h R / h R - 1) + (R - R) * (deriv h R / h R)) R :=
    ((hasDerivAt_id R).sub_const R).mul ((hd.div_const (h R)).sub_const 1)
  rw [this.deriv, div_self h0]
  ring

/-- The replication with exact integrals: the options are worth the mean of the function continued by tangents. -/
theorem replication_mean (mu : Measure ℝ) [IsProbabilityMeasure mu] (hint : Integrable (fun s : ℝ => s) mu) (h : ℝ → ℝ) (L R U : ℝ)
    (hL : 0 < L) (hLR : L ≤ R) (hRU : R ≤ U) (hh : ContDiffOn ℝ 2 h (Ioi 0)) (h0 : h R ≠ 0) :
    Integrable (tangentExtension (fun s => fAtm h s R) (deriv (fun s => fAtm h s R)) L U) mu ∧
    (∫ u in R..U, deriv (deriv (fun s => fAtm h s R)) u * ∫ s, max (s - u) 0 ∂mu) +
      (∫ u in L..R, deriv (deriv (fun s => fAtm h s R)) u * ∫ s, max (u - s) 0 ∂mu) =
      ∫ s, tangentExtension (fun s => fAtm h s R) (deriv (fun s => fAtm h s R)) L U s ∂mu := by
  obtain ⟨d1, d2, c2⟩ := fAtm_smooth h R hh
  obtain ⟨z1, z2⟩ := fAtm_at h R (by linarith) hh h0
  have hsub : Icc L U ⊆ Ioi 0 := fun u hu => lt_of_lt_of_le hL hu.1
  have hb1 : ∀ s u : ℝ, |max (s - u) 0| ≤ |s| + |u| := by
    intro s u
    rw [abs_of_nonneg (le_max_right _ _)]
    exact max_le (by linarith [le_abs_self s, neg_abs_le u]) (by positivity)
  have hb2 : ∀ s u : ℝ, |max (u - s) 0| ≤ |s| + |u| := by
    intro s u
    rw [abs_of_nonneg (le_max_right _ _)]
    exact max_le (by linarith [le_abs_self u, neg_abs_le s]) (by positivity)
  have e1 := replication_swap mu hint (deriv (deriv (fun s => fAtm h s R))) (fun s u => max (s - u) 0) R U hRU
    (c2.mono ((Icc_subset_Icc_left hLR).trans hsub)) (by fun_prop) hb1
  have e2 := replication_swap mu hint (deriv (deriv (fun s => fAtm h s R))) (fun s u => max (u - s) 0) L R hLR
    (c2.mono ((Icc_subset_Icc_right hRU).trans hsub)) (by fun_prop) hb2
  have rep := fun s => option_replication (fun s => fAtm h s R) (deriv (fun s => fAtm h s R)) (deriv (deriv (fun s => fAtm h s R))) L R U s hLR hRU
    (fun u hu => d1 u (hsub hu)) (fun u hu => d2 u (hsub hu)) (c2.mono hsub) z1 z2
  refine ⟨(e1.1.add e2.1).congr (Eventually.of_forall rep), ?_⟩
  rw [e1.2, e2.2, ← integral_add e1.1 e2.1]
  exact integral_congr_ae (Eventually.of_forall rep)

/-- Where the options meet the function. -/
theorem tangentExtension_inside (g g' : ℝ → ℝ) (L U s : ℝ) (hs : s ∈ Icc L U) : tangentExtension g g' L U s = g s := by
  rw [tangentExtension, min_eq_right hs.2, max_eq_right hs.1]
  ring

/-- The continued function grows at most like the bound of the slope. -/
theorem tangentExtension_bound (g g' : ℝ → ℝ) (M L R U s : ℝ) (hL : 0 < L) (hLR : L ≤ R) (hRU : R ≤ U) (hd : ∀ u, 0 < u → HasDerivAt g (g' u) u)
    (hM : 0 ≤ M) (hb : ∀ u, 0 < u → |g' u| ≤ M * (1 + |u|)) (hR : g R = 0) :
    |tangentExtension g g' L U s| ≤ M * (1 + |R| + |s|) * |s - R| := by
  unfold tangentExtension
  obtain ⟨c, hc⟩ : ∃ c, c = max L (min U s) := ⟨_, rfl⟩
  rw [← hc]
  -- the point lies between the rate and `s`
  have hbet : (R ≤ c ∧ c ≤ s) ∨ (s ≤ c ∧ c ≤ R) := by
    rcases le_total s R with h | h
    · right
      rw [hc, min_eq_right (h.trans hRU)]
      exact ⟨le_max_right _ _, max_le hLR h⟩
    · left
      rw [hc, max_eq_right (le_min (hLR.trans hRU) (hLR.trans h))]
      exact ⟨le_min hRU h, min_le_right _ _⟩
  have hc0 : 0 < c := by rw [hc]; exact lt_of_lt_of_le hL (le_max_left _ _)
  have hR0 : 0 < R := lt_of_lt_of_le hL hLR
  have hsum : |c - R| + |s - c| = |s - R| := by
    rcases hbet with ⟨a, b⟩ | ⟨a, b⟩
    · rw [abs_of_nonneg (by linarith), abs_of_nonneg (by linarith), abs_of_nonneg (by linarith)]; ring
    · rw [abs_of_nonpos (by linarith), abs_of_nonpos (by linarith), abs_of_nonpos (by linarith)]; ring
  have hcs : |c| ≤ |R| + |s| := by
    rcases hbet with ⟨a, b⟩ | ⟨a, b⟩
    · rw [abs_of_pos hc0]; linarith [le_abs_self s, abs_nonneg R]
    · rw [abs_of_pos hc0]; linarith [le_abs_self R, abs_nonneg s]
  have hslope : ∀ u ∈ uIcc R c, ‖g' u‖ ≤ M * (1 + |R| + |s|) := by
    intro u hu
    have hu0 : 0 < u := lt_of_lt_of_le (lt_min hR0 hc0) hu.1
    refine (hb u hu0).trans (mul_le_mul_of_nonneg_left ?_ hM)
    have : u ≤ max R c := hu.2
    rcases le_max_iff.1 this with h | h
    · rw [abs_of_pos hu0]; linarith [le_abs_self R, abs_nonneg s]
    · rw [abs_of_pos hu0]; linarith [le_abs_self c]
  have hg := (convex_uIcc R c).norm_image_sub_le_of_norm_hasDerivWithin_le
    (fun u hu => (hd u (lt_of_lt_of_le (lt_min hR0 hc0) hu.1)).hasDerivWithinAt) hslope left_mem_uIcc right_mem_uIcc
  rw [hR, sub_zero, Real.norm_eq_abs, Real.norm_eq_abs] at hg
  have hg' := hslope c right_mem_uIcc
  rw [Real.norm_eq_abs] at hg'
  calc |g c + g' c * (s - c)| ≤ |g c| + |g' c| * |s - c| := by rw [← abs_mul]; exact abs_add_le _ _
    _ ≤ M * (1 + |R| + |s|) * |c - R| + M * (1 + |R| + |s|) * |s - c| := add_le_add hg (mul_le_mul_of_nonneg_right hg' (abs_nonneg _))
    _ = M * (1 + |R| + |s|) * |s - R| := by rw [← mul_add, hsum]

/-- Prices of options as functions of the strike are continuous. -/
theorem option_continuous (mu : Measure ℝ) [IsProbabilityMeasure mu] (hint : Integrable (fun s : ℝ => s) mu) (c : Bool) :
    Continuous (fun u => ∫ s, vanillaPayoff c u s ∂mu) := by
  have hi : ∀ u, Integrable (vanillaPayoff c u) mu := by
    intro u
    unfold vanillaPayoff
    rcases c with _ | _
    · simp only [Bool.false_eq_true, if_false]
      exact ((integrable_const u).sub hint).sup (integrable_const 0)
    · simp only [if_true]
      exact (hint.sub (integrable_const u)).sup (integrable_const 0)
  have hlip : ∀ u v s : ℝ, |vanillaPayoff c u s - vanillaPayoff c v s| ≤ |u - v| := by
    intro u v s
    unfold vanillaPayoff
    rcases c with _ | _
    · simp only [Bool.false_eq_true, if_false]
      refine (abs_max_sub_max_le_abs _ _ _).trans (le_of_eq (by congr 1; ring))
    · simp only [if_true]
      refine (abs_max_sub_max_le_abs _ _ _).trans (le_of_eq ?_)
      rw [show s - u - (s - v) = -(u - v) by ring, abs_neg]
  refine (LipschitzWith.of_dist_le_mul (K := 1) fun u v => ?_).continuous
  rw [Real.dist_eq, Real.dist_eq, NNReal.coe_one, one_mul, ← integral_sub (hi u) (hi v)]
  have := norm_integral_le_of_norm_le_const (μ := mu) (f := fun s => vanillaPayoff c u s - vanillaPayoff c v s) (C := |u - v|)
    (Eventually.of_forall fun s => hlip u v s)
  simpa using this

theorem cmsFs_smooth (tau periods delta : ℝ) (ht : 0 < tau) (hp : 0 < periods) :
    ContDiffOn ℝ 2 (cmsFs tau periods delta) (Ioi 0) ∧ ∀ s, 0 < s → 0 < cmsFs tau periods delta s := by
  have hb : ∀ s : ℝ, 0 < s → 1 < 1 + tau * s := fun s hs => by linarith [mul_pos ht hs]
  have hpw : ∀ s : ℝ, 0 < s → 1 < (1 + tau * s) ^ periods := fun s hs => Real.one_lt_rpow (hb s hs) hp
  have hg : ∀ s : ℝ, 0 < s → 0 < 1 / s * (1 - 1 / (1 + tau * s) ^ periods) := by
    intro s hs
    have : 1 / (1 + tau * s) ^ periods < 1 := by rw [div_lt_one (by linarith [hpw s hs])]; exact hpw s hs
    exact mul_pos (by positivity) (by linarith)
  have hd : ∀ s : ℝ, 0 < s → 0 < (1 + tau * s) ^ (delta / tau) := fun s hs => Real.rpow_pos_of_pos (by linarith [hb s hs]) _
  constructor
  · have : ContDiffOn ℝ 2 (fun s : ℝ => 1 / ((1 / s * (1 - 1 / (1 + tau * s) ^ periods)) * (1 + tau * s) ^ (delta / tau))) (Ioi 0) := by
      have a1 : ContDiffOn ℝ 2 (fun s : ℝ => 1 + tau * s) (Ioi 0) := contDiffOn_const.add (contDiffOn_const.mul contDiffOn_id)
      have a2 : ∀ q : ℝ, ContDiffOn ℝ 2 (fun s : ℝ => (1 + tau * s) ^ q) (Ioi 0) := fun q =>
        a1.rpow_const_of_ne fun s hs => by linarith [hb s hs]
      have a3 : ContDiffOn ℝ 2 (fun s : ℝ => 1 / s) (Ioi 0) := contDiffOn_const.div contDiffOn_id fun s hs => (ne_of_gt hs)
      refine contDiffOn_const.div ((a3.mul (contDiffOn_const.sub (contDiffOn_const.div (a2 _) fun s hs => ?_))).mul (a2 _)) fun s hs => ?_
      · linarith [hpw s hs]
      · exact (mul_pos (hg s hs) (hd s hs)).ne'
    refine this.congr fun s hs => ?_
    have hs' : s ≠ 0 := (show 0 < s from hs).ne'
    simp only [cmsFs, if_neg hs']
  · intro s hs
    simp only [cmsFs, if_neg hs.ne']
    exact one_div_pos.2 (mul_pos (hg s hs) (hd s hs))

end Lemmas

namespace Props
open Model Model.Instruments Spec Lemmas MeasureTheory Set ProbabilityTheory Filter Topology

/-- C129: with more and more points the replication tends to the mean of `_f_atm`, continued by tangents outside of the strikes used. -/
theorem C129_points {n : Nat} (fs : ℝ → ℝ) (isNormal : Bool) (vol : ℝ) (expiries rates : Fin n → ℝ) (k : Fin n) (hr : 1 / 1000000 ≤ rates k)
    (hv : 0 < vol) (he : 0 < expiries k) (hfs : ContDiffOn ℝ 2 fs (Ioi 0)) (h0 : fs (rates k) ≠ 0) (ε : ℝ) (hε : 0 < ε) :
    ∃ N, ∀ m ≥ N, m % 2 = 1 → ∃ v, cmsReplication fs isNormal vol expiries rates k m = .ok (some v) ∧
      |v - (rates k + ∫ s, tangentExtension (fun s => fAtm fs s (rates k)) (deriv fun s => fAtm fs s (rates k)) (1 / 1000000) (2000 * rates k) s
        ∂(rateLaw isNormal (rates k) (vol * Real.sqrt (expiries k))))| ≤ ε := by
  have hR : 0 < rates k := lt_of_lt_of_le (by norm_num) hr
  obtain ⟨hprob, hint, -⟩ := rateLaw_facts isNormal (rates k) (vol * Real.sqrt (expiries k)) hR
  have hRU : rates k ≤ 2000 * rates k := by linarith
  obtain ⟨-, -, c2⟩ := fAtm_smooth fs (rates k) hfs
  -- the prices of the options
  have hval : ∀ (c : Bool) (x : ℝ), 0 < x → cmsOptionValue vol x (rates k) (expiries k) c isNormal =
      ∫ s, vanillaPayoff c x s ∂(rateLaw isNormal (rates k) (vol * Real.sqrt (expiries k))) := by
    intro c x hx
    unfold cmsOptionValue
    rcases isNormal with _ | _
    · rw [(C101_option_price vol x (rates k) (expiries k) c hv).2.1 he hR hx, rateLaw_lognormal]
      unfold vanillaPayoff
      rcases c with _ | _
      · simp only [Bool.false_eq_true, if_false]
        exact Continuous.aestronglyMeasurable (by fun_prop)
      · simp only [if_true]
        exact Continuous.aestronglyMeasurable (by fun_prop)
    · rw [(C101_option_price vol x (rates k) (expiries k) c hv).1 he, mul_comm (Real.sqrt _)]
      rfl
  have hcont : ∀ c : Bool, ∀ a b : ℝ, 0 < a → ContinuousOn (cmsIntegrand fs (fun x => cmsOptionValue vol x (rates k) (expiries k) c isNormal) (rates k))
      (Icc a b) := by
    intro c a b ha
    have : ContinuousOn (fun x => deriv (deriv (fun s => fAtm fs s (rates k))) x *
        ∫ s, vanillaPayoff c x s ∂(rateLaw isNormal (rates k) (vol * Real.sqrt (expiries k)))) (Icc a b) :=
      (c2.mono fun u hu => lt_of_lt_of_le ha hu.1).mul (option_continuous _ hint c).continuousOn
    refine this.congr fun x hx => ?_
    unfold cmsIntegrand
    beta_reduce
    rw [hval c x (lt_of_lt_of_le ha hx.1)]
  have hI : ∀ c : Bool, ∀ a b : ℝ, 0 < a → a ≤ b → ∫ x in a..b, cmsIntegrand fs (fun x => cmsOptionValue vol x (rates k) (expiries k) c isNormal) (rates k) x =
      ∫ x in a..b, deriv (deriv (fun s => fAtm fs s (rates k))) x * ∫ s, vanillaPayoff c x s ∂(rateLaw isNormal (rates k) (vol * Real.sqrt (expiries k))) := by
    intro c a b ha hab
    refine intervalIntegral.integral_congr fun x hx => ?_
    rw [uIcc_of_le hab] at hx
    unfold cmsIntegrand
    beta_reduce
    rw [hval c x (lt_of_lt_of_le ha hx.1)]
  obtain ⟨-, hmean⟩ := replication_mean (rateLaw isNormal (rates k) (vol * Real.sqrt (expiries k))) hint fs (1 / 1000000) (rates k) (2000 * rates k)
    (by norm_num) hr hRU hfs h0
  obtain ⟨N1, hN1⟩ := C119_simpson_limit _ (rates k) (2000 * rates k) hRU (hcont true _ _ hR) (ε / 2) (by positivity)
  obtain ⟨N2, hN2⟩ := C119_simpson_limit _ (1 / 1000000) (rates k) hr (hcont false _ _ (by norm_num)) (ε / 2) (by positivity)
  refine ⟨max N1 N2, fun m hm hodd => ?_⟩
  obtain ⟨ic, hic, hic'⟩ := hN1 m (le_trans (le_max_left _ _) hm) hodd
  obtain ⟨ip, hip, hip'⟩ := hN2 m (le_trans (le_max_right _ _) hm) hodd
  obtain ⟨y, hy1, hy2⟩ := cms_at_the_money vol (rates k) (expiries k) isNormal
  refine ⟨rates k + ic + ip, ?_, ?_⟩
  · unfold cmsReplication
    simp only [zero_add, hic, hip, hy1, hy2, Bind.bind, Except.bind, pure, Except.pure, if_neg hR.ne']
    refine congrArg Except.ok (congrArg some ?_)
    ring
  · rw [← hmean]
    rw [hI true _ _ hR hRU] at hic'
    rw [hI false _ _ (by norm_num) hr] at hip'
    simp only [vanillaPayoff, Bool.false_eq_true, if_false, if_true] at hic' hip'
    have := abs_le.1 hic'
    have := abs_le.1 hip'
    rw [abs_le]
    constructor <;> linarith [hic', hip']

/-- C129: without bounds for the strikes this mean is the convexity adjustment: the covariance of the rate with the weight over the weight at the rate,
and if the weight has mean `fs R` the rate plus the adjustment is the mean of the rate in the measure of the payment. -/
theorem C129_covariance (mu : Measure ℝ) [IsProbabilityMeasure mu] (h : ℝ → ℝ) (R : ℝ) (hint : Integrable (fun s : ℝ => s) mu) (hh : Integrable h mu)
    (hsh : Integrable (fun s => s * h s) mu) (hmean : ∫ s, s ∂mu = R) (hR : h R ≠ 0) :
    Integrable (fun s => fAtm h s R) mu ∧ R + ∫ s, fAtm h s R ∂mu = R + ((∫ s, s * h s ∂mu) - (∫ s, s ∂mu) * ∫ s, h s ∂mu) / h R ∧
      ((∫ s, h s ∂mu) = h R → R + ∫ s, fAtm h s R ∂mu = cmsRate (fun f => ∫ s, f s ∂mu) h) := by
  have e : (fun s => fAtm h s R) = fun s => s * h s / h R - R * (h s / h R) - s + R := by
    funext s
    unfold fAtm
    ring
  have i1 : Integrable (fun s => s * h s / h R) mu := hsh.div_const _
  have i2 : Integrable (fun s => R * (h s / h R)) mu := (hh.div_const _).const_mul _
  have i3 : Integrable (fun s => s * h s / h R - R * (h s / h R)) mu := i1.sub i2
  have i4 : Integrable (fun s => s * h s / h R - R * (h s / h R) - s) mu := i3.sub hint
  have e2 : R + ∫ s, fAtm h s R ∂mu = R + ((∫ s, s * h s ∂mu) - (∫ s, s ∂mu) * ∫ s, h s ∂mu) / h R := by
    rw [e, integral_add i4 (integrable_const _), integral_sub i3 hint, integral_sub i1 i2, integral_div, integral_const_mul, integral_div, hmean]
    simp
    ring
  refine ⟨by rw [e]; exact i4.add (integrable_const _), e2, fun hw => ?_⟩
  rw [e2, cmsRate, hw, hmean]
  field_simp
  ring

/-- C129: the bounds for the strikes matter only for rates beyond them. -/
theorem C129_bounds (mu : Measure ℝ) [IsProbabilityMeasure mu] (h : ℝ → ℝ) (L R U : ℝ) (hL : 0 < L) (hLR : L ≤ R) (hRU : R ≤ U)
    (hint : Integrable (fun s : ℝ => s) mu) (hg : Integrable (fun s => fAtm h s R) mu) (hh : ContDiffOn ℝ 2 h (Ioi 0)) (h0 : h R ≠ 0) :
    ∫ s, tangentExtension (fun s => fAtm h s R) (deriv fun s => fAtm h s R) L U s ∂mu = (∫ s, fAtm h s R ∂mu) +
      ∫ s in (Icc L U)ᶜ, (tangentExtension (fun s => fAtm h s R) (deriv fun s => fAtm h s R) L U s - fAtm h s R) ∂mu := by
  obtain ⟨ht, -⟩ := replication_mean mu hint h L R U hL hLR hRU hh h0
  have e : ∫ s in (Icc L U)ᶜ, (tangentExtension (fun s => fAtm h s R) (deriv fun s => fAtm h s R) L U s - fAtm h s R) ∂mu =
      ∫ s, (tangentExtension (fun s => fAtm h s R) (deriv fun s => fAtm h s R) L U s - fAtm h s R) ∂mu := by
    refine setIntegral_eq_integral_of_forall_compl_eq_zero fun s hs => ?_
    rw [mem_compl_iff, not_not] at hs
    rw [tangentExtension_inside _ _ _ _ _ hs, sub_self]
  rw [e, integral_sub ht hg]
  ring

/-- C129: for every law on the positive rates with second moment, if the slope of `_f_atm` grows at most linearly then the options give the convexity
adjustment in the limit of all strikes. -/
theorem C129_all_strikes (mu : Measure ℝ) [IsProbabilityMeasure mu] (h : ℝ → ℝ) (R M : ℝ) (L U : ℕ → ℝ) (hpos : ∀ᵐ s ∂mu, 0 < s)
    (hint : Integrable (fun s : ℝ => s) mu) (hsq : Integrable (fun s : ℝ => s ^ 2) mu) (hL : ∀ i, 0 < L i) (hLR : ∀ i, L i ≤ R) (hRU : ∀ i, R ≤ U i)
    (hl : Tendsto L atTop (𝓝 0)) (hu : Tendsto U atTop atTop) (hh : ContDiffOn ℝ 2 h (Ioi 0)) (h0 : h R ≠ 0) (hM : 0 ≤ M)
    (hb : ∀ u, 0 < u → |deriv (fun s => fAtm h s R) u| ≤ M * (1 + |u|)) :
    Tendsto (fun i => (∫ u in R..U i, deriv (deriv (fun s => fAtm h s R)) u * ∫ s, max (s - u) 0 ∂mu) +
      ∫ u in L i..R, deriv (deriv (fun s => fAtm h s R)) u * ∫ s, max (u - s) 0 ∂mu) atTop (𝓝 (∫ s, fAtm h s R ∂mu)) := by
  have hR : 0 < R := lt_of_lt_of_le (hL 0) (hLR 0)
  obtain ⟨d1, -, -⟩ := fAtm_smooth h R hh
  obtain ⟨z1, -⟩ := fAtm_at h R hR hh h0
  have he := fun i => (replication_mean mu hint h (L i) R (U i) (hL i) (hLR i) (hRU i) hh h0)
  rw [show (fun i => (∫ u in R..U i, deriv (deriv (fun s => fAtm h s R)) u * ∫ s, max (s - u) 0 ∂mu) +
      ∫ u in L i..R, deriv (deriv (fun s => fAtm h s R)) u * ∫ s, max (u - s) 0 ∂mu) =
      fun i => ∫ s, tangentExtension (fun s => fAtm h s R) (deriv fun s => fAtm h s R) (L i) (U i) s ∂mu from funext fun i => (he i).2]
  apply tendsto_integral_of_dominated_convergence (fun s => M * ((1 + |R|) * |R| + (1 + |R| + |R|) * |s| + s ^ 2))
  · exact fun i => (he i).1.aestronglyMeasurable
  · exact (((integrable_const _).add (hint.abs.const_mul _)).add hsq).const_mul _
  · intro i
    refine Eventually.of_forall fun s => ?_
    rw [Real.norm_eq_abs]
    refine (tangentExtension_bound _ _ M (L i) R (U i) s (hL i) (hLR i) (hRU i) d1 hM hb z1).trans ?_
    rw [mul_assoc]
    refine mul_le_mul_of_nonneg_left ?_ hM
    have h1 : |s - R| ≤ |s| + |R| := abs_sub _ _
    have h2 := mul_le_mul_of_nonneg_left h1 (show 0 ≤ 1 + |R| + |s| by positivity)
    have h3 : |s| * |s| = s ^ 2 := by rw [← sq, sq_abs]
    nlinarith
  · filter_upwards [hpos] with s hs
    apply tendsto_const_nhds.congr'
    filter_upwards [hl.eventually_le_const hs, hu.eventually_ge_atTop s] with i a b
    rw [tangentExtension_inside _ _ _ _ _ ⟨a, b⟩]

/-- C129: the weight of the code satisfies the hypotheses of these theorems. -/
theorem C129_weight (tau periods delta : ℝ) (ht : 0 < tau) (hp : 0 < periods) :
    ContDiffOn ℝ 2 (cmsFs tau periods delta) (Ioi 0) ∧ ∀ s, 0 < s → cmsFs tau periods delta s ≠ 0 :=
  ⟨(cmsFs_smooth tau periods delta ht hp).1, fun s hs => ((cmsFs_smooth tau periods delta ht hp).2 s hs).ne'⟩

/-- C129: in the normal model rates below the least strike are possible; the replication leaves out the options for them, so that with an affine weight
that rises the rate is too small even with many points. -/
theorem C129_low_strikes_deviates {n : Nat} (a b vol : ℝ) (expiries rates : Fin n → ℝ) (k : Fin n) (hr : 1 / 1000000 ≤ rates k) (hv : 0 < vol)
    (he : 0 < expiries k) (hb : 0 < b) (h0 : 0 < a + b * rates k) :
    ∃ δ > 0, ∃ N, ∀ m ≥ N, m % 2 = 1 → ∃ v, cmsReplication (fun s => a + b * s) true vol expiries rates k m = .ok (some v) ∧
      v ≤ cmsRate (normalExpectation (rates k) (vol * Real.sqrt (expiries k))) (fun s => a + b * s) - δ := by
  set R := rates k with hRd
  have hR : 0 < R := lt_of_lt_of_le (by norm_num) hr
  have hsd : 0 < vol * Real.sqrt (expiries k) := mul_pos hv (Real.sqrt_pos.2 he)
  set s0 := vol * Real.sqrt (expiries k) with hs0
  obtain ⟨hprob, hint, hmean⟩ := rateLaw_facts true R s0 hR
  have hlaw : rateLaw true R s0 = gaussianReal R (Real.toNNReal (s0 ^ 2)) := rfl
  have hsm : ContDiffOn ℝ 2 (fun s : ℝ => a + b * s) (Ioi 0) := (contDiff_const.add (contDiff_const.mul contDiff_id)).contDiffOn
  have hsq : Integrable (fun s : ℝ => s ^ 2) (rateLaw true R s0) := (memLp_id_gaussianReal (μ := R) (v := Real.toNNReal (s0 ^ 2)) 2).integrable_sq
  have hi1 : Integrable (fun s : ℝ => a + b * s) (rateLaw true R s0) := (integrable_const _).add (hint.const_mul _)
  have hi2 : Integrable (fun s : ℝ => s * (a + b * s)) (rateLaw true R s0) := by
    refine ((hint.const_mul a).add (hsq.const_mul b)).congr (Eventually.of_forall fun s => ?_)
    simp only [Pi.add_apply]
    ring
  obtain ⟨hg, -, hrate⟩ := C129_covariance (rateLaw true R s0) (fun s => a + b * s) R hint hi1 hi2 hmean h0.ne'
  have hw : ∫ s, (a + b * s) ∂(rateLaw true R s0) = a + b * R := by
    rw [integral_add (integrable_const _) (hint.const_mul _), integral_const_mul, hmean]
    simp
  have hrate := hrate hw
  obtain ⟨ht, -⟩ := replication_mean (rateLaw true R s0) hint (fun s => a + b * s) (1 / 1000000) R (2000 * R) (by norm_num) hr (by linarith) hsm h0.ne'
  -- the difference of the two payoffs
  have hfun : (fun s => fAtm (fun s => a + b * s) s R) = fun s => b / (a + b * R) * (s - R) ^ 2 := by
    funext s
    unfold fAtm
    beta_reduce
    rw [div_sub_one h0.ne']
    ring
  have hder : deriv (fun s => fAtm (fun s => a + b * s) s R) = fun s => b / (a + b * R) * (2 * (s - R)) := by
    rw [hfun]
    funext s
    have : HasDerivAt (fun s : ℝ => b / (a + b * R) * (s - R) ^ 2) (b / (a + b * R) * (2 * (s - R))) s := by
      refine ((((hasDerivAt_id s).sub_const R).pow 2).const_mul (b / (a + b * R))).congr_deriv ?_
      simp
    exact this.deriv
  have hq : 0 < b / (a + b * R) := div_pos hb h0
  have hdiff : ∀ s, fAtm (fun s => a + b * s) s R - tangentExtension (fun s => fAtm (fun s => a + b * s) s R)
      (deriv fun s => fAtm (fun s => a + b * s) s R) (1 / 1000000) (2000 * R) s =
      b / (a + b * R) * (s - max (1 / 1000000) (min (2000 * R) s)) ^ 2 := by
    intro s
    rw [show fAtm (fun s => a + b * s) s R = b / (a + b * R) * (s - R) ^ 2 from congrFun hfun s, tangentExtension, hder]
    rw [show fAtm (fun s => a + b * s) (max (1 / 1000000) (min (2000 * R) s)) R = _ from congrFun hfun _]
    ring
  have hpos : 0 < ∫ s, (fAtm (fun s => a + b * s) s R - tangentExtension (fun s => fAtm (fun s => a + b * s) s R)
      (deriv fun s => fAtm (fun s => a + b * s) s R) (1 / 1000000) (2000 * R) s) ∂(rateLaw true R s0) := by
    rw [integral_pos_iff_support_of_nonneg]
    · have hsub : Iio (0 : ℝ) ⊆ Function.support (fun s => fAtm (fun s => a + b * s) s R - tangentExtension (fun s => fAtm (fun s => a + b * s) s R)
          (deriv fun s => fAtm (fun s => a + b * s) s R) (1 / 1000000) (2000 * R) s) := by
        intro s hs
        have hs' : s < 0 := hs
        rw [Function.mem_support, hdiff]
        refine (mul_pos hq (sq_pos_of_neg ?_)).ne'
        have := le_max_left (1 / 1000000 : ℝ) (min (2000 * R) s)
        linarith
      refine lt_of_lt_of_le ?_ (measure_mono hsub)
      rw [hlaw, pos_iff_ne_zero]
      intro hz
      have := (gaussianReal_absolutelyContinuous' R (v := Real.toNNReal (s0 ^ 2)) (by
        rw [Ne, Real.toNNReal_eq_zero, not_le]; positivity)) hz
      rw [Real.volume_Iio] at this
      exact absurd this (by simp)
    · intro s
      rw [Pi.zero_apply]
      beta_reduce
      rw [hdiff]
      positivity
    · exact hg.sub ht
  rw [integral_sub hg ht] at hpos
  obtain ⟨N, hN⟩ := C129_points (fun s => a + b * s) true vol expiries rates k hr hv he hsm h0.ne' _ (half_pos hpos)
  refine ⟨_, half_pos hpos, N, fun m hm hodd => ?_⟩
  obtain ⟨v, h1, h2⟩ := hN m hm hodd
  refine ⟨v, h1, ?_⟩
  have hr2 : cmsRate (normalExpectation R s0) (fun s => a + b * s) = cmsRate (fun f => ∫ s, f s ∂(rateLaw true R s0)) (fun s => a + b * s) := rfl
  rw [hr2, ← hrate]
  have := (abs_le.1 h2).2
  rw [← hRd, ← hs0] at this
  linarith

/-- The weight for a coupon of one year on a ten year swap with yearly payments, at a rate of 5 %. -/
example (ε : ℝ) (hε : 0 < ε) : ∃ N, ∀ m ≥ N, m % 2 = 1 → ∃ v, cmsReplication (n := 1) (cmsFs 1 10 1) false (1 / 5) (fun _ => 2) (fun _ => 1 / 20) 0 m =
    .ok (some v) ∧ |v - (1 / 20 + ∫ s, tangentExtension (fun s => fAtm (cmsFs 1 10 1) s (1 / 20)) (deriv fun s => fAtm (cmsFs 1 10 1) s (1 / 20))
      (1 / 1000000) (2000 * (1 / 20)) s ∂(rateLaw false (1 / 20) (1 / 5 * Real.sqrt 2)))| ≤ ε :=
  C129_points (n := 1) (cmsFs 1 10 1) false (1 / 5) (fun _ => 2) (fun _ => 1 / 20) 0 (by norm_num) (by norm_num) (by norm_num)
    (C129_weight 1 10 1 (by norm_num) (by norm_num)).1 ((C129_weight 1 10 1 (by norm_num) (by norm_num)).2 _ (by norm_num)) ε hε

/-- Two rates with equal chances and the weight `1 + 2 s`: the adjustment is the covariance over the weight. -/
example : (1 / 20 : ℝ) + ((1 / 50 * (1 + 2 * (1 / 50)) + 2 / 25 * (1 + 2 * (2 / 25))) / 2 - 1 / 20 * (1 + 2 * (1 / 20))) / (1 + 2 * (1 / 20)) =
    (1 / 50 * (1 + 2 * (1 / 50)) + 2 / 25 * (1 + 2 * (2 / 25))) / ((1 + 2 * (1 / 50)) + (1 + 2 * (2 / 25))) := by
  norm_num

end Props
