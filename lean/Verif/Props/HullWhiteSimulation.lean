import Verif.Props.HullWhiteOptions
import Verif.Props.MonteCarloLimit
import Verif.Props.HjmOptions
import Verif.Model.HullWhiteSimulation
import Mathlib.MeasureTheory.Measure.Tilted
import Mathlib.MeasureTheory.Integral.IntervalIntegral.FundThmCalculus
import Mathlib.Analysis.SpecialFunctions.Trigonometric.DerivHyp

/-! # C131: simulated Hull-White prices of options on bonds converge to the analytic prices -/

namespace Spec

/-- Covariance of the states at the times `u` and `v`. -/
noncomputable def timeCovariance (k : ℝ) (sigma : ℝ → ℝ) (u v : ℝ) : ℝ := Real.exp (-k * |v - u|) * convexity k sigma (min u v)

end Spec

namespace Lemmas
open Model Spec MeasureTheory ProbabilityTheory Filter Topology

/-! ## Joint law of the sampled rates -/

section
variable (m : HullWhite) (hm : HullWhiteOk m)

/-- The weight of a draw in a later state. -/
noncomputable def stateWeight (us : List ℝ) (i k : Nat) : ℝ :=
  Real.exp (-m.meanReversion * (us.getD i 0 - us.getD (k + 1) 0)) * Real.sqrt (m.conditionalVariance (us.getD k 0) (us.getD (k + 1) 0))

include hm

theorem states_explicit (ts : List ℝ) (t : ℝ) (ht : 0 ≤ t) (hs : (t :: ts).Pairwise (· ≤ ·)) (i : Nat) (hi : i ≤ ts.length) (x : ℝ) (zs : List ℝ)
    (hz : zs.length = ts.length) :
    (m.states t x ts zs)[i]? = some (Real.exp (-m.meanReversion * ((t :: ts).getD i 0 - t)) * x +
        m.conditionalMean t ((t :: ts).getD i 0) + ∑ k ∈ Finset.range i, stateWeight m (t :: ts) i k * zs.getD k 0) := by
  induction ts generalizing t i x zs with
  | nil =>
    have h0 : i = 0 := by simpa using hi
    subst h0
    cases zs <;> simp [HullWhite.states, HullWhite.conditionalMean]
  | cons t' ts ih =>
    have htt' : t ≤ t' := (List.pairwise_cons.1 hs).1 t' (by simp)
    cases zs with
    | nil => simp at hz
    | cons z zs =>
      cases i with
      | zero => simp [HullWhite.states, HullWhite.conditionalMean]
      | succ i =>
        unfold HullWhite.states
        rw [List.getElem?_cons_succ, ih t' (ht.trans htt') (List.pairwise_cons.1 hs).2 i (by simpa using hi) _ zs (by simpa using hz),
          nextState_eq m hm t t' x z ht htt', Finset.sum_range_succ', List.getD_cons_succ]
        set u := (t' :: ts).getD i 0 with hu
        have e : Real.exp (-m.meanReversion * (u - t)) = Real.exp (-m.meanReversion * (u - t')) * Real.exp (-m.meanReversion * (t' - t)) := by
          rw [← Real.exp_add]; congr 1; ring
        rw [e, conditionalMean_add m t t' u]
        have e0 : stateWeight m (t :: t' :: ts) (i + 1) 0 = Real.exp (-m.meanReversion * (u - t')) * Real.sqrt (m.conditionalVariance t t') := by
          unfold stateWeight
          rw [List.getD_cons_succ, List.getD_cons_succ, List.getD_cons_zero, List.getD_cons_zero]
        have e1 : ∀ k, stateWeight m (t :: t' :: ts) (i + 1) (k + 1) = stateWeight m (t' :: ts) i k := by
          intro k
          unfold stateWeight
          simp only [List.getD_cons_succ]
        simp only [e0, e1, List.getD_cons_succ, List.getD_cons_zero]
        congr 1
        ring

/-- The squared weights sum to the variance. -/
theorem stateWeight_sum (us : List ℝ) (hs : us.Pairwise (· ≤ ·)) (h0 : us.getD 0 0 = 0) (i : Nat) (hi : i < us.length) :
    ∑ k ∈ Finset.range i, stateWeight m us i k ^ 2 = m.conditionalVariance 0 (us.getD i 0) := by
  have hnn : ∀ k < us.length, 0 ≤ us.getD k 0 := by
    intro k hk
    have := getD_mono _ hs 0 k (Nat.zero_le _) hk
    rwa [h0] at this
  induction i with
  | zero => rw [h0]; simp [HullWhite.conditionalVariance]
  | succ i ih =>
    have hle : us.getD i 0 ≤ us.getD (i + 1) 0 := getD_mono _ hs i (i + 1) (by omega) hi
    have hv := conditionalVariance_nonneg m hm _ _ (hnn i (by omega)) hle
    rw [Finset.sum_range_succ, conditionalVariance_add m 0 (us.getD i 0) (us.getD (i + 1) 0), ← ih (by omega), Finset.mul_sum]
    congr 1
    · refine Finset.sum_congr rfl fun k _ => ?_
      unfold stateWeight
      rw [← mul_pow, ← mul_assoc, ← Real.exp_add]
      congr 3
      ring
    · unfold stateWeight
      rw [sub_self, mul_zero, Real.exp_zero, one_mul, Real.sq_sqrt hv]

/-- The joint law of the sampled rates. -/
theorem samplePath_joint (times : List ℝ) (hs : times.Pairwise (· < ·)) (h0 : ∀ t ∈ times, 0 ≤ t) :
    ∃ w : ℕ → Fin (times.length + m.volJumps.length) → ℝ,
      (∀ j < times.length, ∀ l < times.length, ∑ k, w j k * w l k = timeCovariance m.meanReversion m.volatility (times.getD j 0) (times.getD l 0)) ∧
      ∀ j < times.length, ∀ z : Fin (times.length + m.volJumps.length) → ℝ, (m.samplePath times (List.ofFn z))[j]? =
        some (some (stateMean m.meanReversion m.volatility 0 (times.getD j 0) + ∑ k, w j k * z k + m.instantForwardRate (times.getD j 0))) := by
  obtain ⟨gs, hsort, hgs, hpos⟩ := samplePath_states m hm times hs h0
  set us := (0 : ℝ) :: gs with hus
  have husl : us.length = gs.length + 1 := by simp [hus]
  set pos := fun j => searchLeft us (times.getD j 0) with hposd
  have key : ∀ (i : Nat) (g : ℕ → ℝ), i ≤ gs.length → ∑ k : Fin (times.length + m.volJumps.length), (if k.1 < i then g k.1 else 0) = ∑ k ∈ Finset.range i, g k := by
    intro i g hi
    rw [Fin.sum_univ_eq_sum_range (fun k => if k < i then g k else 0) (times.length + m.volJumps.length), ← Finset.sum_filter]
    congr 1
    ext k
    simp only [Finset.mem_filter, Finset.mem_range]
    omega
  have hmem : ∀ j < times.length, 0 ≤ times.getD j 0 := fun j hj => h0 _ (List.mem_of_getElem? (getD_some times j hj))
  refine ⟨fun j k => if k.1 < pos j then stateWeight m us (pos j) k.1 else 0, ?_, ?_⟩
  · have hcov : ∀ j < times.length, ∀ l < times.length, times.getD j 0 ≤ times.getD l 0 →
        ∑ k : Fin (times.length + m.volJumps.length), (if k.1 < pos j then stateWeight m us (pos j) k.1 else 0) * (if k.1 < pos l then stateWeight m us (pos l) k.1 else 0) =
          timeCovariance m.meanReversion m.volatility (times.getD j 0) (times.getD l 0) := by
      intro j hj l hl hjl
      obtain ⟨a1, a2, -⟩ := hpos j hj
      obtain ⟨b1, b2, -⟩ := hpos l hl
      have hpl : pos j ≤ pos l := by
        rcases eq_or_lt_of_le hjl with h | h
        · exact (congrArg (searchLeft us) h).le
        · by_contra hc
          have := getD_mono us hsort (pos l) (pos j) (by omega) (by rw [husl]; change searchLeft us _ < _; omega)
          rw [a2, b2] at this
          linarith
      have e : ∀ k : Fin (times.length + m.volJumps.length), (if k.1 < pos j then stateWeight m us (pos j) k.1 else 0) * (if k.1 < pos l then stateWeight m us (pos l) k.1 else 0) =
          if k.1 < pos j then Real.exp (-m.meanReversion * (times.getD l 0 - times.getD j 0)) * stateWeight m us (pos j) k.1 ^ 2 else 0 := by
        intro k
        by_cases h : k.1 < pos j
        · rw [if_pos h, if_pos h, if_pos (by omega)]
          unfold stateWeight
          have a2' : us.getD (pos j) 0 = times.getD j 0 := a2
          have b2' : us.getD (pos l) 0 = times.getD l 0 := b2
          rw [a2', b2']
          have e3 : Real.exp (-m.meanReversion * (times.getD l 0 - us.getD (k.1 + 1) 0)) =
              Real.exp (-m.meanReversion * (times.getD l 0 - times.getD j 0)) * Real.exp (-m.meanReversion * (times.getD j 0 - us.getD (k.1 + 1) 0)) := by
            rw [← Real.exp_add]; congr 1; ring
          rw [e3]
          ring
        · rw [if_neg h, if_neg h, zero_mul]
      simp_rw [e]
      rw [key (pos j) (fun k => Real.exp (-m.meanReversion * (times.getD l 0 - times.getD j 0)) * stateWeight m us (pos j) k ^ 2) a1, ← Finset.mul_sum,
        stateWeight_sum m hm us hsort (by simp [hus]) (pos j) (by rw [husl]; change searchLeft us _ < _; omega)]
      unfold timeCovariance convexity
      rw [abs_of_nonneg (by linarith), min_eq_left hjl]
      have a2' : us.getD (pos j) 0 = times.getD j 0 := a2
      rw [a2', conditionalVariance_eq m hm 0 _ le_rfl (hmem j hj)]
    intro j hj l hl
    rcases le_total (times.getD j 0) (times.getD l 0) with h | h
    · exact hcov j hj l hl h
    · have := hcov l hl j hj h
      simp_rw [mul_comm] at this ⊢
      rw [this]
      unfold timeCovariance
      rw [abs_sub_comm, min_comm, mul_comm]
  · intro j hj z
    obtain ⟨a1, a2, a3⟩ := hpos j hj
    refine a3 (List.ofFn z) _ (by simp) ?_
    rw [states_explicit m hm gs 0 le_rfl hsort _ a1 0 (List.ofFn z) (by simp [hgs]), mul_zero, zero_add, a2, conditionalMean_eq m hm 0 _ le_rfl (hmem j hj)]
    congr 2
    rw [← key (pos j) _ a1]
    refine Finset.sum_congr rfl fun k _ => ?_
    beta_reduce
    have hz : (List.ofFn z).getD k.1 0 = z k := by
      rw [List.getD_eq_getElem _ _ (by rw [List.length_ofFn]; exact k.2), List.getElem_ofFn]
    by_cases h : k.1 < pos j
    · rw [if_pos h, if_pos h, hz]
    · rw [if_neg h, if_neg h, zero_mul]

end

/-! ## Change of measure for normal numbers -/

/-- The law of a linear combination of normal numbers under the change of measure by the exponential of another. -/
theorem pi_tilted_law {n : ℕ} (c : Fin n → ℝ) (b : ℝ) (w : Fin n → ℝ) :
    Integrable (fun z : Fin n → ℝ => Real.exp (-∑ i, c i * z i)) (Measure.pi fun _ : Fin n => gaussianReal 0 1) ∧
    ∫ z : Fin n → ℝ, Real.exp (-∑ i, c i * z i) ∂(Measure.pi fun _ : Fin n => gaussianReal 0 1) = Real.exp ((∑ i, c i ^ 2) / 2) ∧
    ((Measure.pi fun _ : Fin n => gaussianReal 0 1).tilted (fun z => -∑ i, c i * z i)).map (fun z => b + ∑ i, w i * z i) =
      gaussianReal (b - ∑ i, c i * w i) (Real.toNNReal (∑ i, w i ^ 2)) := by
  have hlaw : (Measure.pi fun _ : Fin n => gaussianReal 0 1).map (fun z => 0 + ∑ i, (-c i) * z i) = gaussianReal 0 (Real.toNNReal (∑ i, c i ^ 2)) := by
    rw [pi_linear_law 0 (fun i => -c i)]
    simp only [neg_sq]
  have hm0 : Measurable (fun z : Fin n → ℝ => 0 + ∑ i, (-c i) * z i) := by fun_prop
  have e0 : ∀ z : Fin n → ℝ, -∑ i, c i * z i = 0 + ∑ i, (-c i) * z i := by
    intro z; simp
  have hint : Integrable (fun z : Fin n → ℝ => Real.exp (-∑ i, c i * z i)) (Measure.pi fun _ : Fin n => gaussianReal 0 1) := by
    have h := integrable_exp_mul_gaussianReal (μ := 0) (v := Real.toNNReal (∑ i, c i ^ 2)) 1
    rw [← hlaw, integrable_map_measure (by fun_prop) hm0.aemeasurable] at h
    refine h.congr (Eventually.of_forall fun z => ?_)
    simp only [Function.comp, one_mul, e0]
  have hval : ∫ z : Fin n → ℝ, Real.exp (-∑ i, c i * z i) ∂(Measure.pi fun _ : Fin n => gaussianReal 0 1) = Real.exp ((∑ i, c i ^ 2) / 2) := by
    have h := mgf_gaussianReal (μ := 0) (v := Real.toNNReal (∑ i, c i ^ 2)) (p := gaussianReal 0 (Real.toNNReal (∑ i, c i ^ 2))) (X := id) (by simp) 1
    unfold mgf at h
    rw [← hlaw, integral_map hm0.aemeasurable (by fun_prop)] at h
    simp_rw [e0]
    simp only [id, one_mul] at h
    rw [h, Real.coe_toNNReal _ (Finset.sum_nonneg fun i _ => sq_nonneg _)]
    congr 1
    ring
  refine ⟨hint, hval, ?_⟩
  have hmeas : Measurable (fun z : Fin n → ℝ => b + ∑ i, w i * z i) := by fun_prop
  have hp1 : IsProbabilityMeasure ((Measure.pi fun _ : Fin n => gaussianReal 0 1).tilted (fun z => -∑ i, c i * z i)) := isProbabilityMeasure_tilted hint
  have hprob : IsProbabilityMeasure (((Measure.pi fun _ : Fin n => gaussianReal 0 1).tilted (fun z => -∑ i, c i * z i)).map (fun z => b + ∑ i, w i * z i)) :=
    Measure.isProbabilityMeasure_map hmeas.aemeasurable
  refine Measure.ext_of_charFun ?_
  ext t
  rw [charFun_gaussianReal, charFun_apply_real, integral_map hmeas.aemeasurable (Continuous.aestronglyMeasurable (by fun_prop)), integral_tilted, hval]
  have e : ∀ z : Fin n → ℝ, (Real.exp (-∑ i, c i * z i) / Real.exp ((∑ i, c i ^ 2) / 2)) • Complex.exp (t * (b + ∑ i, w i * z i : ℝ) * Complex.I) =
      (Complex.exp (t * b * Complex.I) * Complex.exp (-((∑ i, c i ^ 2) / 2 : ℝ))) * ∏ i, Complex.exp ((-c i + t * w i * Complex.I) * (z i : ℝ)) := by
    intro z
    rw [← Complex.exp_sum, ← Complex.exp_add, ← Complex.exp_add, ← Real.exp_sub, Complex.real_smul, Complex.ofReal_exp, ← Complex.exp_add]
    congr 1
    push_cast
    have : ∑ i, (-(c i : ℂ) + t * w i * Complex.I) * (z i : ℂ) = -∑ i, (c i : ℂ) * z i + t * (∑ i, (w i : ℂ) * z i) * Complex.I := by
      rw [Finset.mul_sum, Finset.sum_mul, ← Finset.sum_neg_distrib, ← Finset.sum_add_distrib]
      exact Finset.sum_congr rfl fun i _ => by ring
    rw [this]
    ring
  simp_rw [e]
  rw [integral_const_mul, integral_fintype_prod_eq_prod (μ := fun _ : Fin n => gaussianReal 0 1) (f := fun i (x : ℝ) => Complex.exp ((-c i + t * w i * Complex.I) * (x : ℝ)))]
  have e2 : ∀ i, ∫ x : ℝ, Complex.exp ((-c i + t * w i * Complex.I) * (x : ℝ)) ∂(gaussianReal 0 1) = Complex.exp ((-c i + t * w i * Complex.I) ^ 2 / 2) := by
    intro i
    have h := complexMGF_id_gaussianReal (μ := 0) (v := 1) (-c i + t * w i * Complex.I)
    unfold complexMGF at h
    simp only [id] at h
    rw [h]
    congr 1
    simp
  simp_rw [e2]
  rw [← Complex.exp_sum, ← Complex.exp_add, ← Complex.exp_add, Real.coe_toNNReal _ (Finset.sum_nonneg fun i _ => sq_nonneg _)]
  congr 1
  push_cast
  have h1 : ∑ i, (-(c i : ℂ) + t * w i * Complex.I) ^ 2 / 2 = (∑ i, (c i : ℂ) ^ 2) / 2 - t * (∑ i, (c i : ℂ) * w i) * Complex.I - (∑ i, (w i : ℂ) ^ 2) * t ^ 2 / 2 := by
    rw [Finset.mul_sum, Finset.sum_mul, Finset.sum_mul, Finset.sum_div, Finset.sum_div, ← Finset.sum_sub_distrib, ← Finset.sum_sub_distrib]
    refine Finset.sum_congr rfl fun i _ => ?_
    have := Complex.I_sq
    linear_combination (t ^ 2 * (w i : ℂ) ^ 2 / 2) * this
  rw [h1]
  ring

/-- The expectation of a function of a normal number weighted by the exponential of another. -/
theorem pi_tilted_expectation {n : ℕ} (a : ℝ) (c : Fin n → ℝ) (b : ℝ) (w : Fin n → ℝ) (f : ℝ → ℝ) (hf : Measurable f) :
    ∫ z : Fin n → ℝ, Real.exp (-(a + ∑ i, c i * z i)) * f (b + ∑ i, w i * z i) ∂(Measure.pi fun _ : Fin n => gaussianReal 0 1) =
      Real.exp (-a + (∑ i, c i ^ 2) / 2) * normalExpectation (b - ∑ i, c i * w i) (Real.sqrt (∑ i, w i ^ 2)) f ∧
    (Integrable f (gaussianReal (b - ∑ i, c i * w i) (Real.toNNReal (∑ i, w i ^ 2))) →
      Integrable (fun z : Fin n → ℝ => Real.exp (-(a + ∑ i, c i * z i)) * f (b + ∑ i, w i * z i)) (Measure.pi fun _ : Fin n => gaussianReal 0 1)) := by
  obtain ⟨h1, h2, h3⟩ := pi_tilted_law c b w
  have hmeas : Measurable (fun z : Fin n → ℝ => b + ∑ i, w i * z i) := by fun_prop
  have hw : 0 ≤ ∑ i, w i ^ 2 := Finset.sum_nonneg fun i _ => sq_nonneg _
  have e : ∀ z : Fin n → ℝ, Real.exp (-(a + ∑ i, c i * z i)) * f (b + ∑ i, w i * z i) = Real.exp (-a) * (Real.exp (-∑ i, c i * z i) * f (b + ∑ i, w i * z i)) := by
    intro z
    rw [neg_add, Real.exp_add]; ring
  simp_rw [e]
  constructor
  · unfold normalExpectation
    rw [Real.sq_sqrt hw, ← h3, integral_map hmeas.aemeasurable hf.aestronglyMeasurable, integral_tilted, h2, integral_const_mul, Real.exp_add, mul_assoc]
    have hq := (Real.exp_pos ((∑ i, c i ^ 2) / 2)).ne'
    have e3 : ∀ z : Fin n → ℝ, (Real.exp (-∑ i, c i * z i) / Real.exp ((∑ i, c i ^ 2) / 2)) • f (b + ∑ i, w i * z i) =
        (Real.exp ((∑ i, c i ^ 2) / 2))⁻¹ * (Real.exp (-∑ i, c i * z i) * f (b + ∑ i, w i * z i)) := by
      intro z
      rw [smul_eq_mul, div_eq_mul_inv]; ring
    simp_rw [e3]
    rw [integral_const_mul, mul_inv_cancel_left₀ hq]
  · intro hi
    rw [← h3, integrable_map_measure hf.aestronglyMeasurable hmeas.aemeasurable, integrable_tilted_iff h1] at hi
    exact Integrable.const_mul (hi.congr (Eventually.of_forall fun z => by simp only [Function.comp, smul_eq_mul])) (Real.exp (-a))

/-! ## Riemann sums -/

/-- A grid whose first point and whose steps are at most `δ`. -/
structure FineGrid (δ : ℝ) (t : ℕ → ℝ) (n : ℕ) : Prop where
  nonneg : 0 ≤ t 0
  first : t 0 ≤ δ
  mono : ∀ j < n, t j ≤ t (j + 1)
  step : ∀ j < n, t (j + 1) - t j ≤ δ

theorem FineGrid.take {δ : ℝ} {t : ℕ → ℝ} {n : ℕ} (h : FineGrid δ t n) (l : ℕ) (hl : l ≤ n) : FineGrid δ t l :=
  ⟨h.nonneg, h.first, fun j hj => h.mono j (by omega), fun j hj => h.step j (by omega)⟩

theorem FineGrid.relax {δ δ' : ℝ} {t : ℕ → ℝ} {n : ℕ} (h : FineGrid δ t n) (hd : δ ≤ δ') : FineGrid δ' t n :=
  ⟨h.nonneg, h.first.trans hd, h.mono, fun j hj => (h.step j hj).trans hd⟩

theorem FineGrid.le {δ : ℝ} {t : ℕ → ℝ} {n : ℕ} (h : FineGrid δ t n) (l : ℕ) (hl : l ≤ n) : t l ≤ t n := by
  induction n with
  | zero => rw [Nat.le_zero.1 hl]
  | succ n ih =>
    rcases Nat.lt_or_ge n l with hc | hc
    · rw [show l = n + 1 by omega]
    · exact (ih (h.take n (by omega)) hc).trans (h.mono n (by omega))

theorem FineGrid.pos {δ : ℝ} {t : ℕ → ℝ} {n : ℕ} (h : FineGrid δ t n) (l : ℕ) (hl : l ≤ n) : 0 ≤ t l :=
  h.nonneg.trans ((h.take l hl).le 0 (Nat.zero_le l))

theorem FineGrid.sum_steps {t : ℕ → ℝ} (n : ℕ) : ∑ j ∈ Finset.range n, (t (j + 1) - t j) = t n - t 0 := Finset.sum_range_sub t n

/-- Sums with the values at the right ends converge to the integral, also up to the points of the grid. -/
theorem riemann_right (T : ℝ) (hT : 0 ≤ T) (q : ℝ → ℝ) (hq : ContinuousOn q (Set.Icc 0 T)) (ε : ℝ) (hε : 0 < ε) :
    ∃ δ > 0, ∀ (t : ℕ → ℝ) (n : ℕ), FineGrid δ t n → t n ≤ T → |∑ j ∈ Finset.range n, q (t (j + 1)) * (t (j + 1) - t j) - ∫ s in (0 : ℝ)..(t n), q s| ≤ ε := by
  obtain ⟨M, hM⟩ := isCompact_Icc.exists_bound_of_continuousOn hq
  have hM0 : 0 ≤ M := (norm_nonneg _).trans (hM 0 ⟨le_rfl, hT⟩)
  have huc := isCompact_Icc.uniformContinuousOn_of_continuous hq
  rw [Metric.uniformContinuousOn_iff] at huc
  obtain ⟨δ₁, hδ₁, huc⟩ := huc (ε / (2 * (T + 1))) (by positivity)
  refine ⟨min (δ₁ / 2) (ε / (2 * (M + 1))), lt_min (by linarith) (by positivity), fun t n hg hn => ?_⟩
  have hint : ∀ a b : ℝ, 0 ≤ a → a ≤ b → b ≤ T → IntervalIntegrable q volume a b := fun a b ha hab hb =>
    (hq.mono (by rw [Set.uIcc_of_le hab]; exact Set.Icc_subset_Icc ha hb)).intervalIntegrable
  have main : ∀ l ≤ n, |∑ j ∈ Finset.range l, q (t (j + 1)) * (t (j + 1) - t j) - ∫ s in (0 : ℝ)..(t l), q s| ≤ M * t 0 + ε / (2 * (T + 1)) * (t l - t 0) := by
    intro l
    induction l with
    | zero =>
      intro _
      have h0T : t 0 ≤ T := (hg.le 0 (Nat.zero_le n)).trans hn
      have := intervalIntegral.norm_integral_le_of_norm_le_const (a := 0) (b := t 0) (f := q) (C := M) (by
        intro s hs
        rw [Set.uIoc_of_le hg.nonneg] at hs
        exact hM s ⟨hs.1.le, hs.2.trans h0T⟩)
      rw [Real.norm_eq_abs, sub_zero, abs_of_nonneg hg.nonneg] at this
      simpa using this
    | succ l ih =>
      intro hl
      have h1 := ih (by omega)
      have hlT : t (l + 1) ≤ T := (hg.le (l + 1) hl).trans hn
      have hl0 := hg.pos l (by omega)
      have hll := hg.mono l (by omega)
      have hstep := hg.step l (by omega)
      have e1 : ∫ s in (0 : ℝ)..(t (l + 1)), q s = (∫ s in (0 : ℝ)..(t l), q s) + ∫ s in (t l)..(t (l + 1)), q s :=
        (intervalIntegral.integral_add_adjacent_intervals (hint 0 (t l) le_rfl hl0 (hll.trans hlT)) (hint (t l) (t (l + 1)) hl0 hll hlT)).symm
      have e2 : q (t (l + 1)) * (t (l + 1) - t l) - ∫ s in (t l)..(t (l + 1)), q s = ∫ s in (t l)..(t (l + 1)), (q (t (l + 1)) - q s) := by
        rw [intervalIntegral.integral_sub (by simp) (hint (t l) (t (l + 1)) hl0 hll hlT), intervalIntegral.integral_const, smul_eq_mul]
        ring
      have h2 : |∫ s in (t l)..(t (l + 1)), (q (t (l + 1)) - q s)| ≤ ε / (2 * (T + 1)) * (t (l + 1) - t l) := by
        have := intervalIntegral.norm_integral_le_of_norm_le_const (a := t l) (b := t (l + 1)) (f := fun s => q (t (l + 1)) - q s) (C := ε / (2 * (T + 1))) (by
          intro s hs
          rw [Set.uIoc_of_le hll] at hs
          have := huc (t (l + 1)) ⟨hl0.trans hll, hlT⟩ s ⟨hl0.trans hs.1.le, hs.2.trans hlT⟩ (by
            rw [Real.dist_eq, abs_of_nonneg (by linarith [hs.2])]
            have := min_le_left (δ₁ / 2) (ε / (2 * (M + 1)))
            linarith [hs.1])
          rw [Real.dist_eq] at this
          exact this.le)
        rw [Real.norm_eq_abs, abs_of_nonneg (a := t (l + 1) - t l) (by linarith)] at this
        exact this
      rw [Finset.sum_range_succ, e1]
      calc |∑ j ∈ Finset.range l, q (t (j + 1)) * (t (j + 1) - t j) + q (t (l + 1)) * (t (l + 1) - t l) - ((∫ s in (0 : ℝ)..(t l), q s) + ∫ s in (t l)..(t (l + 1)), q s)|
          = |(∑ j ∈ Finset.range l, q (t (j + 1)) * (t (j + 1) - t j) - ∫ s in (0 : ℝ)..(t l), q s) + ∫ s in (t l)..(t (l + 1)), (q (t (l + 1)) - q s)| := by
            rw [← e2]; congr 1; ring
        _ ≤ _ := (abs_add_le _ _).trans (add_le_add h1 h2)
        _ = _ := by ring
  refine (main n le_rfl).trans ?_
  have h1 : M * t 0 ≤ ε / 2 := by
    have := hg.first.trans (min_le_right _ _)
    rw [le_div_iff₀ (by positivity)] at this
    nlinarith [hg.nonneg]
  have h2 : ε / (2 * (T + 1)) * (t n - t 0) ≤ ε / 2 := by
    rw [div_mul_eq_mul_div, div_le_iff₀ (by positivity)]
    nlinarith [hg.nonneg]
  linarith

/-- A symmetric double sum. -/
theorem sum_symmetric (a : ℕ → ℕ → ℝ) (h : ∀ i j, a i j = a j i) (n : ℕ) :
    ∑ j ∈ Finset.range n, ∑ l ∈ Finset.range n, a j l = 2 * ∑ l ∈ Finset.range n, ∑ j ∈ Finset.range (l + 1), a j l - ∑ l ∈ Finset.range n, a l l := by
  induction n with
  | zero => simp
  | succ n ih =>
    have e : ∑ j ∈ Finset.range n, ∑ l ∈ Finset.range (n + 1), a j l = ∑ j ∈ Finset.range n, ∑ l ∈ Finset.range n, a j l + ∑ j ∈ Finset.range n, a j n := by
      rw [← Finset.sum_add_distrib]
      exact Finset.sum_congr rfl fun j _ => Finset.sum_range_succ _ _
    have e2 : ∑ l ∈ Finset.range n, a n l = ∑ l ∈ Finset.range n, a l n := Finset.sum_congr rfl fun l _ => h n l
    rw [Finset.sum_range_succ (fun j => ∑ l ∈ Finset.range (n + 1), a j l), e, ih, Finset.sum_range_succ (fun l => a n l), e2,
      Finset.sum_range_succ (fun l => ∑ j ∈ Finset.range (l + 1), a j l), Finset.sum_range_succ (fun l => a l l), Finset.sum_range_succ (fun j => a j n)]
    ring

section
variable (m : HullWhite) (hm : HullWhiteOk m)
include hm

theorem varianceAt_continuousOn (T : ℝ) (hT : 0 ≤ T) : ContinuousOn m.varianceAt (Set.Icc 0 T) := by
  have h := variance_integrable m hm T hT
  have h1 := intervalIntegral.continuousOn_primitive_interval (f := fun s => m.volatility s ^ 2 * Real.exp (2 * m.meanReversion * s)) (μ := volume) (a := 0) (b := T) (by
    rw [intervalIntegrable_iff' ] at h
    exact h)
  rw [Set.uIcc_of_le hT] at h1
  exact h1.congr fun s hs => varianceAt_eq m hm s hs.1

theorem timeCovariance_eq (u v : ℝ) (hu : 0 ≤ u) (huv : u ≤ v) :
    timeCovariance m.meanReversion m.volatility u v = Real.exp (-m.meanReversion * v) * (Real.exp (-m.meanReversion * u) * m.varianceAt u) := by
  unfold timeCovariance
  rw [abs_of_nonneg (by linarith), min_eq_left huv, ← computeYt_eq m hm u hu]
  unfold HullWhite.computeYt
  rw [← mul_assoc, ← mul_assoc, ← Real.exp_add, ← Real.exp_add]
  congr 2
  ring

omit hm in
theorem timeCovariance_comm (k : ℝ) (sigma : ℝ → ℝ) (u v : ℝ) : timeCovariance k sigma u v = timeCovariance k sigma v u := by
  unfold timeCovariance
  rw [abs_sub_comm, min_comm]

/-- The covariance of the integral of the rate with the last rate, on a grid. -/
theorem grid_covariance (T : ℝ) (hT : 0 ≤ T) (ε : ℝ) (hε : 0 < ε) :
    ∃ δ > 0, ∀ (t : ℕ → ℝ) (n : ℕ), FineGrid δ t n → t n ≤ T →
      |∑ j ∈ Finset.range n, timeCovariance m.meanReversion m.volatility (t (j + 1)) (t n) * (t (j + 1) - t j) - stateMean m.meanReversion m.volatility 0 (t n)| ≤ ε := by
  set E := Real.exp (|m.meanReversion| * T) with hE
  have hEpos : 0 < E := Real.exp_pos _
  have hq : ContinuousOn (fun s => Real.exp (-m.meanReversion * s) * m.varianceAt s) (Set.Icc 0 T) :=
    ContinuousOn.mul (by fun_prop) (varianceAt_continuousOn m hm T hT)
  obtain ⟨δ, hδ, h⟩ := riemann_right T hT _ hq (ε / E) (by positivity)
  refine ⟨δ, hδ, fun t n hg hn => ?_⟩
  have h1 := h t n hg hn
  have h0 := hg.pos n le_rfl
  have e : ∑ j ∈ Finset.range n, timeCovariance m.meanReversion m.volatility (t (j + 1)) (t n) * (t (j + 1) - t j) =
      Real.exp (-m.meanReversion * t n) * ∑ j ∈ Finset.range n, Real.exp (-m.meanReversion * t (j + 1)) * m.varianceAt (t (j + 1)) * (t (j + 1) - t j) := by
    rw [Finset.mul_sum]
    refine Finset.sum_congr rfl fun j hj => ?_
    rw [Finset.mem_range] at hj
    rw [timeCovariance_eq m hm _ _ (hg.pos (j + 1) (by omega)) (hg.le (j + 1) (by omega))]
    ring
  rw [e, stateMean_scale m hm 0 (t n) le_rfl h0, ← mul_sub, abs_mul, abs_of_pos (Real.exp_pos _)]
  have h2 : Real.exp (-m.meanReversion * t n) ≤ E := by
    apply Real.exp_le_exp.2
    calc -m.meanReversion * t n ≤ |m.meanReversion| * t n := mul_le_mul_of_nonneg_right (neg_le_abs _) h0
      _ ≤ |m.meanReversion| * T := mul_le_mul_of_nonneg_left hn (abs_nonneg _)
  calc _ ≤ E * (ε / E) := mul_le_mul h2 h1 (abs_nonneg _) hEpos.le
    _ = ε := by field_simp

/-- Half of the variance of the integral of the rate is the mean of the integral of the state, on a grid. -/
theorem grid_variance (T : ℝ) (hT : 0 ≤ T) (ε : ℝ) (hε : 0 < ε) :
    ∃ δ > 0, ∀ (t : ℕ → ℝ) (n : ℕ), FineGrid δ t n → t n ≤ T →
      |(∑ j ∈ Finset.range n, ∑ l ∈ Finset.range n, timeCovariance m.meanReversion m.volatility (t (j + 1)) (t (l + 1)) * (t (j + 1) - t j) * (t (l + 1) - t l)) / 2 -
        ∑ l ∈ Finset.range n, stateMean m.meanReversion m.volatility 0 (t (l + 1)) * (t (l + 1) - t l)| ≤ ε := by
  obtain ⟨δ₁, hδ₁, h⟩ := grid_covariance m hm T hT (ε / (2 * (T + 1))) (by positivity)
  have hq : ContinuousOn (fun s => Real.exp (-m.meanReversion * s) * (Real.exp (-m.meanReversion * s) * m.varianceAt s)) (Set.Icc 0 T) :=
    ContinuousOn.mul (by fun_prop) (ContinuousOn.mul (by fun_prop) (varianceAt_continuousOn m hm T hT))
  obtain ⟨Y, hY⟩ := isCompact_Icc.exists_bound_of_continuousOn hq
  have hY0 : 0 ≤ Y := (norm_nonneg _).trans (hY 0 ⟨le_rfl, hT⟩)
  refine ⟨min δ₁ (ε / ((T + 1) * (Y + 1))), lt_min hδ₁ (by positivity), fun t n hg hn => ?_⟩
  rw [sum_symmetric (fun j l => timeCovariance m.meanReversion m.volatility (t (j + 1)) (t (l + 1)) * (t (j + 1) - t j) * (t (l + 1) - t l))
    (fun i j => by rw [timeCovariance_comm]; ring) n]
  have hsum : ∑ l ∈ Finset.range n, (t (l + 1) - t l) ≤ T := by
    rw [FineGrid.sum_steps]
    linarith [hg.nonneg]
  have e : (2 * ∑ l ∈ Finset.range n, ∑ j ∈ Finset.range (l + 1), timeCovariance m.meanReversion m.volatility (t (j + 1)) (t (l + 1)) * (t (j + 1) - t j) * (t (l + 1) - t l) -
        ∑ l ∈ Finset.range n, timeCovariance m.meanReversion m.volatility (t (l + 1)) (t (l + 1)) * (t (l + 1) - t l) * (t (l + 1) - t l)) / 2 -
      ∑ l ∈ Finset.range n, stateMean m.meanReversion m.volatility 0 (t (l + 1)) * (t (l + 1) - t l) =
      ∑ l ∈ Finset.range n, ((∑ j ∈ Finset.range (l + 1), timeCovariance m.meanReversion m.volatility (t (j + 1)) (t (l + 1)) * (t (j + 1) - t j) -
          stateMean m.meanReversion m.volatility 0 (t (l + 1))) -
        timeCovariance m.meanReversion m.volatility (t (l + 1)) (t (l + 1)) * (t (l + 1) - t l) / 2) * (t (l + 1) - t l) := by
    simp only [← Finset.sum_mul]
    rw [Finset.mul_sum, ← Finset.sum_sub_distrib, Finset.sum_div, ← Finset.sum_sub_distrib]
    exact Finset.sum_congr rfl fun l _ => by ring
  rw [e]
  refine (Finset.abs_sum_le_sum_abs _ _).trans ?_
  calc _ ≤ ∑ l ∈ Finset.range n, ε / (T + 1) * (t (l + 1) - t l) := by
        refine Finset.sum_le_sum fun l hl => ?_
        rw [Finset.mem_range] at hl
        have hd := hg.mono l hl
        have hlT : t (l + 1) ≤ T := (hg.le (l + 1) hl).trans hn
        rw [abs_mul, abs_of_nonneg (a := t (l + 1) - t l) (by linarith)]
        refine mul_le_mul_of_nonneg_right ?_ (by linarith)
        have h1 := h t (l + 1) ((hg.take (l + 1) hl).relax (min_le_left _ _)) hlT
        have h2 := hY (t (l + 1)) ⟨hg.pos (l + 1) hl, hlT⟩
        rw [← timeCovariance_eq m hm _ _ (hg.pos (l + 1) hl) le_rfl, Real.norm_eq_abs] at h2
        have h3 := (hg.step l hl).trans (min_le_right _ _)
        have h4 : |timeCovariance m.meanReversion m.volatility (t (l + 1)) (t (l + 1)) * (t (l + 1) - t l) / 2| ≤ ε / (2 * (T + 1)) := by
          rw [abs_div, abs_mul, abs_of_nonneg (a := t (l + 1) - t l) (by linarith), abs_of_pos (by norm_num : (0 : ℝ) < 2)]
          calc _ ≤ (Y + 1) * (ε / ((T + 1) * (Y + 1))) / 2 := by
                refine div_le_div_of_nonneg_right (mul_le_mul (by linarith) h3 (by linarith) (by linarith)) (by norm_num)
            _ = _ := by field_simp
        calc _ ≤ _ := abs_sub _ _
          _ ≤ ε / (2 * (T + 1)) + ε / (2 * (T + 1)) := add_le_add h1 h4
          _ = ε / (T + 1) := by field_simp; ring
    _ = ε / (T + 1) * ∑ l ∈ Finset.range n, (t (l + 1) - t l) := by rw [Finset.mul_sum]
    _ ≤ ε / (T + 1) * T := mul_le_mul_of_nonneg_left hsum (by positivity)
    _ ≤ ε := by rw [div_mul_eq_mul_div, div_le_iff₀ (by positivity)]; nlinarith

end

/-! ## The grid of the simulation -/

theorem strict_simulationTimes (expiries : List ℝ) (step : ℝ) (n : Nat) : (simulationTimes expiries step n).Pairwise (· < ·) := by
  have h1 := Props.sorted_simulationTimes expiries step n
  have h2 : (simulationTimes expiries step n).Nodup := by
    unfold simulationTimes
    exact (List.mergeSort_perm _ _).nodup_iff.2 (List.nodup_dedup _)
  exact (h1.and h2).imp fun h => lt_of_le_of_ne h.1 h.2

theorem mem_simulationTimes_iff (expiries : List ℝ) (step : ℝ) (n : Nat) (t : ℝ) :
    t ∈ simulationTimes expiries step n ↔ t ∈ expiries ∨ ∃ i < n, ((i + 1 : Nat) : ℝ) * step = t := by
  unfold simulationTimes
  rw [List.mem_mergeSort, List.mem_dedup, List.mem_append, List.mem_map]
  simp only [List.mem_range]

theorem simulationTimes_nonneg (expiries : List ℝ) (step : ℝ) (n : Nat) (hs : 0 < step) (he : ∀ t ∈ expiries, 0 ≤ t) :
    ∀ t ∈ simulationTimes expiries step n, 0 ≤ t := by
  intro t ht
  rcases (mem_simulationTimes_iff expiries step n t).1 ht with h | ⟨i, _, rfl⟩
  · exact he t h
  · positivity

theorem searchLeft_index (l : List ℝ) (hs : l.Pairwise (· < ·)) (j : ℕ) (hj : j < l.length) : searchLeft l (l.getD j 0) = j := by
  have h1 := Props.searchLeft_mem l (hs.imp le_of_lt) (l.getD j 0) (List.mem_of_getElem? (getD_some l j hj))
  have hlt : searchLeft l (l.getD j 0) < l.length := (List.getElem?_eq_some_iff.1 h1).1
  have h2 : l.Nodup := hs.imp ne_of_lt
  have h3 := getD_some l j hj
  rw [List.getElem?_eq_getElem hlt] at h1
  rw [List.getElem?_eq_getElem hj] at h3
  exact (h2.getElem_inj_iff).1 (Option.some.inj (h1.trans h3.symm))

/-- Up to each expiry the grid of the simulation has steps of at most the time step. -/
theorem simulationTimes_fine (expiries : List ℝ) (step : ℝ) (n : Nat) (hs : 0 < step) (he : ∀ t ∈ expiries, 0 ≤ t)
    (hn : ∀ t ∈ expiries, t ≤ ((n + 1 : Nat) : ℝ) * step) (i : ℕ) (hi : i < (simulationTimes expiries step n).length) :
    FineGrid step (fun j => (simulationTimes expiries step n).getD j 0) i := by
  set times := simulationTimes expiries step n with htimes
  have hsort : times.Pairwise (· ≤ ·) := Props.sorted_simulationTimes expiries step n
  have hnn := simulationTimes_nonneg expiries step n hs he
  have hmem : ∀ j < times.length, times.getD j 0 ∈ times := fun j hj => List.mem_of_getElem? (getD_some times j hj)
  have hub : ∀ t ∈ times, t ≤ ((n + 1 : Nat) : ℝ) * step := by
    intro t ht
    rcases (mem_simulationTimes_iff expiries step n t).1 ht with h | ⟨i, hi, rfl⟩
    · exact hn t h
    · refine mul_le_mul_of_nonneg_right ?_ hs.le
      exact_mod_cast (by omega : i + 1 ≤ n + 1)
  have hin : ∀ k < n, ∃ p < times.length, times.getD p 0 = ((k + 1 : Nat) : ℝ) * step := by
    intro k hk
    have h1 : ((k + 1 : Nat) : ℝ) * step ∈ times := (mem_simulationTimes_iff expiries step n _).2 (Or.inr ⟨k, hk, rfl⟩)
    obtain ⟨p, hp⟩ := List.getElem?_of_mem h1
    exact ⟨p, (List.getElem?_eq_some_iff.1 hp).1, getD_of_some _ _ _ hp⟩
  refine ⟨hnn _ (hmem 0 (by omega)), ?_, fun j hj => getD_mono _ hsort j (j + 1) (by omega) (by omega), fun j hj => ?_⟩
  · rcases Nat.eq_zero_or_pos n with h0 | h0
    · have := hub _ (hmem 0 (by omega))
      rw [h0] at this
      simpa using this
    · obtain ⟨p, hp, hp'⟩ := hin 0 h0
      have := getD_mono _ hsort 0 p (Nat.zero_le p) hp
      rw [hp'] at this
      simpa using this
  · by_contra hc
    rw [not_le] at hc
    beta_reduce at hc
    have h0 := hnn _ (hmem j (by omega))
    set k := ⌊times.getD j 0 / step⌋₊ with hk
    have hk1 : (k : ℝ) * step ≤ times.getD j 0 := by
      rw [← le_div_iff₀ hs]
      exact Nat.floor_le (div_nonneg h0 hs.le)
    have hk2 : times.getD j 0 < ((k + 1 : Nat) : ℝ) * step := by
      rw [← div_lt_iff₀ hs]
      push_cast
      exact Nat.lt_floor_add_one _
    have hk3 : ((k + 1 : Nat) : ℝ) * step < times.getD (j + 1) 0 := by
      push_cast
      linarith
    have hk4 := hk3.trans_le (hub _ (hmem (j + 1) (by omega)))
    have hkn : k < n := by
      have := lt_of_mul_lt_mul_right hk4 hs.le
      have : k + 1 < n + 1 := by exact_mod_cast this
      omega
    obtain ⟨p, hp, hp'⟩ := hin k hkn
    rw [← hp'] at hk2 hk3
    rcases Nat.lt_or_ge j p with h | h
    · exact absurd (getD_mono _ hsort (j + 1) p h hp) (not_le.2 hk3)
    · exact absurd (getD_mono _ hsort p j h (by omega)) (not_le.2 hk2)

/-! ## Values -/

/-- Continuous functions that grow at most exponentially. -/
structure ExpGrowth (φ : ℝ → ℝ) : Prop where
  continuous : Continuous φ
  bound : ∃ A B : ℝ, ∀ r, |φ r| ≤ A * Real.cosh (B * r)

theorem cosh_integrable (A B μ : ℝ) (v : NNReal) : Integrable (fun r => A * Real.cosh (B * r)) (gaussianReal μ v) := by
  have h := ((integrable_exp_mul_gaussianReal (μ := μ) (v := v) B).add (integrable_exp_mul_gaussianReal (μ := μ) (v := v) (-B))).const_mul (A / 2)
  refine h.congr (Eventually.of_forall fun r => ?_)
  simp only [Pi.add_apply]
  rw [Real.cosh_eq, show -B * r = -(B * r) by ring]
  ring

theorem cosh_shift (x y : ℝ) : Real.cosh (x + y) ≤ Real.exp |y| * Real.cosh x := by
  rw [Real.cosh_eq, Real.cosh_eq, ← mul_div_assoc, mul_add, ← Real.exp_add, ← Real.exp_add]
  have h1 : Real.exp (x + y) ≤ Real.exp (|y| + x) := Real.exp_le_exp.2 (by linarith [le_abs_self y])
  have h2 : Real.exp (-(x + y)) ≤ Real.exp (|y| + -x) := Real.exp_le_exp.2 (by linarith [neg_abs_le y])
  linarith

namespace ExpGrowth
variable {φ ψ : ℝ → ℝ}

theorem integrable (h : ExpGrowth φ) (μ : ℝ) (v : NNReal) : Integrable φ (gaussianReal μ v) := by
  obtain ⟨A, B, hb⟩ := h.bound
  refine (cosh_integrable A B μ v).mono h.continuous.aestronglyMeasurable (Eventually.of_forall fun r => ?_)
  rw [Real.norm_eq_abs, Real.norm_eq_abs]
  exact (hb r).trans (le_abs_self _)

theorem of_le (h : ExpGrowth ψ) (hc : Continuous φ) (hle : ∀ r, |φ r| ≤ |ψ r|) : ExpGrowth φ := by
  obtain ⟨A, B, hb⟩ := h.bound
  exact ⟨hc, A, B, fun r => (hle r).trans (hb r)⟩

theorem const (c : ℝ) : ExpGrowth (fun _ => c) := ⟨continuous_const, |c|, 0, fun r => by simp⟩

theorem exponential (c b : ℝ) : ExpGrowth (fun r => c * Real.exp (b * r)) := by
  refine ⟨by fun_prop, 2 * |c|, b, fun r => ?_⟩
  rw [abs_mul, abs_of_pos (Real.exp_pos _), Real.cosh_eq]
  have h1 := (Real.exp_pos (-(b * r))).le
  have h2 := abs_nonneg c
  nlinarith

theorem add (h : ExpGrowth φ) (h' : ExpGrowth ψ) : ExpGrowth (fun r => φ r + ψ r) := by
  obtain ⟨A, B, hb⟩ := h.bound
  obtain ⟨A', B', hb'⟩ := h'.bound
  refine ⟨h.continuous.add h'.continuous, A + A', max |B| |B'|, fun r => ?_⟩
  have hA : 0 ≤ A := by have := (abs_nonneg _).trans (hb 0); simpa using this
  have hA' : 0 ≤ A' := by have := (abs_nonneg _).trans (hb' 0); simpa using this
  have h0 : 0 ≤ max |B| |B'| := (abs_nonneg B).trans (le_max_left _ _)
  have h1 : Real.cosh (B * r) ≤ Real.cosh (max |B| |B'| * r) := by
    rw [Real.cosh_le_cosh, abs_mul, abs_mul, abs_of_nonneg h0]
    exact mul_le_mul_of_nonneg_right (le_max_left _ _) (abs_nonneg r)
  have h2 : Real.cosh (B' * r) ≤ Real.cosh (max |B| |B'| * r) := by
    rw [Real.cosh_le_cosh, abs_mul, abs_mul, abs_of_nonneg h0]
    exact mul_le_mul_of_nonneg_right (le_max_right _ _) (abs_nonneg r)
  calc |φ r + ψ r| ≤ |φ r| + |ψ r| := abs_add_le _ _
    _ ≤ A * Real.cosh (B * r) + A' * Real.cosh (B' * r) := add_le_add (hb r) (hb' r)
    _ ≤ A * Real.cosh (max |B| |B'| * r) + A' * Real.cosh (max |B| |B'| * r) :=
      add_le_add (mul_le_mul_of_nonneg_left h1 hA) (mul_le_mul_of_nonneg_left h2 hA')
    _ = _ := by ring

theorem const_mul (h : ExpGrowth φ) (c : ℝ) : ExpGrowth (fun r => c * φ r) := by
  obtain ⟨A, B, hb⟩ := h.bound
  refine ⟨h.continuous.const_mul c, |c| * A, B, fun r => ?_⟩
  rw [abs_mul, mul_assoc]
  exact mul_le_mul_of_nonneg_left (hb r) (abs_nonneg c)

theorem pos_part (h : ExpGrowth φ) : ExpGrowth (fun r => max (φ r) 0) :=
  h.of_le (h.continuous.max continuous_const) fun r => by
    rw [abs_of_nonneg (le_max_right _ _)]
    exact max_le (le_abs_self _) (abs_nonneg _)

theorem list_sum {A : Type} (l : List A) (f : A → ℝ → ℝ) (h : ∀ a ∈ l, ExpGrowth (f a)) : ExpGrowth (fun r => (l.map fun a => f a r).sum) := by
  induction l with
  | nil => simpa using const 0
  | cons a l ih =>
    simp only [List.map_cons, List.sum_cons]
    exact (h a (by simp)).add (ih fun b hb => h b (by simp [hb]))

/-- The expectation depends continuously on the mean. -/
theorem tendsto_mean (h : ExpGrowth φ) (μ σ : ℝ) (d : ℕ → ℝ) (hd : Tendsto d atTop (𝓝 0)) :
    Tendsto (fun N => normalExpectation (μ - d N) σ φ) atTop (𝓝 (normalExpectation μ σ φ)) := by
  obtain ⟨A, B, hb⟩ := h.bound
  have hA : 0 ≤ A := by have := (abs_nonneg _).trans (hb 0); simpa using this
  set v := Real.toNNReal (σ ^ 2) with hv
  have hshift : ∀ e : ℝ, gaussianReal (μ - e) v = (gaussianReal μ v).map (fun r => r + -e) := by
    intro e
    rw [gaussianReal_map_add_const, sub_eq_add_neg]
  have e : ∀ N, normalExpectation (μ - d N) σ φ = ∫ r, φ (r + -d N) ∂(gaussianReal μ v) := by
    intro N
    unfold normalExpectation
    rw [← hv, hshift, integral_map (by fun_prop) h.continuous.aestronglyMeasurable]
  simp_rw [e]
  unfold normalExpectation
  rw [← hv]
  have hsmall : ∀ᶠ N in atTop, |d N| ≤ 1 := by
    have := hd.abs
    rw [abs_zero] at this
    exact (this.eventually (gt_mem_nhds one_pos)).mono fun N hN => hN.le
  refine tendsto_integral_filter_of_dominated_convergence (fun r => A * Real.exp |B| * Real.cosh (B * r)) ?_ ?_ (cosh_integrable (A * Real.exp |B|) B μ v) ?_
  · exact Eventually.of_forall fun N => (h.continuous.comp (continuous_id.add continuous_const)).aestronglyMeasurable
  · filter_upwards [hsmall] with N hN
    refine Eventually.of_forall fun r => ?_
    rw [Real.norm_eq_abs]
    refine (hb _).trans ?_
    rw [mul_add, mul_assoc]
    refine mul_le_mul_of_nonneg_left ((cosh_shift _ _).trans ?_) hA
    refine mul_le_mul_of_nonneg_right (Real.exp_le_exp.2 ?_) (Real.cosh_pos _).le
    rw [abs_mul, abs_neg]
    exact mul_le_of_le_one_right (abs_nonneg B) hN
  · refine Eventually.of_forall fun r => ?_
    have h1 : Tendsto (fun N => r + -d N) atTop (𝓝 (r + -0)) := tendsto_const_nhds.add hd.neg
    rw [neg_zero, add_zero] at h1
    exact (h.continuous.tendsto r).comp h1

end ExpGrowth

theorem bondPrice_growth (m : HullWhite) (T0 T : ℝ) : ExpGrowth (fun r => m.discountBondPrice r T0 T) := by
  have h := ExpGrowth.exponential (Real.exp (-(m.discountRate T * T) + m.discountRate T0 * T0 + m.instantForwardRate T0 * bondG m T0 T - m.computeYt T0 * bondG m T0 T ^ 2 / 2))
    (-bondG m T0 T)
  have e : (fun r => m.discountBondPrice r T0 T) = fun r => Real.exp (-(m.discountRate T * T) + m.discountRate T0 * T0 + m.instantForwardRate T0 * bondG m T0 T -
      m.computeYt T0 * bondG m T0 T ^ 2 / 2) * Real.exp (-bondG m T0 T * r) := by
    funext r
    rw [discountBondPrice_eq, ← Real.exp_add]
    congr 1
    ring
  rw [e]
  exact h

theorem bondPayoff_growth (m : HullWhite) (c : Bool) (K T0 T : ℝ) : ExpGrowth (fun r => vanillaPayoff c K (m.discountBondPrice r T0 T)) := by
  unfold vanillaPayoff
  cases c
  · simp only [Bool.false_eq_true, if_false]
    have h := ((ExpGrowth.const K).add ((bondPrice_growth m T0 T).const_mul (-1))).pos_part
    have e : (fun r => max (K - m.discountBondPrice r T0 T) 0) = fun r => max (K + -1 * m.discountBondPrice r T0 T) 0 := by
      funext r; congr 1; ring
    rw [e]
    exact h
  · simp only [if_true]
    have h := ((bondPrice_growth m T0 T).add (ExpGrowth.const (-K))).pos_part
    have e : (fun r => max (m.discountBondPrice r T0 T - K) 0) = fun r => max (m.discountBondPrice r T0 T + -K) 0 := by
      funext r; congr 1
    rw [e]
    exact h

/-- The expectation of a discounted function of the rate at the time `T0` over the paths of a grid, as a formula. -/
noncomputable def gridValue (m : HullWhite) (t : ℕ → ℝ) (i : ℕ) (T0 : ℝ) (φ : ℝ → ℝ) : ℝ :=
  Real.exp (-(∑ j ∈ Finset.range i, m.instantForwardRate (t (j + 1)) * (t (j + 1) - t j)) +
      ((∑ j ∈ Finset.range i, ∑ l ∈ Finset.range i, timeCovariance m.meanReversion m.volatility (t (j + 1)) (t (l + 1)) * (t (j + 1) - t j) * (t (l + 1) - t l)) / 2 -
        ∑ l ∈ Finset.range i, stateMean m.meanReversion m.volatility 0 (t (l + 1)) * (t (l + 1) - t l))) *
    normalExpectation (m.instantForwardRate T0 -
        (∑ j ∈ Finset.range i, timeCovariance m.meanReversion m.volatility (t (j + 1)) T0 * (t (j + 1) - t j) - stateMean m.meanReversion m.volatility 0 T0))
      (Real.sqrt (convexity m.meanReversion m.volatility T0)) φ

/-- The rate of a sampled path at a requested time; zero if it was not written. -/
noncomputable def pathRate (m : HullWhite) (times draws : List ℝ) (j : ℕ) : ℝ := ((m.samplePath times draws)[j]?.join).getD 0

/-- Averages over paths of discounted functions of a rate converge. -/
theorem discounted_average {Ω : Type} [MeasurableSpace Ω] (P : Measure Ω) (m : HullWhite) (hm : HullWhiteOk m) (times : List ℝ) (hs : times.Pairwise (· < ·))
    (h0 : ∀ t ∈ times, 0 ≤ t) (i : ℕ) (hi : i < times.length) (φ : ℝ → ℝ) (hφ : ExpGrowth φ) (D : ℕ → Ω → Fin (times.length + m.volJumps.length) → ℝ)
    (hD : NormalDraws P (times.length + m.volJumps.length) D) :
    ∀ᵐ ω ∂P, Tendsto (fun N : ℕ => (∑ s ∈ Finset.range N, Real.exp (-∑ j ∈ Finset.range i, pathRate m times (List.ofFn (D s ω)) (j + 1) *
        (times.getD (j + 1) 0 - times.getD j 0)) * φ (pathRate m times (List.ofFn (D s ω)) i)) / N) atTop
      (𝓝 (gridValue m (fun j => times.getD j 0) i (times.getD i 0) φ)) := by
  obtain ⟨w, hw1, hw2⟩ := samplePath_joint m hm times hs h0
  set t := fun j => times.getD j 0 with ht
  have hrate : ∀ (z : Fin (times.length + m.volJumps.length) → ℝ) (j : ℕ), j < times.length → pathRate m times (List.ofFn z) j =
      stateMean m.meanReversion m.volatility 0 (t j) + ∑ k, w j k * z k + m.instantForwardRate (t j) := by
    intro z j hj
    unfold pathRate
    rw [hw2 j hj z]
    rfl
  set c : Fin (times.length + m.volJumps.length) → ℝ := fun k => ∑ j ∈ Finset.range i, (t (j + 1) - t j) * w (j + 1) k with hc
  set a := ∑ j ∈ Finset.range i, (stateMean m.meanReversion m.volatility 0 (t (j + 1)) + m.instantForwardRate (t (j + 1))) * (t (j + 1) - t j) with ha
  set b := stateMean m.meanReversion m.volatility 0 (t i) + m.instantForwardRate (t i) with hb
  have hsum : ∀ z : Fin (times.length + m.volJumps.length) → ℝ, ∑ j ∈ Finset.range i, pathRate m times (List.ofFn z) (j + 1) * (times.getD (j + 1) 0 - times.getD j 0) =
      a + ∑ k, c k * z k := by
    intro z
    have : ∑ k, c k * z k = ∑ j ∈ Finset.range i, (∑ k, w (j + 1) k * z k) * (t (j + 1) - t j) := by
      simp only [hc, Finset.sum_mul]
      rw [Finset.sum_comm]
      exact Finset.sum_congr rfl fun j _ => Finset.sum_congr rfl fun k _ => by ring
    rw [this, ha, ← Finset.sum_add_distrib]
    refine Finset.sum_congr rfl fun j hj => ?_
    rw [Finset.mem_range] at hj
    rw [hrate z (j + 1) (by omega)]
    ring
  have hlast : ∀ z : Fin (times.length + m.volJumps.length) → ℝ, pathRate m times (List.ofFn z) i = b + ∑ k, w i k * z k := by
    intro z
    rw [hrate z i hi, hb]
    ring
  have hww : ∑ k, w i k ^ 2 = convexity m.meanReversion m.volatility (t i) := by
    have := hw1 i hi i hi
    simp only [sq]
    rw [this]
    unfold timeCovariance
    simp [ht]
  have hcw : ∑ k, c k * w i k = ∑ j ∈ Finset.range i, timeCovariance m.meanReversion m.volatility (t (j + 1)) (t i) * (t (j + 1) - t j) := by
    simp only [hc, Finset.sum_mul]
    rw [Finset.sum_comm]
    refine Finset.sum_congr rfl fun j hj => ?_
    rw [Finset.mem_range] at hj
    have := hw1 (j + 1) (by omega) i hi
    rw [show t (j + 1) = times.getD (j + 1) 0 from rfl, show t i = times.getD i 0 from rfl, ← this, Finset.sum_mul]
    exact Finset.sum_congr rfl fun k _ => by ring
  have hcc : ∑ k, c k ^ 2 = ∑ j ∈ Finset.range i, ∑ l ∈ Finset.range i, timeCovariance m.meanReversion m.volatility (t (j + 1)) (t (l + 1)) * (t (j + 1) - t j) * (t (l + 1) - t l) := by
    have e : ∀ k, c k ^ 2 = ∑ j ∈ Finset.range i, ∑ l ∈ Finset.range i, (w (j + 1) k * w (l + 1) k) * (t (j + 1) - t j) * (t (l + 1) - t l) := by
      intro k
      rw [sq]
      simp only [hc]
      rw [Finset.sum_mul_sum]
      exact Finset.sum_congr rfl fun j _ => Finset.sum_congr rfl fun l _ => by ring
    simp_rw [e]
    rw [Finset.sum_comm]
    refine Finset.sum_congr rfl fun j hj => ?_
    rw [Finset.sum_comm]
    refine Finset.sum_congr rfl fun l hl => ?_
    rw [Finset.mem_range] at hj hl
    rw [show t (j + 1) = times.getD (j + 1) 0 from rfl, show t (l + 1) = times.getD (l + 1) 0 from rfl, ← hw1 (j + 1) (by omega) (l + 1) (by omega), Finset.sum_mul, Finset.sum_mul]
  obtain ⟨h1, h2⟩ := pi_tilted_expectation a c b (w i) φ hφ.continuous.measurable
  have hφm := hφ.continuous.measurable
  have h3 := draws_average P _ D hD (fun z => Real.exp (-(a + ∑ k, c k * z k)) * φ (b + ∑ k, w i k * z k)) (by fun_prop) (h2 (hφ.integrable _ _))
  rw [h1, hww, hcw, hcc] at h3
  filter_upwards [h3] with ω hω
  simp only [hsum, hlast]
  refine hω.trans (le_of_eq ?_)
  congr 1
  unfold gridValue
  congr 1
  · congr 1
    rw [ha]
    simp only [add_mul, Finset.sum_add_distrib]
    ring
  · congr 1
    rw [hb]
    ring

/-- Pairs of two lists of the same length by position. -/
theorem zipWith_zipIdx {A : Type} (f : A → ℝ → ℝ) (l : List A) (p : List ℝ) (h : p.length = l.length) :
    List.zipWith f l p = l.zipIdx.map fun q => f q.1 (p.getD q.2 0) := by
  refine List.ext_getElem? fun k => ?_
  rw [List.getElem?_zipWith, List.getElem?_map, List.getElem?_zipIdx]
  by_cases hk : k < l.length
  · rw [List.getElem?_eq_getElem hk, List.getElem?_eq_getElem (by omega)]
    simp only [Option.map_some, zero_add]
    rw [List.getD_eq_getElem _ _ (by omega)]
  · rw [List.getElem?_eq_none (by omega)]
    rfl

/-- As the step goes to zero, the values of the grids converge to the discounted expectation under the forward measure. -/
theorem gridValue_limit (m : HullWhite) (hm : HullWhiteOk m) (hR : ∀ t, 0 ≤ t → DifferentiableAt ℝ m.discountRate t)
    (hf : ContinuousOn m.instantForwardRate (Set.Ici 0)) (T0 : ℝ) (he : 0 ≤ T0) (φ : ℝ → ℝ) (hφ : ExpGrowth φ)
    (step : ℕ → ℝ) (hlim : Tendsto step atTop (𝓝 0)) (t : ℕ → ℕ → ℝ) (i : ℕ → ℕ)
    (hg : ∀ N, FineGrid (step N) (t N) (i N)) (hi : ∀ N, t N (i N) = T0) :
    Tendsto (fun N => gridValue m (t N) (i N) T0 φ) atTop (𝓝 (Real.exp (-(m.discountRate T0 * T0)) *
      normalExpectation (m.instantForwardRate T0) (Real.sqrt (convexity m.meanReversion m.volatility T0)) φ)) := by
  have hev : ∀ δ > 0, ∃ N₀, ∀ N ≥ N₀, step N ≤ δ := by
    intro δ hδ
    have := (hlim.eventually (gt_mem_nhds hδ))
    rw [eventually_atTop] at this
    obtain ⟨N₀, h⟩ := this
    exact ⟨N₀, fun N hN => (h N hN).le⟩
  have conv : ∀ (x : ℕ → ℝ) (l : ℝ), (∀ ε > 0, ∃ δ > 0, ∀ N, FineGrid δ (t N) (i N) → |x N - l| ≤ ε) → Tendsto x atTop (𝓝 l) := by
    intro x l h
    rw [Metric.tendsto_atTop]
    intro ε hε
    obtain ⟨δ, hδ, h1⟩ := h (ε / 2) (by linarith)
    obtain ⟨N₀, hN₀⟩ := hev δ hδ
    refine ⟨N₀, fun N hN => ?_⟩
    rw [Real.dist_eq]
    have := h1 N ((hg N).relax (hN₀ N hN))
    linarith
  have hfwd : ∫ s in (0 : ℝ)..T0, m.instantForwardRate s = m.discountRate T0 * T0 := by
    have e : ∀ s, m.instantForwardRate s = deriv (fun x => m.discountRate x * x) s := instantForwardRate_eq m
    have h1 := intervalIntegral.integral_deriv_eq_sub (f := fun x => m.discountRate x * x) (a := 0) (b := T0) (by
      intro x hx
      rw [Set.uIcc_of_le he] at hx
      exact (hR x hx.1).mul differentiableAt_id) (by
      have : IntervalIntegrable m.instantForwardRate volume 0 T0 := (hf.mono (by rw [Set.uIcc_of_le he]; exact fun s hs => hs.1)).intervalIntegrable
      exact this.congr (fun s _ => e s))
    simp_rw [e]
    rw [h1]
    ring
  have hA : Tendsto (fun N => ∑ j ∈ Finset.range (i N), m.instantForwardRate (t N (j + 1)) * (t N (j + 1) - t N j)) atTop (𝓝 (m.discountRate T0 * T0)) := by
    refine conv _ _ fun ε hε => ?_
    obtain ⟨δ, hδ, h⟩ := riemann_right T0 he m.instantForwardRate (hf.mono fun s hs => hs.1) ε hε
    refine ⟨δ, hδ, fun N hN => ?_⟩
    have := h (t N) (i N) hN (hi N).le
    rwa [hi N, hfwd] at this
  have hB : Tendsto (fun N => ∑ j ∈ Finset.range (i N), timeCovariance m.meanReversion m.volatility (t N (j + 1)) T0 * (t N (j + 1) - t N j) -
      stateMean m.meanReversion m.volatility 0 T0) atTop (𝓝 0) := by
    refine conv _ _ fun ε hε => ?_
    obtain ⟨δ, hδ, h⟩ := grid_covariance m hm T0 he ε hε
    refine ⟨δ, hδ, fun N hN => ?_⟩
    have := h (t N) (i N) hN (hi N).le
    rw [hi N] at this
    rwa [sub_zero]
  have hC : Tendsto (fun N => (∑ j ∈ Finset.range (i N), ∑ l ∈ Finset.range (i N), timeCovariance m.meanReversion m.volatility (t N (j + 1)) (t N (l + 1)) *
        (t N (j + 1) - t N j) * (t N (l + 1) - t N l)) / 2 -
      ∑ l ∈ Finset.range (i N), stateMean m.meanReversion m.volatility 0 (t N (l + 1)) * (t N (l + 1) - t N l)) atTop (𝓝 0) := by
    refine conv _ _ fun ε hε => ?_
    obtain ⟨δ, hδ, h⟩ := grid_variance m hm T0 he ε hε
    refine ⟨δ, hδ, fun N hN => ?_⟩
    have := h (t N) (i N) hN (hi N).le
    rwa [sub_zero]
  have hE := ((Real.continuous_exp.tendsto _).comp (hA.neg.add hC)).mul (hφ.tendsto_mean (m.instantForwardRate T0) (Real.sqrt (convexity m.meanReversion m.volatility T0)) _ hB)
  unfold gridValue
  rw [add_zero] at hE
  exact hE

end Lemmas

namespace Props
open Model Lemmas Spec MeasureTheory ProbabilityTheory Filter Topology

/-- C131: the sampled rates at all requested times together: each is the initial forward rate plus the exact mean plus a combination of the normal draws, and the
sums of products of the weights are the exact covariances of the model, whatever the grid. -/
theorem C131_joint (m : HullWhite) (hm : HullWhiteOk m) (times : List ℝ) (hs : times.Pairwise (· < ·)) (h0 : ∀ t ∈ times, 0 ≤ t) :
    ∃ w : ℕ → Fin (times.length + m.volJumps.length) → ℝ,
      (∀ j < times.length, ∀ l < times.length, ∑ k, w j k * w l k = timeCovariance m.meanReversion m.volatility (times.getD j 0) (times.getD l 0)) ∧
      ∀ j < times.length, ∀ z : Fin (times.length + m.volJumps.length) → ℝ, (m.samplePath times (List.ofFn z))[j]? =
        some (some (stateMean m.meanReversion m.volatility 0 (times.getD j 0) + ∑ k, w j k * z k + m.instantForwardRate (times.getD j 0))) :=
  samplePath_joint m hm times hs h0

/-- C131: on a grid of simulation times, for independent standard normal draws, the simulated price of each option converges almost surely to a value that has a formula. -/
theorem C131_grid {Ω : Type} [MeasurableSpace Ω] (P : Measure Ω) (m : HullWhite) (hm : HullWhiteOk m) (options : List BondOption) (he : ∀ o ∈ options, 0 ≤ o.expiry)
    (step : ℝ) (n : Nat) (hstep : 0 < step) (k : Nat) (o : BondOption) (hk : options[k]? = some o) :
    let times := simulationTimes (options.map BondOption.expiry) step n
    ∀ D : ℕ → Ω → Fin (times.length + m.volJumps.length) → ℝ, NormalDraws P (times.length + m.volJumps.length) D →
    ∀ᵐ ω ∂P, Tendsto (fun N : ℕ => (m.simulatedBondOptions options (fun s => List.ofFn (D s ω)) N step n).getD k 0) atTop
      (𝓝 (gridValue m (fun j => times.getD j 0) (searchLeft times o.expiry) o.expiry (fun r => vanillaPayoff o.isCall o.strike (m.discountBondPrice r o.expiry o.maturity)))) := by
  intro times D hD
  have hsort : times.Pairwise (· < ·) := strict_simulationTimes _ _ _
  have hnn : ∀ t ∈ times, 0 ≤ t := simulationTimes_nonneg _ _ _ hstep (by
    intro t ht
    rw [List.mem_map] at ht
    obtain ⟨o, ho, rfl⟩ := ht
    exact he o ho)
  have hti : times[searchLeft times o.expiry]? = some o.expiry :=
    searchLeft_mem _ (sorted_simulationTimes _ _ _) _ (mem_simulationTimes _ _ _ _ (List.mem_map_of_mem (List.mem_of_getElem? hk)))
  set i := searchLeft times o.expiry with hidef
  have hi : i < times.length := (List.getElem?_eq_some_iff.1 hti).1
  have hiT : times.getD i 0 = o.expiry := getD_of_some _ _ _ hti
  have h := discounted_average P m hm times hsort hnn i hi _ (bondPayoff_growth m o.isCall o.strike o.expiry o.maturity) D hD
  rw [hiT] at h
  filter_upwards [h] with ω hω
  refine hω.congr fun N => ?_
  obtain ⟨i', hi', hp⟩ := C94_bond_options_partial options (m.curvePaths times (fun s => List.ofFn (D s ω))) N step n k o hk
  have hii : i' = i := by
    have hl : i' < times.length := (List.getElem?_eq_some_iff.1 hi').1
    have h3 : times.getD i' 0 = o.expiry := getD_of_some _ _ _ hi'
    rw [← searchLeft_index times hsort i' hl, h3]
  subst hii
  unfold HullWhite.simulatedBondOptions
  rw [List.getD_eq_getElem?_getD, hp, Option.getD_some]
  congr 1
  rw [← List.sum_toFinset _ List.nodup_range, List.toFinset_range]
  refine Finset.sum_congr rfl fun s _ => ?_
  congr 1
  congr 2
  refine Finset.sum_congr rfl fun j hj => ?_
  rw [Finset.mem_range] at hj
  unfold HullWhite.curvePaths pathRate
  simp only
  have hjl : j + 1 < times.length := by omega
  rw [searchLeft_index times hsort (j + 1) hjl]

/-- C131: the simulated prices of options on bonds: as the number of paths goes to infinity they converge almost surely for every time step, and as the time step goes to
zero these limits converge to the analytic price. -/
theorem C131_bond_options {Ω : Type} [MeasurableSpace Ω] (P : Measure Ω) (m : HullWhite) (hm : HullWhiteOk m) (hR : ∀ t, 0 ≤ t → DifferentiableAt ℝ m.discountRate t)
    (hf : ContinuousOn m.instantForwardRate (Set.Ici 0)) (options : List BondOption) (he : ∀ o ∈ options, 0 ≤ o.expiry)
    (hK : ∀ o ∈ options, 0 < o.strike) (hT : ∀ o ∈ options, o.expiry < o.maturity) (hy : ∀ o ∈ options, 0 < convexity m.meanReversion m.volatility o.expiry)
    (step : ℕ → ℝ) (hstep : ∀ N, 0 < step N) (hlim : Tendsto step atTop (𝓝 0)) (n : ℕ → ℕ) (hn : ∀ N, ∀ o ∈ options, o.expiry ≤ ((n N + 1 : ℕ) : ℝ) * step N)
    (D : ∀ N : ℕ, ℕ → Ω → Fin ((simulationTimes (options.map BondOption.expiry) (step N) (n N)).length + m.volJumps.length) → ℝ)
    (hD : ∀ N, NormalDraws P _ (D N)) :
    ∃ v : ℕ → BondOption → ℝ, (∀ o ∈ options, Tendsto (fun N => v N o) atTop (𝓝 (m.bondOptionPrice o.strike o.expiry o.maturity o.isCall))) ∧
      ∀ᵐ ω ∂P, ∀ (N k : ℕ) (o : BondOption), options[k]? = some o →
        Tendsto (fun S : ℕ => (m.simulatedBondOptions options (fun s => List.ofFn (D N s ω)) S (step N) (n N)).getD k 0) atTop (𝓝 (v N o)) := by
  set times := fun N => simulationTimes (options.map BondOption.expiry) (step N) (n N) with htimes
  refine ⟨fun N o => gridValue m (fun j => (times N).getD j 0) (searchLeft (times N) o.expiry) o.expiry
    (fun r => vanillaPayoff o.isCall o.strike (m.discountBondPrice r o.expiry o.maturity)), fun o ho => ?_, ?_⟩
  · have hmap : ∀ N, o.expiry ∈ times N := fun N => mem_simulationTimes _ _ _ _ (List.mem_map_of_mem ho)
    have hti : ∀ N, (times N)[searchLeft (times N) o.expiry]? = some o.expiry := fun N => searchLeft_mem _ (sorted_simulationTimes _ _ _) _ (hmap N)
    rw [C53_bond_option_partial m hm _ _ _ _ (hK o ho) (he o ho) (hT o ho) (hy o ho)]
    refine gridValue_limit m hm hR hf o.expiry (he o ho) _ (bondPayoff_growth m o.isCall o.strike o.expiry o.maturity) step hlim (fun N j => (times N).getD j 0) (fun N => searchLeft (times N) o.expiry)
      (fun N => ?_) (fun N => getD_of_some _ _ _ (hti N))
    refine simulationTimes_fine _ _ _ (hstep N) ?_ ?_ _ (List.getElem?_eq_some_iff.1 (hti N)).1
    · intro t ht
      rw [List.mem_map] at ht
      obtain ⟨o', ho', rfl⟩ := ht
      exact he o' ho'
    · intro t ht
      rw [List.mem_map] at ht
      obtain ⟨o', ho', rfl⟩ := ht
      exact hn N o' ho'
  · rw [ae_all_iff]
    intro N
    rw [ae_all_iff]
    intro k
    cases h : options[k]? with
    | none => exact Eventually.of_forall fun ω o ho => by simp at ho
    | some o =>
      filter_upwards [C131_grid P m hm options he (step N) (n N) (hstep N) k o h (D N) (hD N)] with ω hω
      intro o' ho'
      rw [Option.some.injEq] at ho'
      subst ho'
      exact hω

/-- C131: the simulated prices of caps and floors converge to the analytic price in the same way. -/
theorem C131_caps {Ω : Type} [MeasurableSpace Ω] (P : Measure Ω) (m : HullWhite) (hm : HullWhiteOk m) (hR : ∀ t, 0 ≤ t → DifferentiableAt ℝ m.discountRate t)
    (hf : ContinuousOn m.instantForwardRate (Set.Ici 0)) (notional : ℝ) (isCap : Bool) (caplets : List (ℝ × ℝ × ℝ × ℝ)) (he : ∀ c ∈ caplets, 0 ≤ c.2.1)
    (hK : ∀ c ∈ caplets, 0 < 1 + c.2.2.2 * c.1) (hT : ∀ c ∈ caplets, c.2.1 < c.2.2.1) (hy : ∀ c ∈ caplets, 0 < convexity m.meanReversion m.volatility c.2.1)
    (step : ℕ → ℝ) (hstep : ∀ N, 0 < step N) (hlim : Tendsto step atTop (𝓝 0)) (n : ℕ → ℕ) (hn : ∀ N, ∀ c ∈ caplets, c.2.1 ≤ ((n N + 1 : ℕ) : ℝ) * step N)
    (D : ∀ N : ℕ, ℕ → Ω → Fin ((simulationTimes (caplets.map fun c => c.2.1) (step N) (n N)).length + m.volJumps.length) → ℝ)
    (hD : ∀ N, NormalDraws P _ (D N)) :
    ∃ v : ℕ → ℝ, Tendsto v atTop (𝓝 (m.capFloorPrice notional isCap caplets)) ∧
      ∀ᵐ ω ∂P, ∀ N : ℕ, Tendsto (fun S : ℕ => m.simulatedCapFloor notional isCap caplets (fun s => List.ofFn (D N s ω)) S (step N) (n N)) atTop (𝓝 (v N)) := by
  set toOption := fun (c : ℝ × ℝ × ℝ × ℝ) => BondOption.mk (1 / (1 + c.2.2.2 * c.1)) c.2.1 c.2.2.1 (!isCap) with hto
  have hmap : (caplets.map toOption).map BondOption.expiry = caplets.map fun c => c.2.1 := by
    rw [List.map_map]; rfl
  revert D hD
  rw [← hmap]
  intro D hD
  have hmem : ∀ o ∈ caplets.map toOption, ∃ c ∈ caplets, toOption c = o := fun o ho => by rwa [List.mem_map] at ho
  obtain ⟨v, hv1, hv2⟩ := C131_bond_options P m hm hR hf (caplets.map toOption) (fun o ho => by obtain ⟨c, hc, rfl⟩ := hmem o ho; exact he c hc)
    (fun o ho => by obtain ⟨c, hc, rfl⟩ := hmem o ho; exact one_div_pos.2 (hK c hc)) (fun o ho => by obtain ⟨c, hc, rfl⟩ := hmem o ho; exact hT c hc)
    (fun o ho => by obtain ⟨c, hc, rfl⟩ := hmem o ho; exact hy c hc) step hstep hlim n (fun N o ho => by obtain ⟨c, hc, rfl⟩ := hmem o ho; exact hn N c hc)
    D hD
  refine ⟨fun N => (caplets.map fun c => notional * (1 + c.2.2.2 * c.1) * v N (toOption c)).sum, ?_, ?_⟩
  · unfold HullWhite.capFloorPrice
    refine (tendsto_list_sum (f := fun c N => notional * (1 + c.2.2.2 * c.1) * v N (toOption c))
      (a := fun c => notional * (1 + c.2.2.2 * c.1) * (if c.2.1 < 0 then 0 else m.bondOptionPrice (1 / (1 + c.2.2.2 * c.1)) c.2.1 c.2.2.1 (!isCap))) caplets fun c hc => ?_)
    rw [if_neg (not_lt.2 (he c hc))]
    exact (hv1 (toOption c) (List.mem_map_of_mem hc)).const_mul _
  · filter_upwards [hv2] with ω hω
    intro N
    have hlen : ∀ S, (m.simulatedBondOptions (caplets.map toOption) (fun s => List.ofFn (D N s ω)) S (step N) (n N)).length = caplets.length := by
      intro S
      unfold HullWhite.simulatedBondOptions optionsPriceFromSamples
      simp
    have e : ∀ S, m.simulatedCapFloor notional isCap caplets (fun s => List.ofFn (D N s ω)) S (step N) (n N) =
        (caplets.zipIdx.map fun p => notional * (1 + p.1.2.2.2 * p.1.1) * (if p.1.2.1 < 0 then 0 else
          (m.simulatedBondOptions (caplets.map toOption) (fun s => List.ofFn (D N s ω)) S (step N) (n N)).getD p.2 0)).sum := by
      intro S
      unfold HullWhite.simulatedCapFloor
      simp only
      congr 1
      rw [zipWith_zipIdx _ _ _ (hlen S)]
    simp only [e]
    have e2 : (caplets.map fun c => notional * (1 + c.2.2.2 * c.1) * v N (toOption c)).sum =
        (caplets.zipIdx.map fun p => notional * (1 + p.1.2.2.2 * p.1.1) * v N (toOption p.1)).sum := by
      conv_lhs => rw [← List.zipIdx_map_fst 0 caplets, List.map_map]
      rfl
    rw [e2]
    refine tendsto_list_sum (f := fun p S => notional * (1 + p.1.2.2.2 * p.1.1) * (if p.1.2.1 < 0 then 0 else
          (m.simulatedBondOptions (caplets.map toOption) (fun s => List.ofFn (D N s ω)) S (step N) (n N)).getD p.2 0))
        (a := fun p => notional * (1 + p.1.2.2.2 * p.1.1) * v N (toOption p.1)) caplets.zipIdx fun p hp => ?_
    have hp' : caplets[p.2]? = some p.1 := List.mem_zipIdx_iff_getElem?.1 hp
    simp only [if_neg (not_lt.2 (he p.1 (List.mem_of_getElem? hp')))]
    exact (hω N p.2 (toOption p.1) (by rw [List.getElem?_map, hp']; rfl)).const_mul _

/-- A model with mean reversion and volatility one and a flat curve at ten percent; the option expires after one year on a bond with two years, the time steps are `1 / (N + 1)`. -/
example {Ω : Type} [MeasurableSpace Ω] (P : Measure Ω)
    (D : ∀ N : ℕ, ℕ → Ω → Fin ((simulationTimes [(1 : ℝ)] (1 / ((N : ℝ) + 1)) N).length + 0) → ℝ) (hD : ∀ N, NormalDraws P _ (D N)) :
    ∃ v : ℕ → ℝ, Tendsto v atTop (𝓝 (HullWhite.bondOptionPrice ⟨1, [], [1], fun _ => 1 / 10⟩ (9 / 10) 1 2 true)) ∧
      ∀ᵐ ω ∂P, ∀ N, Tendsto (fun S : ℕ => (HullWhite.simulatedBondOptions ⟨1, [], [1], fun _ => 1 / 10⟩ [⟨9 / 10, 1, 2, true⟩] (fun s => List.ofFn (D N s ω)) S
        (1 / ((N : ℝ) + 1)) N).getD 0 0) atTop (𝓝 (v N)) := by
  have hvol : HullWhite.volatility ⟨1, [], [1], fun _ => 1 / 10⟩ = fun _ => 1 := by
    funext t; simp [HullWhite.volatility, piecewiseConstant, searchLeft]
  have hfwd : HullWhite.instantForwardRate ⟨1, [], [1], fun _ => 1 / 10⟩ = fun _ => 1 / 10 := by
    funext t
    rw [instantForwardRate_eq]
    simp only
    rw [deriv_const_mul _ differentiableAt_id]
    simp
  obtain ⟨v, h1, h2⟩ := C131_bond_options P ⟨1, [], [1], fun _ => 1 / 10⟩ ⟨by norm_num, by simp, by simp⟩ (fun t _ => differentiableAt_const _)
    (by rw [hfwd]; exact continuousOn_const) [⟨9 / 10, 1, 2, true⟩] (by simp) (by simp) (by simp) (by
      intro o ho
      simp only [List.mem_singleton] at ho
      subst ho
      simp only [hvol]
      unfold convexity
      rw [(C51_constant 1 1 one_ne_zero (fun _ => 1 / 10) 1 zero_le_one).1]
      have : Real.exp (-2 * 1 * 1) < 1 := by rw [← Real.exp_zero]; exact Real.exp_lt_exp.2 (by norm_num)
      have h2 : (0 : ℝ) < 1 - Real.exp (-2 * 1 * 1) := by linarith
      positivity)
    (fun N => 1 / ((N : ℝ) + 1)) (fun N => by positivity) tendsto_one_div_add_atTop_nhds_zero_nat (fun N => N) (by
      intro N o ho
      simp only [List.mem_singleton] at ho
      subst ho
      push_cast
      have : (N : ℝ) + 1 ≠ 0 := by positivity
      rw [mul_one_div_cancel this]) D hD
  refine ⟨fun N => v N ⟨9 / 10, 1, 2, true⟩, h1 _ (by simp), ?_⟩
  filter_upwards [h2] with ω hω
  intro N
  exact hω N 0 _ rfl

/-- The covariance of the rates after one and two years for volatility and mean reversion one. -/
example : timeCovariance 1 (fun _ => 1) 1 2 = Real.exp (-1) * ((1 - Real.exp (-2)) / 2) := by
  unfold timeCovariance convexity
  rw [min_eq_left (by norm_num), (C51_constant 1 1 one_ne_zero (fun _ => 0) 1 zero_le_one).1]
  norm_num
  ring

end Props
