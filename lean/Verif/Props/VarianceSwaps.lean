import Verif.Model.VarianceSwaps
import Verif.Lemmas.Segments
import Verif.Lemmas.Schedules
import Verif.Props.VanillaPrices
import Mathlib.Analysis.Convex.SpecificFunctions.Basic

/-! # C34 Replication of variance swaps -/

namespace Spec

/-- Payoff of the log contract that a variance swap is hedged with. -/
noncomputable def logContract (reference expiry x : ℝ) : ℝ := 2 / expiry * ((x - reference) / reference - Real.log (x / reference))

/-- Payoff of a portfolio of options: `weights[i]` options with strike `strikes[i]`. -/
noncomputable def portfolioPayoff (isCall : Bool) (strikes weights : List ℝ) (x : ℝ) : ℝ :=
  (List.zipWith (fun k w => w * vanillaPayoff isCall k x) strikes weights).sum

/-- Strikes of calls ascend, strikes of puts descend. -/
def Ordered (isCall : Bool) (strikes : List ℝ) : Prop :=
  strikes.Pairwise (fun a b => if isCall then a < b else b < a)

end Spec

namespace Lemmas
open Model Spec

theorem list_sum_range (l : List ℝ) : l.sum = ∑ i ∈ Finset.range l.length, l.getD i 0 := by
  induction l with
  | nil => simp
  | cons a l ih =>
    rw [List.sum_cons, List.length_cons, Finset.sum_range_succ', ih]
    simp [add_comm]

/-- Slope of the log contract between neighbouring strikes. -/
noncomputable def vsSlope (strikes : List ℝ) (ref T : ℝ) (i : Nat) : ℝ :=
  (logContract ref T (strikes.getD (i + 1) 0) - logContract ref T (strikes.getD i 0)) /
    (strikes.getD (i + 1) 0 - strikes.getD i 0)

noncomputable def vsWeight (strikes : List ℝ) (ref T : ℝ) (i : Nat) : ℝ :=
  vsSlope strikes ref T i - if i = 0 then 0 else vsSlope strikes ref T (i - 1)

/-- Algebra of the portfolio: the first `j + 1` positions. -/
theorem vs_telescope (strikes : List ℝ) (ref T x : ℝ) (j : Nat)
    (hne : ∀ i, i ≤ j → strikes.getD (i + 1) 0 ≠ strikes.getD i 0) :
    ∑ i ∈ Finset.range (j + 1), vsWeight strikes ref T i * (x - strikes.getD i 0) =
      logContract ref T (strikes.getD j 0) - logContract ref T (strikes.getD 0 0) +
        vsSlope strikes ref T j * (x - strikes.getD j 0) := by
  induction j with
  | zero => simp [vsWeight]
  | succ j ih =>
    rw [Finset.sum_range_succ, ih (fun i hi => hne i (by omega))]
    have h := sub_ne_zero.mpr (hne j (by omega))
    have hs : vsSlope strikes ref T j * (strikes.getD (j + 1) 0 - strikes.getD j 0) =
        logContract ref T (strikes.getD (j + 1) 0) - logContract ref T (strikes.getD j 0) := by
      unfold vsSlope; rw [div_mul_cancel₀ _ h]
    have hw : vsWeight strikes ref T (j + 1) = vsSlope strikes ref T (j + 1) - vsSlope strikes ref T j := by
      simp [vsWeight]
    rw [hw]
    linear_combination hs

theorem ordered_getD {isCall : Bool} {strikes : List ℝ} (h : Ordered isCall strikes) {i j : Nat} (hij : i < j)
    (hj : j < strikes.length) :
    if isCall then strikes.getD i 0 < strikes.getD j 0 else strikes.getD j 0 < strikes.getD i 0 := by
  have := List.pairwise_iff_getElem.mp h i j (by omega) hj hij
  rw [← List.getElem_eq_getD (h := by omega) 0, ← List.getElem_eq_getD (h := hj) 0] 
  exact this

theorem ordered_ne {isCall : Bool} {strikes : List ℝ} (h : Ordered isCall strikes) {i : Nat}
    (hj : i + 1 < strikes.length) : strikes.getD (i + 1) 0 ≠ strikes.getD i 0 := by
  have := ordered_getD h (Nat.lt_succ_self i) hj
  rcases isCall with _ | _
  · simp only [Bool.false_eq_true, if_false] at this; exact this.ne
  · simp only [if_true] at this; exact this.ne'

/-- The code's weights. -/
theorem replicatingWeights_eq {isCall : Bool} {strikes : List ℝ} (ref T : ℝ) (h : Ordered isCall strikes)
    (hpos : ∀ k ∈ strikes, 0 < k) (hr : 0 < ref) (validate : Bool) (hlen : 2 ≤ strikes.length) :
    replicatingWeights strikes ref T validate = .ok ((List.range (strikes.length - 1)).map (fun i =>
      if isCall then vsWeight strikes ref T i else -vsWeight strikes ref T i)) := by
  have hd : ∀ i, i + 1 < strikes.length → (diff strikes 1 true)[i]? = some (strikes.getD (i + 1) 0 - strikes.getD i 0) :=
    fun i hi => diff_ex_getElem? strikes 1 i hi
  have hdl : (diff strikes 1 true).length = strikes.length - 1 := diff_ex_length strikes 1
  have hdesc : (∀ d ∈ diff strikes 1 true, d < 0) ↔ isCall = false := by
    constructor
    · intro hall
      have h0 := ordered_getD h (show 0 < 1 by omega) (by omega)
      have := hall _ (List.mem_of_getElem? (hd 0 (by omega)))
      rcases isCall with _ | _
      · rfl
      · simp only [if_true] at h0; simp only [zero_add] at this; linarith
    · rintro rfl d hd'
      obtain ⟨i, hi, rfl⟩ := List.mem_iff_getElem.mp hd'
      have e := hd i (by omega)
      rw [List.getElem?_eq_getElem hi] at e
      have h0 := ordered_getD h (Nat.lt_succ_self i) (by omega)
      simp only [Bool.false_eq_true, if_false] at h0
      rw [Option.some.inj e]
      linarith
  have hasc : isCall = true → (∀ d ∈ diff strikes 1 true, d > 0) := by
    rintro rfl d hd'
    obtain ⟨i, hi, rfl⟩ := List.mem_iff_getElem.mp hd'
    have e := hd i (by omega)
    rw [List.getElem?_eq_getElem hi] at e
    have h0 := ordered_getD h (Nat.lt_succ_self i) (by omega)
    simp only [if_true] at h0
    rw [Option.some.inj e]
    linarith
  have hpay : strikes.map (fun k => 2 / T * ((k - ref) / ref - (Real.log k - Real.log ref))) =
      strikes.map (logContract ref T) := by
    apply List.map_congr_left
    intro k hk
    unfold logContract
    rw [Real.log_div (hpos k hk).ne' hr.ne']
  have hrv : List.zipWith (fun a b => a / b) (diff (strikes.map (logContract ref T)) 1 true) (diff strikes 1 true) =
      (List.range (strikes.length - 1)).map (vsSlope strikes ref T) := by
    apply List.ext_getElem?
    intro i
    by_cases hi : i + 1 < strikes.length
    · rw [List.getElem?_zipWith, hd i hi, diff_ex_getElem? _ 1 i (by simpa using hi), List.getElem?_map,
        List.getElem?_range (by omega)]
      simp only [Option.map_some]
      have e : ∀ m, m < strikes.length → (strikes.map (logContract ref T)).getD m 0 = logContract ref T (strikes.getD m 0) := by
        intro m hm
        rw [List.getD_eq_getElem?_getD, List.getElem?_map, List.getElem?_eq_getElem hm, List.getD_eq_getElem?_getD,
          List.getElem?_eq_getElem hm]
        rfl
      rw [e _ hi, e _ (by omega)]
      rfl
    · rw [List.getElem?_eq_none (by simp [hdl, diff_ex_length]; omega), List.getElem?_eq_none (by simp; omega)]
  have hrd : diff (0 :: (List.range (strikes.length - 1)).map (vsSlope strikes ref T)) 1 true =
      (List.range (strikes.length - 1)).map (vsWeight strikes ref T) := by
    apply List.ext_getElem?
    intro i
    by_cases hi : i + 1 < strikes.length
    · rw [diff_ex_getElem? _ 1 i (by simp; omega), List.getElem?_map, List.getElem?_range (by omega)]
      have e : ∀ m, m < strikes.length - 1 → ((List.range (strikes.length - 1)).map (vsSlope strikes ref T)).getD m 0 =
          vsSlope strikes ref T m := by
        intro m hm
        rw [List.getD_eq_getElem?_getD, List.getElem?_map, List.getElem?_range hm]
        rfl
      simp only [List.getD_cons_succ, Option.map_some]
      rw [e i (by omega)]
      congr 1
      unfold vsWeight
      congr 1
      rcases i with _ | i
      · simp
      · rw [List.getD_cons_succ, e i (by omega)]; simp
    · rw [List.getElem?_eq_none (by simp [diff_ex_length]; omega), List.getElem?_eq_none (by simp; omega)]
  unfold replicatingWeights
  simp only
  rw [if_neg, hpay, hrv, hrd]
  · congr 1
    rcases isCall with _ | _
    · rw [if_pos (hdesc.mpr rfl), List.map_map]
      simp [Function.comp_def]
    · rw [if_neg (fun hh => by simpa using hdesc.mp hh)]
      simp
  · rintro ⟨-, hn⟩
    apply hn
    rcases isCall with _ | _
    · exact Or.inl (hdesc.mpr rfl)
    · exact Or.inr (hasc rfl)

/-- The portfolio in terms of the slopes. -/
theorem portfolio_sum (isCall : Bool) (strikes : List ℝ) (w : Nat → ℝ) (n : Nat) (hn : n ≤ strikes.length) (x : ℝ) :
    portfolioPayoff isCall strikes ((List.range n).map w) x =
      ∑ i ∈ Finset.range n, w i * vanillaPayoff isCall (strikes.getD i 0) x := by
  unfold portfolioPayoff
  rw [list_sum_range]
  have hl : (List.zipWith (fun k w => w * vanillaPayoff isCall k x) strikes ((List.range n).map w)).length = n := by
    simp [hn]
  rw [hl]
  apply Finset.sum_congr rfl
  intro i hi
  have hi' := Finset.mem_range.mp hi
  rw [List.getD_eq_getElem?_getD, List.getElem?_zipWith, List.getElem?_map, List.getElem?_range hi',
    List.getElem?_eq_getElem (show i < strikes.length by omega), List.getD_eq_getElem?_getD,
    List.getElem?_eq_getElem (show i < strikes.length by omega)]
  rfl

theorem portfolio_between {isCall : Bool} {strikes : List ℝ} (ref T : ℝ) (h : Ordered isCall strikes) (j : Nat)
    (hj : j + 1 < strikes.length) (x : ℝ)
    (hx : if isCall then strikes.getD j 0 ≤ x ∧ x ≤ strikes.getD (j + 1) 0 else
      strikes.getD (j + 1) 0 ≤ x ∧ x ≤ strikes.getD j 0) :
    portfolioPayoff isCall strikes ((List.range (strikes.length - 1)).map (fun i =>
      if isCall then vsWeight strikes ref T i else -vsWeight strikes ref T i)) x =
      logContract ref T (strikes.getD j 0) - logContract ref T (strikes.getD 0 0) +
        vsSlope strikes ref T j * (x - strikes.getD j 0) := by
  rw [portfolio_sum _ _ _ _ (by omega), ← vs_telescope strikes ref T x j (fun i hi => ordered_ne h (by omega)),
    ← Finset.sum_subset (Finset.range_mono (show j + 1 ≤ strikes.length - 1 by omega))]
  · apply Finset.sum_congr rfl
    intro i hi
    have hi' := Finset.mem_range.mp hi
    unfold vanillaPayoff
    have hle : if isCall then strikes.getD i 0 ≤ strikes.getD j 0 else strikes.getD j 0 ≤ strikes.getD i 0 := by
      rcases Nat.lt_or_ge i j with hlt | hge
      · have := ordered_getD h hlt (by omega)
        rcases isCall with _ | _ <;> simp_all <;> linarith
      · have : i = j := by omega
        rw [this]; simp
    rcases isCall with _ | _
    · simp only [Bool.false_eq_true, if_false] at *
      rw [max_eq_left (by linarith)]; ring
    · simp only [if_true] at *
      rw [max_eq_left (by linarith)]
  · intro i hi hni
    have hi' := Finset.mem_range.mp hi
    have hni' : j + 1 ≤ i := by simpa using hni
    have hle : if isCall then strikes.getD (j + 1) 0 ≤ strikes.getD i 0 else strikes.getD i 0 ≤ strikes.getD (j + 1) 0 := by
      rcases Nat.lt_or_ge (j + 1) i with hlt | hge
      · have := ordered_getD h hlt (by omega)
        rcases isCall with _ | _ <;> simp_all <;> linarith
      · have : i = j + 1 := by omega
        rw [this]; simp
    unfold vanillaPayoff
    rcases isCall with _ | _
    · simp only [Bool.false_eq_true, if_false] at *
      rw [max_eq_right (by linarith)]; ring
    · simp only [if_true] at *
      rw [max_eq_right (by linarith)]; ring

theorem logContract_convex (ref T : ℝ) (hr : 0 < ref) (hT : 0 < T) : StrictConvexOn ℝ (Set.Ioi 0) (logContract ref T) := by
  refine ⟨convex_Ioi 0, ?_⟩
  intro x hx y hy hxy a b ha hb hab
  have := strictConcaveOn_log_Ioi.2 hx hy hxy ha hb hab
  simp only [smul_eq_mul] at this ⊢
  have hx' : 0 < x := hx
  have hy' : 0 < y := hy
  have hz : 0 < a * x + b * y := by positivity
  unfold logContract
  rw [Real.log_div hx'.ne' hr.ne', Real.log_div hy'.ne' hr.ne', Real.log_div hz.ne' hr.ne']
  have h2 : 0 < 2 / T := by positivity
  have hb' : b = 1 - a := by linarith
  have e : a * (2 / T * ((x - ref) / ref - (Real.log x - Real.log ref))) +
      b * (2 / T * ((y - ref) / ref - (Real.log y - Real.log ref))) -
      2 / T * ((a * x + b * y - ref) / ref - (Real.log (a * x + b * y) - Real.log ref)) =
      2 / T * (Real.log (a * x + b * y) - (a * Real.log x + b * Real.log y)) := by
    subst hb'
    field_simp
    ring
  have := mul_pos h2 (sub_pos.mpr this)
  linarith

theorem logContract_strictMono (ref T : ℝ) (hr : 0 < ref) (hT : 0 < T) {x y : ℝ} (hx : ref ≤ x) (hxy : x < y) :
    logContract ref T x < logContract ref T y := by
  have hx0 : 0 < x := by linarith
  have hy0 : 0 < y := by linarith
  have h1 : Real.log (y / x) < y / x - 1 := Real.log_lt_sub_one_of_pos (by positivity) (by
    intro h; rw [div_eq_one_iff_eq hx0.ne'] at h; linarith)
  unfold logContract
  apply mul_lt_mul_of_pos_left _ (by positivity)
  rw [Real.log_div hx0.ne' hr.ne', Real.log_div hy0.ne' hr.ne']
  rw [Real.log_div hy0.ne' hx0.ne'] at h1
  have h2 : y / x - 1 ≤ (y - x) / ref := by
    rw [div_sub_one hx0.ne']
    exact div_le_div_of_nonneg_left (by linarith) hr hx
  have h3 : (y - ref) / ref - (x - ref) / ref = (y - x) / ref := by ring
  linarith

theorem logContract_strictAnti (ref T : ℝ) (hr : 0 < ref) (hT : 0 < T) {x y : ℝ} (hx0 : 0 < x) (hy : y ≤ ref) (hxy : x < y) :
    logContract ref T y < logContract ref T x := by
  have hy0 : 0 < y := by linarith
  have h1 : Real.log (x / y) < x / y - 1 := Real.log_lt_sub_one_of_pos (by positivity) (by
    intro h; rw [div_eq_one_iff_eq hy0.ne'] at h; linarith)
  unfold logContract
  apply mul_lt_mul_of_pos_left _ (by positivity)
  rw [Real.log_div hx0.ne' hr.ne', Real.log_div hy0.ne' hr.ne']
  rw [Real.log_div hx0.ne' hy0.ne'] at h1
  have h2 : (y - x) / ref ≤ 1 - x / y := by
    rw [one_sub_div hy0.ne']
    exact div_le_div_of_nonneg_left (by linarith) hy0 hy
  have h3 : (y - ref) / ref - (x - ref) / ref = (y - x) / ref := by ring
  linarith

theorem getD_pos {strikes : List ℝ} (hpos : ∀ k ∈ strikes, 0 < k) {i : Nat} (hi : i < strikes.length) :
    0 < strikes.getD i 0 := by
  rw [← List.getElem_eq_getD (h := hi) 0]; exact hpos _ (List.getElem_mem hi)

theorem lognormal_facts (F s : ℝ) (hF : 0 < F) :
    MeasureTheory.Integrable (fun x => Real.exp x)
      (ProbabilityTheory.gaussianReal (Real.log F - s ^ 2 / 2) (Real.toNNReal (s ^ 2))) ∧
    MeasureTheory.Integrable (fun x : ℝ => x)
      (ProbabilityTheory.gaussianReal (Real.log F - s ^ 2 / 2) (Real.toNNReal (s ^ 2))) ∧
    ∫ x, Real.exp x ∂(ProbabilityTheory.gaussianReal (Real.log F - s ^ 2 / 2) (Real.toNNReal (s ^ 2))) = F := by
  refine ⟨?_, ?_, ?_⟩
  · have := ProbabilityTheory.integrable_exp_mul_gaussianReal (μ := Real.log F - s ^ 2 / 2) (v := Real.toNNReal (s ^ 2)) 1
    simpa using this
  · exact MeasureTheory.memLp_one_iff_integrable.mp (ProbabilityTheory.memLp_id_gaussianReal 1)
  · have h := ProbabilityTheory.mgf_id_gaussianReal (μ := Real.log F - s ^ 2 / 2) (v := Real.toNNReal (s ^ 2))
    have h1 := congrFun h 1
    simp only [ProbabilityTheory.mgf, one_mul, id_eq, mul_one, one_pow] at h1
    rw [h1, Real.coe_toNNReal _ (sq_nonneg s), sub_add_cancel, Real.exp_log hF]

theorem vanillaPayoff_integrable (F s : ℝ) (hF : 0 < F) (c : Bool) (K : ℝ) :
    MeasureTheory.Integrable (fun x => vanillaPayoff c K (Real.exp x))
      (ProbabilityTheory.gaussianReal (Real.log F - s ^ 2 / 2) (Real.toNNReal (s ^ 2))) := by
  have hi := (lognormal_facts F s hF).1
  rcases c with _ | _
  · have := ((MeasureTheory.integrable_const K).sub hi).pos_part
    simpa [vanillaPayoff] using this
  · have := (hi.sub (MeasureTheory.integrable_const K)).pos_part
    simpa [vanillaPayoff] using this

theorem portfolio_integrable (F s : ℝ) (hF : 0 < F) (c : Bool) (strikes w : List ℝ) :
    MeasureTheory.Integrable (fun x => portfolioPayoff c strikes w (Real.exp x))
      (ProbabilityTheory.gaussianReal (Real.log F - s ^ 2 / 2) (Real.toNNReal (s ^ 2))) := by
  induction strikes generalizing w with
  | nil => simp [portfolioPayoff]
  | cons k strikes ih =>
    rcases w with _ | ⟨a, w⟩
    · simp [portfolioPayoff]
    · have := ((vanillaPayoff_integrable F s hF c k).const_mul a).add (ih w)
      refine this.congr (Filter.Eventually.of_forall (fun x => ?_))
      simp [portfolioPayoff]

theorem portfolio_expectation (F s : ℝ) (hF : 0 < F) (c : Bool) (strikes w : List ℝ) :
    lognormalExpectation F s (portfolioPayoff c strikes w) =
      (List.zipWith (fun k a => a * lognormalExpectation F s (vanillaPayoff c k)) strikes w).sum := by
  induction strikes generalizing w with
  | nil => simp [portfolioPayoff, lognormalExpectation, normalExpectation]
  | cons k strikes ih =>
    rcases w with _ | ⟨a, w⟩
    · simp [portfolioPayoff, lognormalExpectation, normalExpectation]
    · have h := MeasureTheory.integral_add ((vanillaPayoff_integrable F s hF c k).const_mul a)
        (portfolio_integrable F s hF c strikes w)
      rw [MeasureTheory.integral_const_mul] at h
      rw [List.zipWith_cons_cons, List.sum_cons, ← ih w]
      refine Eq.trans ?_ h
      simp [portfolioPayoff, lognormalExpectation, normalExpectation]

end Lemmas

namespace Props
open Model Lemmas Spec

/-- C34: at every strike the portfolio pays the log contract, less its value at the first strike (which is zero if the first
strike is the reference). Between strikes the portfolio interpolates linearly. Before the first strike it pays nothing. -/
theorem C34_replicates (isCall : Bool) (strikes : List ℝ) (ref T : ℝ) (validate : Bool) (h : Ordered isCall strikes)
    (hpos : ∀ k ∈ strikes, 0 < k) (hr : 0 < ref) (hlen : 2 ≤ strikes.length) :
    ∃ w, replicatingWeights strikes ref T validate = .ok w ∧ w.length = strikes.length - 1 ∧
      (∀ k ∈ strikes, portfolioPayoff isCall strikes w k = logContract ref T k - logContract ref T (strikes.getD 0 0)) ∧
      (∀ (j : Nat) (k k' : ℝ), strikes[j]? = some k → strikes[j + 1]? = some k' → ∀ t, 0 ≤ t → t ≤ 1 →
        portfolioPayoff isCall strikes w ((1 - t) * k + t * k') =
          (1 - t) * portfolioPayoff isCall strikes w k + t * portfolioPayoff isCall strikes w k') ∧
      (∀ x, (if isCall then x ≤ strikes.getD 0 0 else strikes.getD 0 0 ≤ x) → portfolioPayoff isCall strikes w x = 0) := by
  refine ⟨_, replicatingWeights_eq ref T h hpos hr validate hlen, by simp, ?_, ?_, ?_⟩
  · intro k hk
    obtain ⟨i, hi, rfl⟩ := List.mem_iff_getElem.mp hk
    rw [List.getElem_eq_getD (h := hi) 0]
    by_cases hi' : i + 1 < strikes.length
    · rw [portfolio_between ref T h i hi']
      · ring
      · have := ordered_getD h (Nat.lt_succ_self i) hi'
        rcases isCall with _ | _
        · simp only [Bool.false_eq_true, if_false] at *; exact ⟨this.le, le_refl _⟩
        · simp only [if_true] at *; exact ⟨le_refl _, this.le⟩
    · obtain ⟨m, rfl⟩ : ∃ m, i = m + 1 := ⟨i - 1, by omega⟩
      rw [portfolio_between ref T h m (by omega)]
      · have hne := sub_ne_zero.mpr (ordered_ne h (i := m) (by omega))
        unfold vsSlope
        rw [div_mul_cancel₀ _ hne]; ring
      · have := ordered_getD h (Nat.lt_succ_self m) (by omega)
        rcases isCall with _ | _
        · simp only [Bool.false_eq_true, if_false] at *; exact ⟨le_refl _, this.le⟩
        · simp only [if_true] at *; exact ⟨this.le, le_refl _⟩
  · intro j k k' hk hk' t ht0 ht1
    have hj : j + 1 < strikes.length := by
      by_contra hc
      rw [List.getElem?_eq_none (by omega)] at hk'
      cases hk'
    have ek : strikes.getD j 0 = k := by rw [List.getD_eq_getElem?_getD, hk]; rfl
    have ek' : strikes.getD (j + 1) 0 = k' := by rw [List.getD_eq_getElem?_getD, hk']; rfl
    have hord := ordered_getD h (Nat.lt_succ_self j) hj
    rw [Nat.succ_eq_add_one, ek, ek'] at hord
    have key : ∀ x, (if isCall then k ≤ x ∧ x ≤ k' else k' ≤ x ∧ x ≤ k) → _ := fun x hx =>
      portfolio_between ref T h j hj x (by rw [ek, ek']; exact hx)
    rw [key, key k, key k', ek]
    · ring
    all_goals rcases isCall with _ | _
    all_goals simp only [Bool.false_eq_true, if_false, if_true] at *
    all_goals constructor
    all_goals nlinarith
  · intro x hx
    rw [portfolio_sum _ _ _ _ (by omega)]
    apply Finset.sum_eq_zero
    intro i hi
    have hi' := Finset.mem_range.mp hi
    have hle : if isCall then strikes.getD 0 0 ≤ strikes.getD i 0 else strikes.getD i 0 ≤ strikes.getD 0 0 := by
      rcases Nat.eq_zero_or_pos i with rfl | hp
      · simp
      · have := ordered_getD h hp (by omega)
        rcases isCall with _ | _ <;> simp_all <;> linarith
    unfold vanillaPayoff
    rcases isCall with _ | _
    · simp only [Bool.false_eq_true, if_false] at *
      rw [max_eq_right (by linarith), mul_zero]
    · simp only [if_true] at *
      rw [max_eq_right (by linarith), mul_zero]

/-- C34: if the first strike is on the right side of the reference, every weight is positive. -/
theorem C34_weights_positive (isCall : Bool) (strikes : List ℝ) (ref T : ℝ) (validate : Bool) (h : Ordered isCall strikes)
    (hpos : ∀ k ∈ strikes, 0 < k) (hr : 0 < ref) (hT : 0 < T) (hlen : 2 ≤ strikes.length)
    (hfirst : if isCall then ref ≤ strikes.getD 0 0 else strikes.getD 0 0 ≤ ref) :
    ∃ w, replicatingWeights strikes ref T validate = .ok w ∧ ∀ x ∈ w, 0 < x := by
  refine ⟨_, replicatingWeights_eq ref T h hpos hr validate hlen, ?_⟩
  intro x hx
  obtain ⟨i, hi, rfl⟩ := List.mem_map.mp hx
  have hi' : i < strikes.length - 1 := List.mem_range.mp hi
  have hconv := logContract_convex ref T hr hT
  have hp := fun m (hm : m < strikes.length) => getD_pos hpos hm
  rcases i with _ | i
  · have h0 := ordered_getD h (show 0 < 1 by omega) (by omega)
    simp only [vsWeight, vsSlope, if_true, sub_zero, zero_add]
    rcases isCall with _ | _
    · simp only [Bool.false_eq_true, if_false] at *
      have := logContract_strictAnti ref T hr hT (hp 1 (by omega)) hfirst h0
      rw [← div_neg]
      exact div_pos (by linarith) (by linarith)
    · simp only [if_true] at *
      have := logContract_strictMono ref T hr hT hfirst h0
      exact div_pos (by linarith) (by linarith)
  · have h0 := ordered_getD h (Nat.lt_succ_self i) (by omega)
    have h1 := ordered_getD h (Nat.lt_succ_self (i + 1)) (by omega)
    simp only [vsWeight, vsSlope, Nat.succ_ne_zero, if_false, Nat.add_sub_cancel]
    simp only [Nat.succ_eq_add_one] at h0 h1
    rcases isCall with _ | _
    · simp only [Bool.false_eq_true, if_false] at *
      have := hconv.slope_strict_mono_adjacent (hp (i + 1 + 1) (by omega)) (hp i (by omega)) h1 h0
      rw [← neg_div_neg_eq (logContract ref T (strikes.getD (i + 1) 0) - logContract ref T (strikes.getD i 0)),
        ← neg_div_neg_eq (logContract ref T (strikes.getD (i + 1 + 1) 0) - logContract ref T (strikes.getD (i + 1) 0))]
      simp only [neg_sub]
      linarith
    · simp only [if_true] at *
      have := hconv.slope_strict_mono_adjacent (hp i (by omega)) (hp (i + 1 + 1) (by omega)) h0 h1
      linarith

/-- C34: within the range of the strikes, the portfolio with the first strike at the reference never pays less than the log
contract. -/
theorem C34_dominates (isCall : Bool) (strikes : List ℝ) (ref T : ℝ) (validate : Bool) (h : Ordered isCall strikes)
    (hpos : ∀ k ∈ strikes, 0 < k) (hr : 0 < ref) (hT : 0 < T) (hlen : 2 ≤ strikes.length) (h0 : strikes.getD 0 0 = ref) :
    ∃ w, replicatingWeights strikes ref T validate = .ok w ∧
      ∀ (j : Nat) (k k' : ℝ), strikes[j]? = some k → strikes[j + 1]? = some k' → ∀ t, 0 ≤ t → t ≤ 1 →
        logContract ref T ((1 - t) * k + t * k') ≤ portfolioPayoff isCall strikes w ((1 - t) * k + t * k') := by
  obtain ⟨w, hw, -, hat, hlin, -⟩ := C34_replicates isCall strikes ref T validate h hpos hr hlen
  refine ⟨w, hw, fun j k k' hk hk' t ht0 ht1 => ?_⟩
  have hz : logContract ref T ref = 0 := by simp [logContract, hr.ne']
  rw [hlin j k k' hk hk' t ht0 ht1, hat k (List.mem_of_getElem? hk), hat k' (List.mem_of_getElem? hk'), h0, hz, sub_zero,
    sub_zero]
  have := (logContract_convex ref T hr hT).convexOn.2 (hpos k (List.mem_of_getElem? hk)) (hpos k' (List.mem_of_getElem? hk'))
    (show 0 ≤ 1 - t by linarith) ht0 (by ring)
  simpa using this

/-- C34: with a flat volatility, the fair strike is the variance plus the expected replication error, the expectation of the
difference between the payoffs of the option portfolio and the log contract. -/
theorem C34_fair_strike_flat (puts calls : List ℝ) (σ T r S ref : ℝ) (validate : Bool) (hp : Ordered false puts)
    (hc : Ordered true calls) (hpp : ∀ k ∈ puts, 0 < k) (hcp : ∀ k ∈ calls, 0 < k) (hpl : 2 ≤ puts.length)
    (hcl : 2 ≤ calls.length) (hσ : 0 ≤ σ) (hT : 0 < T) (hS : 0 < S) (hr : 0 < ref) :
    ∃ wp wc, replicatingWeights puts ref T validate = .ok wp ∧ replicatingWeights calls ref T validate = .ok wc ∧
      fairStrike puts (puts.map fun _ => σ) calls (calls.map fun _ => σ) T r S ref validate =
        .ok (σ ^ 2 + lognormalExpectation (S * Real.exp (r * T)) (σ * Real.sqrt T) (fun x =>
          portfolioPayoff false puts wp x + portfolioPayoff true calls wc x - logContract ref T x)) := by
  have hwp := replicatingWeights_eq ref T hp hpp hr validate hpl
  have hwc := replicatingWeights_eq ref T hc hcp hr validate hcl
  refine ⟨_, _, hwp, hwc, ?_⟩
  set wp := (List.range (puts.length - 1)).map (fun i =>
    if false = true then vsWeight puts ref T i else -vsWeight puts ref T i) with hwpd
  set wc := (List.range (calls.length - 1)).map (fun i =>
    if true = true then vsWeight calls ref T i else -vsWeight calls ref T i) with hwcd
  set F := S * Real.exp (r * T) with hFd
  set s := σ * Real.sqrt T with hsd
  have hF : 0 < F := by positivity
  have hprice : ∀ (c : Bool) (l : List ℝ), (∀ k ∈ l, 0 < k) → replicationPrices l (l.map fun _ => σ) T r S c =
      .ok (l.dropLast.map (fun k => Real.exp (-(r * T)) * lognormalExpectation F s (vanillaPayoff c k))) := by
    intro c l hl
    unfold replicationPrices
    have hz : List.zip l.dropLast (l.map fun _ => σ).dropLast = l.dropLast.map (fun k => (k, σ)) := by
      rw [← List.map_dropLast]
      generalize l.dropLast = m
      induction m with
      | nil => rfl
      | cons a m ih => simp only [List.map_cons, List.zip_cons_cons, ih]
    rw [hz, mapM_ok _ (fun p => Real.exp (-(r * T)) * lognormalExpectation F s (vanillaPayoff c p.1)), List.map_map]
    · rfl
    · intro p hpm
      obtain ⟨k, hk, rfl⟩ := List.mem_map.mp hpm
      have hk0 := hl k (List.mem_of_mem_dropLast hk)
      set a : BsArgs := {
        volatility := σ
        strike := k
        expiry := T
        spot := some S
        discountRate := some r
        isCall := some c } with ha
      have hv : ValidArgs a := ⟨by simp [ha], by simp [ha], hσ, hT.le, by simp [ha]⟩
      have hf : forward a = F := by
        simp only [forward, ha, Option.getD_some, Option.getD_none, zero_mul, neg_zero, Real.exp_zero, mul_one, discount]
        rw [Real.exp_neg, div_inv_eq_mul]
      have := C31_expectation a hv (fun _ => ⟨by rw [hf]; exact hF, hk0⟩)
      rw [this]
      unfold expectation
      rw [hf]
      rfl
  have hsum : ∀ (c : Bool) (l : List ℝ) (w : List ℝ), w.length = l.length - 1 →
      (List.zipWith (fun w p => w * p) w (l.dropLast.map (fun k => Real.exp (-(r * T)) *
        lognormalExpectation F s (vanillaPayoff c k)))).sum =
      Real.exp (-(r * T)) * lognormalExpectation F s (portfolioPayoff c l w) := by
    intro c l w hl
    rw [portfolio_expectation F s hF]
    have hl' : w.length = l.dropLast.length := by simp [hl]
    have hz : List.zipWith (fun k a => a * lognormalExpectation F s (vanillaPayoff c k)) l w =
        List.zipWith (fun k a => a * lognormalExpectation F s (vanillaPayoff c k)) l.dropLast w := by
      rw [List.dropLast_eq_take, ← hl]
      clear hl hl'
      induction l generalizing w with
      | nil => simp
      | cons k l ih =>
        rcases w with _ | ⟨a, w⟩
        · simp
        · simp [ih w]
    rw [hz]
    generalize l.dropLast = m at hl' ⊢
    clear hz hl
    induction m generalizing w with
    | nil => simp
    | cons k m ih =>
      rcases w with _ | ⟨a, w⟩
      · simp
      · have := ih w (by simpa using hl')
        simp only [List.map_cons, List.zipWith_cons_cons, List.sum_cons] at this ⊢
        rw [this]; ring
  unfold fairStrike
  rw [hwp, bind_ok, hwc, bind_ok, hprice false puts hpp, bind_ok, hprice true calls hcp, bind_ok]
  simp only
  rw [hsum false puts wp (by simp [hwpd]), hsum true calls wc (by simp [hwcd])]
  change Except.ok _ = Except.ok _
  congr 1
  obtain ⟨hi, hid, hmean⟩ := lognormal_facts F s hF
  have hlog : (fun x => logContract ref T (Real.exp x)) = fun x : ℝ =>
      2 / T / ref * Real.exp x - 2 / T * x + 2 / T * (Real.log ref - 1) := by
    funext x
    unfold logContract
    rw [Real.log_div (Real.exp_pos x).ne' hr.ne', Real.log_exp]
    field_simp
    ring
  have hL : lognormalExpectation F s (logContract ref T) =
      2 / T / ref * F - 2 / T * (Real.log F - s ^ 2 / 2) + 2 / T * (Real.log ref - 1) := by
    unfold lognormalExpectation normalExpectation
    have h1 : MeasureTheory.Integrable (fun x : ℝ => 2 / T / ref * Real.exp x - 2 / T * x)
      (ProbabilityTheory.gaussianReal (Real.log F - s ^ 2 / 2) (Real.toNNReal (s ^ 2))) :=
      (hi.const_mul _).sub (hid.const_mul _)
    rw [hlog, MeasureTheory.integral_add h1 (MeasureTheory.integrable_const _),
      MeasureTheory.integral_sub (hi.const_mul _) (hid.const_mul _), MeasureTheory.integral_const_mul,
      MeasureTheory.integral_const_mul, hmean, ProbabilityTheory.integral_id_gaussianReal]
    simp
  have hLi : MeasureTheory.Integrable (fun x => logContract ref T (Real.exp x))
      (ProbabilityTheory.gaussianReal (Real.log F - s ^ 2 / 2) (Real.toNNReal (s ^ 2))) := by
    rw [hlog]
    exact ((hi.const_mul _).sub (hid.const_mul _)).add (MeasureTheory.integrable_const _)
  have hE : lognormalExpectation F s (fun x => portfolioPayoff false puts wp x + portfolioPayoff true calls wc x -
      logContract ref T x) = lognormalExpectation F s (portfolioPayoff false puts wp) +
      lognormalExpectation F s (portfolioPayoff true calls wc) - lognormalExpectation F s (logContract ref T) := by
    unfold lognormalExpectation normalExpectation
    have h1 : MeasureTheory.Integrable (fun x : ℝ => portfolioPayoff false puts wp (Real.exp x) +
        portfolioPayoff true calls wc (Real.exp x))
      (ProbabilityTheory.gaussianReal (Real.log F - s ^ 2 / 2) (Real.toNNReal (s ^ 2))) :=
      (portfolio_integrable F s hF false puts wp).add (portfolio_integrable F s hF true calls wc)
    rw [MeasureTheory.integral_sub h1 hLi, MeasureTheory.integral_add (portfolio_integrable F s hF false puts wp) (portfolio_integrable F s hF true calls wc)]
  rw [hE, hL]
  have hs2 : s ^ 2 = σ ^ 2 * T := by rw [hsd, mul_pow, Real.sq_sqrt hT.le]
  have hlF : Real.log F = Real.log S + r * T := by rw [hFd, Real.log_mul hS.ne' (Real.exp_pos _).ne', Real.log_exp]
  rw [hs2, hlF, Real.log_div hS.ne' hr.ne', hFd, mul_comm T r, Real.exp_neg]
  have := Real.exp_pos (r * T)
  field_simp
  ring

example : Ordered false [100, 95, 90] ∧ Ordered true [100, 105, 110, 115] := by
  constructor <;> norm_num [Ordered]

/-- The portfolio of calls struck at 1 and 2 pays the log contract with reference 1 at 1, 2 and 4. -/
example : ∃ w, replicatingWeights [1, 2, 4] 1 1 true = .ok w ∧ portfolioPayoff true [1, 2, 4] w 4 = 2 * (3 - Real.log 4) := by
  obtain ⟨w, h1, -, h2, -⟩ := C34_replicates true [1, 2, 4] 1 1 true (by norm_num [Ordered]) (by norm_num) (by norm_num)
    (by simp)
  refine ⟨w, h1, ?_⟩
  rw [h2 4 (by simp)]
  simp [logContract]
  norm_num

end Props
