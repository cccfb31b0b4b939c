import Verif.Props.VarianceSwaps
import Verif.Props.ImpliedVol
import Mathlib.MeasureTheory.Integral.DominatedConvergence
import Mathlib.Analysis.SpecificLimits.Basic

/-! # C128: the fair strike of a variance swap tends to the value of the log contract, whatever the law of the spot -/

namespace Spec
open MeasureTheory

/-- A law of the spot at expiry: positive, with mean `F` and integrable logarithm. -/
structure SpotLaw (μ : Measure ℝ) (F : ℝ) : Prop where
  probability : IsProbabilityMeasure μ
  positive : ∀ᵐ x ∂μ, 0 < x
  integrable : Integrable (fun x => x) μ
  mean : ∫ x, x ∂μ = F
  log : Integrable Real.log μ

/-- The volatilities are the implied volatilities of the options with the given strikes under the law. -/
def ImpliedQuotes (μ : Measure ℝ) (F T : ℝ) (isCall : Bool) (strikes vols : List ℝ) : Prop :=
  vols.length = strikes.length ∧ ∀ (i : ℕ) (k σ : ℝ), strikes[i]? = some k → vols[i]? = some σ → 0 ≤ σ ∧
    lognormalExpectation F (σ * Real.sqrt T) (vanillaPayoff isCall k) = ∫ x, vanillaPayoff isCall k x ∂μ

/-- Strikes of puts going down and of calls going up from the reference. -/
structure StrikeGrid (ref : ℝ) (puts calls : List ℝ) : Prop where
  puts_ordered : Ordered false puts
  calls_ordered : Ordered true calls
  puts_positive : ∀ k ∈ puts, 0 < k
  puts_length : 2 ≤ puts.length
  calls_length : 2 ≤ calls.length
  puts_first : puts.head? = some ref
  calls_first : calls.head? = some ref

/-- Neighbouring strikes are close. -/
def FineStrikes (η : ℝ) (strikes : List ℝ) : Prop :=
  ∀ (j : ℕ) (k k' : ℝ), strikes[j]? = some k → strikes[j + 1]? = some k' → (k' - k) ^ 2 ≤ η * (k * k')

end Spec

namespace Lemmas
open Model Spec MeasureTheory

/-- The log contract is convex: the chord errs by at most `2 / T * (k' - k) ^ 2 / (k * k')`. -/
theorem logContract_chord (ref T k k' t : ℝ) (hr : 0 < ref) (hT : 0 < T) (hk : 0 < k) (hk' : 0 < k') (h0 : 0 ≤ t) (h1 : t ≤ 1) :
    (1 - t) * logContract ref T k + t * logContract ref T k' - logContract ref T ((1 - t) * k + t * k') ≤
      2 / T * ((k' - k) ^ 2 / (k * k')) := by
  have hx : 0 < (1 - t) * k + t * k' := by
    rcases eq_or_lt_of_le h0 with h | h
    · rw [← h]; simpa using hk
    · have := mul_pos h hk'
      have := mul_nonneg (sub_nonneg.2 h1) hk.le
      linarith
  have e : (1 - t) * logContract ref T k + t * logContract ref T k' - logContract ref T ((1 - t) * k + t * k') =
      2 / T * (Real.log ((1 - t) * k + t * k') - Real.log k - t * (Real.log k' - Real.log k)) := by
    unfold logContract
    rw [Real.log_div hx.ne' hr.ne', Real.log_div hk.ne' hr.ne', Real.log_div hk'.ne' hr.ne']
    ring
  rw [e]
  apply mul_le_mul_of_nonneg_left _ (by positivity)
  have a1 : Real.log ((1 - t) * k + t * k') - Real.log k ≤ t * ((k' - k) / k) := by
    rw [← Real.log_div hx.ne' hk.ne']
    have := Real.log_le_sub_one_of_pos (show 0 < ((1 - t) * k + t * k') / k by positivity)
    refine le_trans this (le_of_eq ?_)
    field_simp; ring
  have a2 : (k' - k) / k' ≤ Real.log k' - Real.log k := by
    have := Real.log_le_sub_one_of_pos (show 0 < k / k' by positivity)
    rw [Real.log_div hk.ne' hk'.ne'] at this
    have e2 : (k' - k) / k' = 1 - k / k' := by field_simp
    rw [e2]; linarith
  have a3 := mul_le_mul_of_nonneg_left a2 h0
  have e3 : t * ((k' - k) / k) - t * ((k' - k) / k') = t * ((k' - k) ^ 2 / (k * k')) := by field_simp
  have a4 : t * ((k' - k) ^ 2 / (k * k')) ≤ 1 * ((k' - k) ^ 2 / (k * k')) :=
    mul_le_mul_of_nonneg_right h1 (by positivity)
  linarith

theorem logContract_nonneg (ref T x : ℝ) (hr : 0 < ref) (hT : 0 < T) (hx : 0 < x) : 0 ≤ logContract ref T x := by
  unfold logContract
  apply mul_nonneg (by positivity)
  have := Real.log_le_sub_one_of_pos (show 0 < x / ref by positivity)
  have e : (x - ref) / ref = x / ref - 1 := by field_simp
  rw [e]; linarith

/-- Beyond the last strike the options continue the last chord. -/
theorem portfolio_beyond {isCall : Bool} {strikes : List ℝ} (ref T : ℝ) (h : Ordered isCall strikes) (j : Nat)
    (hj : j + 2 = strikes.length) (x : ℝ)
    (hx : if isCall then strikes.getD j 0 ≤ x else x ≤ strikes.getD j 0) :
    portfolioPayoff isCall strikes ((List.range (strikes.length - 1)).map (fun i =>
      if isCall then vsWeight strikes ref T i else -vsWeight strikes ref T i)) x =
      logContract ref T (strikes.getD j 0) - logContract ref T (strikes.getD 0 0) +
        vsSlope strikes ref T j * (x - strikes.getD j 0) := by
  rw [portfolio_sum _ _ _ _ (by omega), ← vs_telescope strikes ref T x j (fun i hi => ordered_ne h (by omega)),
    show strikes.length - 1 = j + 1 by omega]
  apply Finset.sum_congr rfl
  intro i hi
  have hi' := Finset.mem_range.mp hi
  unfold vanillaPayoff
  have hle : if isCall then strikes.getD i 0 ≤ strikes.getD j 0 else strikes.getD j 0 ≤ strikes.getD i 0 := by
    rcases Nat.lt_or_ge i j with hlt | hge
    · have := ordered_getD h hlt (by omega)
      rcases isCall with _ | _ <;> simp_all <;> linarith
    · have : i = j := by omega
      rw [this]; simp
  rcases isCall with _ | _
  · simp only [Bool.false_eq_true, if_false] at *
    rw [max_eq_left (by linarith)]; ring
  · simp only [if_true] at *
    rw [max_eq_left (by linarith)]

/-- The interval of a list of strikes that contains a point. -/
theorem strikes_locate {isCall : Bool} {strikes : List ℝ} (h : Ordered isCall strikes) (x : ℝ) (hlen : 2 ≤ strikes.length)
    (h0 : if isCall then strikes.getD 0 0 ≤ x else x ≤ strikes.getD 0 0)
    (h1 : if isCall then x ≤ strikes.getD (strikes.length - 1) 0 else strikes.getD (strikes.length - 1) 0 ≤ x) :
    ∃ j, j + 1 < strikes.length ∧ if isCall then strikes.getD j 0 ≤ x ∧ x ≤ strikes.getD (j + 1) 0 else
      strikes.getD (j + 1) 0 ≤ x ∧ x ≤ strikes.getD j 0 := by
  classical
  rcases isCall with _ | _
  · simp only [Bool.false_eq_true, if_false] at *
    have hex : ∃ n, n + 1 < strikes.length ∧ strikes.getD (n + 1) 0 ≤ x :=
      ⟨strikes.length - 2, by omega, by rw [show strikes.length - 2 + 1 = strikes.length - 1 by omega]; exact h1⟩
    refine ⟨Nat.find hex, (Nat.find_spec hex).1, (Nat.find_spec hex).2, ?_⟩
    cases hz : Nat.find hex with
    | zero => exact h0
    | succ m =>
      have := Nat.find_min hex (show m < Nat.find hex by omega)
      have hl := (Nat.find_spec hex).1
      by_contra hc
      exact this ⟨by omega, (not_le.1 hc).le⟩
  · simp only [if_true] at *
    have hex : ∃ n, n + 1 < strikes.length ∧ x ≤ strikes.getD (n + 1) 0 :=
      ⟨strikes.length - 2, by omega, by rw [show strikes.length - 2 + 1 = strikes.length - 1 by omega]; exact h1⟩
    refine ⟨Nat.find hex, (Nat.find_spec hex).1, ?_, (Nat.find_spec hex).2⟩
    cases hz : Nat.find hex with
    | zero => exact h0
    | succ m =>
      have := Nat.find_min hex (show m < Nat.find hex by omega)
      have hl := (Nat.find_spec hex).1
      by_contra hc
      exact this ⟨by omega, (not_le.1 hc).le⟩

theorem calls_positive {ref : ℝ} {puts calls : List ℝ} (h : StrikeGrid ref puts calls) : ∀ k ∈ calls, 0 < k := by
  have hr : 0 < ref := h.puts_positive ref (List.mem_of_mem_head? h.puts_first)
  have hc := h.calls_ordered
  have h1 := h.calls_first
  rcases calls with _ | ⟨a, l⟩
  · simp
  · simp only [List.head?_cons, Option.some.injEq] at h1
    subst h1
    intro k hk
    rcases List.mem_cons.1 hk with rfl | hk
    · exact hr
    · exact lt_trans hr (by simpa using (List.pairwise_cons.1 hc).1 k hk)

theorem getElem?_of_getD {strikes : List ℝ} {j : ℕ} (hj : j < strikes.length) : strikes[j]? = some (strikes.getD j 0) := by
  rw [List.getElem?_eq_getElem hj, List.getElem_eq_getD (h := hj) 0]

/-- Inside the range of the strikes the options exceed the log contract by little. -/
theorem portfolio_inside {isCall : Bool} {strikes : List ℝ} (ref T η : ℝ) (h : Ordered isCall strikes)
    (hpos : ∀ k ∈ strikes, 0 < k) (hr : 0 < ref) (hT : 0 < T) (hlen : 2 ≤ strikes.length) (hfirst : strikes.getD 0 0 = ref)
    (hfine : FineStrikes η strikes) (x : ℝ)
    (h0 : if isCall then strikes.getD 0 0 ≤ x else x ≤ strikes.getD 0 0)
    (h1 : if isCall then x ≤ strikes.getD (strikes.length - 1) 0 else strikes.getD (strikes.length - 1) 0 ≤ x) :
    |portfolioPayoff isCall strikes ((List.range (strikes.length - 1)).map (fun i =>
      if isCall then vsWeight strikes ref T i else -vsWeight strikes ref T i)) x - logContract ref T x| ≤ 2 / T * η := by
  obtain ⟨j, hj, hx⟩ := strikes_locate h x hlen h0 h1
  rw [portfolio_between ref T h j hj x hx, hfirst]
  have hz : logContract ref T ref = 0 := by simp [logContract, hr.ne']
  rw [hz, sub_zero]
  have hk := getD_pos hpos (show j < strikes.length by omega)
  have hk' := getD_pos hpos hj
  have hne := ordered_ne h hj
  have hfin := hfine j _ _ (getElem?_of_getD (by omega)) (getElem?_of_getD hj)
  unfold vsSlope
  generalize strikes.getD j 0 = k at *
  generalize strikes.getD (j + 1) 0 = k' at *
  have hd : k' - k ≠ 0 := sub_ne_zero.2 hne
  -- the position in the interval
  obtain ⟨t, ht0, ht1, rfl⟩ : ∃ t, 0 ≤ t ∧ t ≤ 1 ∧ x = (1 - t) * k + t * k' := by
    refine ⟨(x - k) / (k' - k), ?_, ?_, by field_simp; ring⟩
    · rcases isCall with _ | _
      · simp only [Bool.false_eq_true, if_false] at hx
        exact div_nonneg_of_nonpos (by linarith [hx.2]) (by linarith [hx.1, hx.2])
      · simp only [if_true] at hx
        exact div_nonneg (by linarith [hx.1]) (by linarith [hx.1, hx.2])
    · rcases isCall with _ | _
      · simp only [Bool.false_eq_true, if_false] at hx
        have : k' - k < 0 := lt_of_le_of_ne (by linarith [hx.1, hx.2]) hd
        rw [div_le_one_of_neg this]; linarith [hx.1]
      · simp only [if_true] at hx
        have : 0 < k' - k := lt_of_le_of_ne (by linarith [hx.1, hx.2]) (Ne.symm hd)
        rw [div_le_one this]; linarith [hx.2]
  have e : logContract ref T k + (logContract ref T k' - logContract ref T k) / (k' - k) * ((1 - t) * k + t * k' - k) =
      (1 - t) * logContract ref T k + t * logContract ref T k' := by
    have : (1 - t) * k + t * k' - k = t * (k' - k) := by ring
    rw [this]
    field_simp
    ring
  rw [e]
  have hlow := (logContract_convex ref T hr hT).convexOn.2 (show k ∈ Set.Ioi 0 from hk) (show k' ∈ Set.Ioi 0 from hk')
    (show 0 ≤ 1 - t by linarith) ht0 (by ring)
  simp only [smul_eq_mul] at hlow
  rw [abs_of_nonneg (by linarith)]
  refine le_trans (logContract_chord ref T k k' t hr hT hk hk' ht0 ht1) ?_
  apply mul_le_mul_of_nonneg_left _ (by positivity)
  rw [div_le_iff₀ (mul_pos hk hk')]
  exact hfin

/-- Outside the range of the strikes the options pay at least nothing and less than the log contract. -/
theorem portfolio_outside {isCall : Bool} {strikes : List ℝ} (ref T : ℝ) (h : Ordered isCall strikes)
    (hpos : ∀ k ∈ strikes, 0 < k) (hr : 0 < ref) (hT : 0 < T) (hlen : 2 ≤ strikes.length) (hfirst : strikes.getD 0 0 = ref)
    (x : ℝ) (hx0 : 0 < x)
    (h1 : if isCall then strikes.getD (strikes.length - 1) 0 < x else x < strikes.getD (strikes.length - 1) 0) :
    |portfolioPayoff isCall strikes ((List.range (strikes.length - 1)).map (fun i =>
      if isCall then vsWeight strikes ref T i else -vsWeight strikes ref T i)) x - logContract ref T x| ≤ logContract ref T x := by
  -- not below zero
  have hnn : 0 ≤ portfolioPayoff isCall strikes ((List.range (strikes.length - 1)).map (fun i =>
      if isCall then vsWeight strikes ref T i else -vsWeight strikes ref T i)) x := by
    obtain ⟨w, w1, w2⟩ := Props.C34_weights_positive isCall strikes ref T false h hpos hr hT hlen (by rw [hfirst]; split <;> exact le_refl _)
    rw [replicatingWeights_eq ref T h hpos hr false hlen] at w1
    have hw := Except.ok.inj w1
    rw [hw]
    unfold portfolioPayoff
    apply List.sum_nonneg
    intro y hy
    obtain ⟨i, hi, rfl⟩ := List.mem_iff_getElem.mp hy
    rw [List.getElem_zipWith]
    apply mul_nonneg (w2 _ (List.getElem_mem _)).le
    unfold vanillaPayoff
    split <;> exact le_max_right _ _
  have hn : strikes.length - 2 + 2 = strikes.length := by omega
  have hlast : strikes.length - 2 + 1 = strikes.length - 1 := by omega
  have hord := ordered_getD h (show strikes.length - 2 < strikes.length - 2 + 1 by omega) (by omega)
  have hbey := portfolio_beyond ref T h (strikes.length - 2) hn x (by
    rw [← hlast] at h1
    rcases isCall with _ | _
    · simp only [Bool.false_eq_true, if_false] at *; linarith
    · simp only [if_true] at *; linarith)
  rw [hbey] at hnn ⊢
  have hz : logContract ref T ref = 0 := by simp [logContract, hr.ne']
  rw [hfirst, hz, sub_zero] at hnn ⊢
  have hk := getD_pos hpos (show strikes.length - 2 < strikes.length by omega)
  have hk' := getD_pos hpos (show strikes.length - 2 + 1 < strikes.length by omega)
  unfold vsSlope at hnn ⊢
  rw [← hlast] at h1
  generalize strikes.getD (strikes.length - 2) 0 = k at *
  generalize strikes.getD (strikes.length - 2 + 1) 0 = k' at *
  have hconv := (logContract_convex ref T hr hT).convexOn
  have hle : logContract ref T k + (logContract ref T k' - logContract ref T k) / (k' - k) * (x - k) ≤ logContract ref T x := by
    rcases isCall with _ | _
    · simp only [Bool.false_eq_true, if_false] at h1 hord
      have hs := hconv.secant_mono (a := k) (x := x) (y := k') hk hx0 hk' (by linarith) (by linarith) h1.le
      have hxk : x - k < 0 := by linarith
      have := mul_le_mul_of_nonpos_right hs hxk.le
      rw [div_mul_cancel₀ _ hxk.ne] at this
      linarith
    · simp only [if_true] at h1 hord
      have hs := hconv.secant_mono (a := k) (x := k') (y := x) hk hk' hx0 (by linarith) (by linarith) h1.le
      have hxk : 0 < x - k := by linarith
      have := mul_le_mul_of_nonneg_right hs hxk.le
      rw [div_mul_cancel₀ _ hxk.ne'] at this
      linarith
  rw [abs_of_nonpos (by linarith)]
  linarith

/-- Before the first strike the options pay nothing. -/
theorem portfolio_before {isCall : Bool} {strikes : List ℝ} (ref T : ℝ) (h : Ordered isCall strikes)
    (hpos : ∀ k ∈ strikes, 0 < k) (hr : 0 < ref) (hlen : 2 ≤ strikes.length) (x : ℝ)
    (hx : if isCall then x ≤ strikes.getD 0 0 else strikes.getD 0 0 ≤ x) :
    portfolioPayoff isCall strikes ((List.range (strikes.length - 1)).map (fun i =>
      if isCall then vsWeight strikes ref T i else -vsWeight strikes ref T i)) x = 0 := by
  obtain ⟨w, w1, _, _, _, w5⟩ := Props.C34_replicates isCall strikes ref T false h hpos hr hlen
  rw [replicatingWeights_eq ref T h hpos hr false hlen] at w1
  have hw := Except.ok.inj w1
  rw [hw]
  exact w5 x hx

theorem head_getD {l : List ℝ} {a : ℝ} (h : l.head? = some a) : l.getD 0 0 = a := by
  rcases l with _ | ⟨b, l⟩
  · simp at h
  · simpa using h

theorem last_getD (l : List ℝ) : l.getD (l.length - 1) 0 = l.getLastD 0 := by
  rw [List.getLastD_eq_getLast?, List.getLast?_eq_getElem?, List.getD_eq_getElem?_getD]

/-- The weights of the replication. -/
noncomputable def vsWeights (isCall : Bool) (strikes : List ℝ) (ref T : ℝ) : List ℝ :=
  (List.range (strikes.length - 1)).map (fun i => if isCall then vsWeight strikes ref T i else -vsWeight strikes ref T i)

theorem law_vanilla {μ : Measure ℝ} {F : ℝ} (h : SpotLaw μ F) (c : Bool) (k : ℝ) : Integrable (vanillaPayoff c k) μ := by
  have := h.probability
  unfold vanillaPayoff
  rcases c with _ | _
  · simp only [Bool.false_eq_true, if_false]
    exact ((integrable_const k).sub h.integrable).sup (integrable_const 0)
  · simp only [if_true]
    exact (h.integrable.sub (integrable_const k)).sup (integrable_const 0)

theorem law_portfolio {μ : Measure ℝ} {F : ℝ} (h : SpotLaw μ F) (c : Bool) (strikes w : List ℝ) :
    Integrable (portfolioPayoff c strikes w) μ ∧ ∫ x, portfolioPayoff c strikes w x ∂μ =
      (List.zipWith (fun k a => a * ∫ x, vanillaPayoff c k x ∂μ) strikes w).sum := by
  induction strikes generalizing w with
  | nil =>
    have e : portfolioPayoff c [] w = fun _ => 0 := by funext x; simp [portfolioPayoff]
    rw [e]
    refine ⟨integrable_zero _ _ _, by simp⟩
  | cons k l ih =>
    rcases w with _ | ⟨a, w⟩
    · have e : portfolioPayoff c (k :: l) [] = fun _ => 0 := by funext x; simp [portfolioPayoff]
      rw [e]
      refine ⟨integrable_zero _ _ _, by simp⟩
    · have e : portfolioPayoff c (k :: l) (a :: w) = fun x => a * vanillaPayoff c k x + portfolioPayoff c l w x := by
        funext x; simp [portfolioPayoff]
      obtain ⟨i1, i2⟩ := ih w
      rw [e]
      refine ⟨((law_vanilla h c k).const_mul a).add i1, ?_⟩
      rw [integral_add ((law_vanilla h c k).const_mul a) i1, integral_const_mul, i2]
      simp

theorem law_log {μ : Measure ℝ} {F : ℝ} (h : SpotLaw μ F) (ref T : ℝ) (hr : 0 < ref) :
    Integrable (logContract ref T) μ ∧ ∫ x, logContract ref T x ∂μ =
      2 / T * (F / ref - 1 - (∫ x, Real.log x ∂μ - Real.log ref)) := by
  have := h.probability
  have e : logContract ref T =ᵐ[μ] fun x => (2 / T / ref * x - 2 / T * Real.log x) + 2 / T * (Real.log ref - 1) := by
    filter_upwards [h.positive] with x hx
    unfold logContract
    rw [Real.log_div hx.ne' hr.ne']
    field_simp
    ring
  have i1 : Integrable (fun x => 2 / T / ref * x - 2 / T * Real.log x) μ := (h.integrable.const_mul _).sub (h.log.const_mul _)
  refine ⟨(i1.add (integrable_const _)).congr e.symm, ?_⟩
  rw [integral_congr_ae e, integral_add i1 (integrable_const _), integral_sub (h.integrable.const_mul _) (h.log.const_mul _),
    integral_const_mul, integral_const_mul, h.mean]
  simp
  field_simp
  ring

theorem quotes_prices {μ : Measure ℝ} {F T r S : ℝ} {c : Bool} {strikes vols : List ℝ} (hF : F = S * Real.exp (r * T))
    (hS : 0 < S) (hT : 0 < T) (hpos : ∀ k ∈ strikes, 0 < k) (hq : ImpliedQuotes μ F T c strikes vols) :
    replicationPrices strikes vols T r S c =
      .ok (strikes.dropLast.map (fun k => Real.exp (-(r * T)) * ∫ x, vanillaPayoff c k x ∂μ)) := by
  unfold replicationPrices
  have hF0 : 0 < F := by rw [hF]; positivity
  rw [mapM_ok _ (fun p : ℝ × ℝ => Real.exp (-(r * T)) * ∫ x, vanillaPayoff c p.1 x ∂μ)]
  · congr 1
    rw [show (fun p : ℝ × ℝ => Real.exp (-(r * T)) * ∫ x, vanillaPayoff c p.1 x ∂μ) =
      (fun k => Real.exp (-(r * T)) * ∫ x, vanillaPayoff c k x ∂μ) ∘ Prod.fst from rfl, ← List.map_map,
      List.map_fst_zip (by simp [hq.1])]
  · intro p hp
    obtain ⟨i, hi⟩ := List.mem_iff_getElem?.1 hp
    rw [List.getElem?_zip_eq_some] at hi
    obtain ⟨h1, h2⟩ := hi
    have g1 : strikes[i]? = some p.1 := by
      rw [List.getElem?_dropLast] at h1
      split at h1
      · exact h1
      · simp at h1
    have g2 : vols[i]? = some p.2 := by
      rw [List.getElem?_dropLast] at h2
      split at h2
      · exact h2
      · simp at h2
    obtain ⟨hσ, hex⟩ := hq.2 i _ _ g1 g2
    have hk0 := hpos _ (List.mem_of_getElem? g1)
    set a : BsArgs := {
      volatility := p.2
      strike := p.1
      expiry := T
      spot := some S
      discountRate := some r
      isCall := some c } with ha
    have hv : ValidArgs a := ⟨by simp [ha], by simp [ha], hσ, hT.le, by simp [ha]⟩
    have hf : forward a = F := by
      simp only [forward, ha, Option.getD_some, Option.getD_none, zero_mul, neg_zero, Real.exp_zero, mul_one, discount]
      rw [Real.exp_neg, div_inv_eq_mul, hF]
    have := Props.C31_expectation a hv (fun _ => ⟨by rw [hf]; exact hF0, hk0⟩)
    rw [this]
    unfold expectation
    rw [hf, ← hex]
    rfl

theorem portfolio_value {μ : Measure ℝ} {F : ℝ} (h : SpotLaw μ F) (d : ℝ) (c : Bool) (l w : List ℝ) (hl : w.length = l.length - 1) :
    (List.zipWith (fun w p => w * p) w (l.dropLast.map (fun k => d * ∫ x, vanillaPayoff c k x ∂μ))).sum =
      d * ∫ x, portfolioPayoff c l w x ∂μ := by
  rw [(law_portfolio h c l w).2]
  have hl' : w.length = l.dropLast.length := by simp [hl]
  have hz : List.zipWith (fun k a => a * ∫ x, vanillaPayoff c k x ∂μ) l w =
      List.zipWith (fun k a => a * ∫ x, vanillaPayoff c k x ∂μ) l.dropLast w := by
    rw [List.dropLast_eq_take, ← hl]
    clear hl hl'
    induction l generalizing w with
    | nil => simp
    | cons k l ih =>
      rcases w with _ | ⟨a, w⟩
      · simp
      · simp [ih w]
  rw [hz]
  generalize l.dropLast = m at hl' ⊢
  clear hz hl
  induction m generalizing w with
  | nil => simp
  | cons k m ih =>
    rcases w with _ | ⟨a, w⟩
    · simp
    · have := ih w (by simpa using hl')
      simp only [List.map_cons, List.zipWith_cons_cons, List.sum_cons] at this ⊢
      rw [this]; ring

/-- The error of the replication at one value of the spot. -/
theorem replication_error {ref : ℝ} {puts calls : List ℝ} (h : StrikeGrid ref puts calls) (T η : ℝ) (hT : 0 < T)
    (hfp : FineStrikes η puts) (hfc : FineStrikes η calls) (x : ℝ) (hx : 0 < x) :
    |portfolioPayoff false puts (vsWeights false puts ref T) x + portfolioPayoff true calls (vsWeights true calls ref T) x -
      logContract ref T x| ≤ 2 / T * η + (if puts.getLastD 0 ≤ x ∧ x ≤ calls.getLastD 0 then 0 else logContract ref T x) := by
  have hr : 0 < ref := h.puts_positive ref (List.mem_of_mem_head? h.puts_first)
  have hcp := calls_positive h
  have hp0 := head_getD h.puts_first
  have hc0 := head_getD h.calls_first
  have hL := logContract_nonneg ref T x hr hT hx
  have hη : 0 ≤ η := by
    have h2 := h.puts_length
    have := hfp 0 _ _ (getElem?_of_getD (by omega)) (getElem?_of_getD (by omega))
    have k0 := getD_pos h.puts_positive (show 0 < puts.length by omega)
    have k1 := getD_pos h.puts_positive (show 0 + 1 < puts.length by omega)
    by_contra hc
    have := mul_neg_of_neg_of_pos (not_le.1 hc) (mul_pos k0 k1)
    nlinarith [sq_nonneg (puts.getD (0 + 1) 0 - puts.getD 0 0)]
  have hTη : 0 ≤ 2 / T * η := by positivity
  have hle1 : puts.getLastD 0 ≤ ref := by
    rw [← last_getD, ← hp0]
    have := ordered_getD h.puts_ordered (show 0 < puts.length - 1 by have := h.puts_length; omega) (by have := h.puts_length; omega)
    simpa using this.le
  have hle2 : ref ≤ calls.getLastD 0 := by
    rw [← last_getD, ← hc0]
    have := ordered_getD h.calls_ordered (show 0 < calls.length - 1 by have := h.calls_length; omega) (by have := h.calls_length; omega)
    simpa using this.le
  unfold vsWeights
  rcases le_total x ref with hxr | hxr
  · rw [portfolio_before (isCall := true) ref T h.calls_ordered hcp hr h.calls_length x (by rw [hc0]; simpa using hxr), add_zero]
    rcases le_or_gt (puts.getLastD 0) x with hlast | hlast
    · rw [if_pos ⟨hlast, hxr.trans hle2⟩, add_zero]
      exact portfolio_inside (isCall := false) ref T η h.puts_ordered h.puts_positive hr hT h.puts_length hp0 hfp x
        (by rw [hp0]; simpa using hxr) (by rw [last_getD]; simpa using hlast)
    · rw [if_neg (fun hc => absurd hc.1 (not_le.2 hlast))]
      have := portfolio_outside (isCall := false) ref T h.puts_ordered h.puts_positive hr hT h.puts_length hp0 x hx
        (by rw [last_getD]; simpa using hlast)
      exact le_trans this (by linarith)
  · rw [portfolio_before (isCall := false) ref T h.puts_ordered h.puts_positive hr h.puts_length x (by rw [hp0]; simpa using hxr), zero_add]
    rcases le_or_gt x (calls.getLastD 0) with hlast | hlast
    · rw [if_pos ⟨hle1.trans hxr, hlast⟩, add_zero]
      exact portfolio_inside (isCall := true) ref T η h.calls_ordered hcp hr hT h.calls_length hc0 hfc x
        (by rw [hc0]; simpa using hxr) (by rw [last_getD]; simpa using hlast)
    · rw [if_neg (fun hc => absurd hc.2 (not_le.2 hlast))]
      have := portfolio_outside (isCall := true) ref T h.calls_ordered hcp hr hT h.calls_length hc0 x hx
        (by rw [last_getD]; simpa using hlast)
      exact le_trans this (by linarith)

theorem law_tail {μ : Measure ℝ} {F : ℝ} (h : SpotLaw μ F) (ref T a b : ℝ) (hr : 0 < ref) :
    Integrable (fun x => if a ≤ x ∧ x ≤ b then 0 else logContract ref T x) μ := by
  have e : (fun x => if a ≤ x ∧ x ≤ b then 0 else logContract ref T x) = Set.indicator (Set.Icc a b)ᶜ (logContract ref T) := by
    funext x
    simp only [Set.indicator, Set.mem_compl_iff, Set.mem_Icc]
    split <;> simp_all
  rw [e]
  exact (law_log h ref T hr).1.indicator measurableSet_Icc.compl

end Lemmas

namespace Props
open Model Spec Lemmas MeasureTheory Filter Topology

/-- C128: whatever the law of the spot at expiry, if the volatilities are those implied by the law then the fair strike is
`2 / T` times the gap between the logarithm of the forward and the mean logarithm of the spot, plus the mean of the error of
the replication of the log contract. -/
theorem C128_value (μ : Measure ℝ) (puts calls volsP volsC : List ℝ) (T r S ref : ℝ) (validate : Bool)
    (hlaw : SpotLaw μ (S * Real.exp (r * T))) (hT : 0 < T) (hS : 0 < S) (hr : 0 < ref) (hp : Ordered false puts)
    (hc : Ordered true calls) (hpp : ∀ k ∈ puts, 0 < k) (hcp : ∀ k ∈ calls, 0 < k) (hpl : 2 ≤ puts.length)
    (hcl : 2 ≤ calls.length) (hqp : ImpliedQuotes μ (S * Real.exp (r * T)) T false puts volsP)
    (hqc : ImpliedQuotes μ (S * Real.exp (r * T)) T true calls volsC) :
    ∃ wp wc, replicatingWeights puts ref T validate = .ok wp ∧ replicatingWeights calls ref T validate = .ok wc ∧
      fairStrike puts volsP calls volsC T r S ref validate =
        .ok (2 / T * (Real.log (S * Real.exp (r * T)) - ∫ x, Real.log x ∂μ) +
          ∫ x, (portfolioPayoff false puts wp x + portfolioPayoff true calls wc x - logContract ref T x) ∂μ) := by
  have hwp : replicatingWeights puts ref T validate = .ok (vsWeights false puts ref T) :=
    replicatingWeights_eq ref T hp hpp hr validate hpl
  have hwc : replicatingWeights calls ref T validate = .ok (vsWeights true calls ref T) :=
    replicatingWeights_eq ref T hc hcp hr validate hcl
  refine ⟨vsWeights false puts ref T, vsWeights true calls ref T, hwp, hwc, ?_⟩
  unfold fairStrike
  rw [hwp, bind_ok, hwc, bind_ok, quotes_prices rfl hS hT hpp hqp, bind_ok, quotes_prices rfl hS hT hcp hqc, bind_ok]
  simp only
  rw [portfolio_value hlaw _ false puts _ (by simp [vsWeights]), portfolio_value hlaw _ true calls _ (by simp [vsWeights])]
  change Except.ok _ = Except.ok _
  congr 1
  obtain ⟨p1, -⟩ := law_portfolio hlaw false puts (vsWeights false puts ref T)
  obtain ⟨c1, -⟩ := law_portfolio hlaw true calls (vsWeights true calls ref T)
  obtain ⟨l1, l2⟩ := law_log hlaw ref T hr
  have i1 : Integrable (fun x => portfolioPayoff false puts (vsWeights false puts ref T) x +
    portfolioPayoff true calls (vsWeights true calls ref T) x) μ := p1.add c1
  rw [integral_sub i1 l1, integral_add p1 c1, l2]
  rw [Real.log_mul hS.ne' (Real.exp_pos _).ne', Real.log_exp, Real.log_div hS.ne' hr.ne', mul_comm T r, Real.exp_neg]
  have := Real.exp_pos (r * T)
  field_simp
  ring

/-- C128: the distance of the fair strike from the value of the log contract is at most `2 / T` times the fineness of the
strikes plus the value of the log contract beyond the last strikes. -/
theorem C128_error (μ : Measure ℝ) (puts calls volsP volsC : List ℝ) (T r S ref η : ℝ) (validate : Bool)
    (hlaw : SpotLaw μ (S * Real.exp (r * T))) (hT : 0 < T) (hS : 0 < S) (hg : StrikeGrid ref puts calls)
    (hfp : FineStrikes η puts) (hfc : FineStrikes η calls)
    (hqp : ImpliedQuotes μ (S * Real.exp (r * T)) T false puts volsP)
    (hqc : ImpliedQuotes μ (S * Real.exp (r * T)) T true calls volsC) :
    ∃ v, fairStrike puts volsP calls volsC T r S ref validate = .ok v ∧
      |v - 2 / T * (Real.log (S * Real.exp (r * T)) - ∫ x, Real.log x ∂μ)| ≤ 2 / T * η +
        ∫ x, (if puts.getLastD 0 ≤ x ∧ x ≤ calls.getLastD 0 then 0 else logContract ref T x) ∂μ := by
  have hr : 0 < ref := hg.puts_positive ref (List.mem_of_mem_head? hg.puts_first)
  have := hlaw.probability
  obtain ⟨wp, wc, h1, h2, h3⟩ := C128_value μ puts calls volsP volsC T r S ref validate hlaw hT hS hr hg.puts_ordered
    hg.calls_ordered hg.puts_positive (calls_positive hg) hg.puts_length hg.calls_length hqp hqc
  refine ⟨_, h3, ?_⟩
  rw [add_sub_cancel_left]
  rw [replicatingWeights_eq ref T hg.puts_ordered hg.puts_positive hr validate hg.puts_length] at h1
  rw [replicatingWeights_eq ref T hg.calls_ordered (calls_positive hg) hr validate hg.calls_length] at h2
  have e1 : vsWeights false puts ref T = wp := Except.ok.inj h1
  have e2 : vsWeights true calls ref T = wc := Except.ok.inj h2
  rw [← e1, ← e2]
  have ht := law_tail hlaw ref T (puts.getLastD 0) (calls.getLastD 0) hr
  obtain ⟨p1, -⟩ := law_portfolio hlaw false puts (vsWeights false puts ref T)
  obtain ⟨c1, -⟩ := law_portfolio hlaw true calls (vsWeights true calls ref T)
  refine le_trans (abs_integral_le_integral_abs) ?_
  have hc : ∫ _x : ℝ, 2 / T * η ∂μ = 2 / T * η := by simp
  rw [← hc, ← integral_add (integrable_const _) ht]
  apply integral_mono_ae
  · exact ((p1.add c1).sub (law_log hlaw ref T hr).1).abs
  · exact (integrable_const _).add ht
  · filter_upwards [hlaw.positive] with x hx
    exact replication_error hg T η hT hfp hfc x hx

/-- C128: as the strikes become fine and reach from zero to infinity, the fair strike tends to the value of the log contract,
whatever the law of the spot. -/
theorem C128_converges (μ : Measure ℝ) (puts calls volsP volsC : ℕ → List ℝ) (T r S ref : ℝ) (η : ℕ → ℝ) (validate : Bool)
    (hlaw : SpotLaw μ (S * Real.exp (r * T))) (hT : 0 < T) (hS : 0 < S) (hg : ∀ n, StrikeGrid ref (puts n) (calls n))
    (hfp : ∀ n, FineStrikes (η n) (puts n)) (hfc : ∀ n, FineStrikes (η n) (calls n)) (hη : Tendsto η atTop (𝓝 0))
    (hlp : Tendsto (fun n => (puts n).getLastD 0) atTop (𝓝 0)) (hlc : Tendsto (fun n => (calls n).getLastD 0) atTop atTop)
    (hqp : ∀ n, ImpliedQuotes μ (S * Real.exp (r * T)) T false (puts n) (volsP n))
    (hqc : ∀ n, ImpliedQuotes μ (S * Real.exp (r * T)) T true (calls n) (volsC n)) :
    ∃ v : ℕ → ℝ, (∀ n, fairStrike (puts n) (volsP n) (calls n) (volsC n) T r S ref validate = .ok (v n)) ∧
      Tendsto v atTop (𝓝 (2 / T * (Real.log (S * Real.exp (r * T)) - ∫ x, Real.log x ∂μ))) := by
  have hr : 0 < ref := (hg 0).puts_positive ref (List.mem_of_mem_head? (hg 0).puts_first)
  choose v hv he using fun n => C128_error μ (puts n) (calls n) (volsP n) (volsC n) T r S ref (η n) validate hlaw hT hS
    (hg n) (hfp n) (hfc n) (hqp n) (hqc n)
  refine ⟨v, hv, ?_⟩
  have htail : Tendsto (fun n => ∫ x, (if (puts n).getLastD 0 ≤ x ∧ x ≤ (calls n).getLastD 0 then 0 else logContract ref T x) ∂μ)
      atTop (𝓝 (∫ _x : ℝ, (0 : ℝ) ∂μ)) := by
    apply tendsto_integral_of_dominated_convergence (fun x => |logContract ref T x|)
    · intro n
      exact (law_tail hlaw ref T _ _ hr).aestronglyMeasurable
    · exact (law_log hlaw ref T hr).1.abs
    · intro n
      refine Eventually.of_forall fun x => ?_
      split
      · simp
      · simp
    · filter_upwards [hlaw.positive] with x hx
      apply tendsto_const_nhds.congr'
      filter_upwards [hlp.eventually_le_const hx, hlc.eventually_ge_atTop x] with n a b
      rw [if_pos ⟨a, b⟩]
  rw [integral_zero] at htail
  rw [tendsto_iff_norm_sub_tendsto_zero]
  have hsum := (hη.const_mul (2 / T)).add htail
  rw [mul_zero, add_zero] at hsum
  exact squeeze_zero (fun n => norm_nonneg _) he hsum

theorem lognormal_call (F K s : ℝ) (hF : 0 < F) (hK : 0 < K) (hs : 0 < s) :
    lognormalExpectation F s (vanillaPayoff true K) = blackCall F K s := by
  rw [lognormalExpectation_kink (vanilla_kink_call K) hF hK hs, blackCall, ← Real.log_div hF.ne' hK.ne',
    show Real.log (F / K) / s + s / 2 - s = Real.log (F / K) / s - s / 2 by ring]
  ring

/-- C128: under every law there are implied volatilities for all strikes, and a call and a put have the same one. -/
theorem C128_quotes_exist (μ : Measure ℝ) (F T : ℝ) (hlaw : SpotLaw μ F) (hF : 0 < F) (hT : 0 < T) (strikes : List ℝ) (hpos : ∀ k ∈ strikes, 0 < k) :
    ∃ vols, ImpliedQuotes μ F T true strikes vols ∧ ImpliedQuotes μ F T false strikes vols := by
  have := hlaw.probability
  have hsT := Real.sqrt_pos.2 hT
  -- parity
  have hpar : ∀ (K x : ℝ), vanillaPayoff false K x = vanillaPayoff true K x - (x - K) := by
    intro K x
    unfold vanillaPayoff
    simp only [Bool.false_eq_true, if_false, if_true]
    rcases le_total x K with h | h
    · rw [max_eq_left (by linarith), max_eq_right (by linarith)]; ring
    · rw [max_eq_right (by linarith), max_eq_left (by linarith)]; ring
  have hparμ : ∀ K, ∫ x, vanillaPayoff false K x ∂μ = (∫ x, vanillaPayoff true K x ∂μ) - (F - K) := by
    intro K
    simp only [hpar]
    have hi : Integrable (fun x => x - K) μ := hlaw.integrable.sub (integrable_const K)
    rw [integral_sub (law_vanilla hlaw true K) hi, integral_sub hlaw.integrable (integrable_const _), hlaw.mean]
    simp
  have hparL : ∀ K s : ℝ, lognormalExpectation F s (vanillaPayoff false K) = lognormalExpectation F s (vanillaPayoff true K) - (F - K) := by
    intro K s
    obtain ⟨f1, _, f3⟩ := lognormal_facts F s hF
    unfold lognormalExpectation normalExpectation
    simp only [hpar]
    have hi : Integrable (fun x => Real.exp x - K) (ProbabilityTheory.gaussianReal (Real.log F - s ^ 2 / 2) (Real.toNNReal (s ^ 2))) :=
      f1.sub (integrable_const K)
    rw [integral_sub (vanillaPayoff_integrable F s hF true K) hi, integral_sub f1 (integrable_const _), f3]
    simp
  -- one strike
  have hone : ∀ K : ℝ, 0 < K → ∃ σ : ℝ, 0 ≤ σ ∧ lognormalExpectation F (σ * Real.sqrt T) (vanillaPayoff true K) = ∫ x, vanillaPayoff true K x ∂μ := by
    intro K hK
    have hlow : max (F - K) 0 ≤ ∫ x, vanillaPayoff true K x ∂μ := by
      apply max_le
      · have hi : Integrable (fun x => x - K) μ := hlaw.integrable.sub (integrable_const K)
        have e : F - K = ∫ x, (x - K) ∂μ := by rw [integral_sub hlaw.integrable (integrable_const _), hlaw.mean]; simp
        rw [e]
        refine integral_mono hi (law_vanilla hlaw true K) fun x => ?_
        simp [vanillaPayoff]
      · refine integral_nonneg fun x => ?_
        simp [vanillaPayoff]
    have hup : ∫ x, vanillaPayoff true K x ∂μ < F := by
      rw [← hlaw.mean, ← sub_pos, ← integral_sub hlaw.integrable (law_vanilla hlaw true K)]
      have hp : ∀ᵐ x ∂μ, 0 < x - vanillaPayoff true K x := by
        filter_upwards [hlaw.positive] with x hx
        simp only [vanillaPayoff, if_true]
        rcases le_total x K with h | h
        · rw [max_eq_right (by linarith)]; linarith
        · rw [max_eq_left (by linarith)]; linarith
      have hi : Integrable (fun x => x - vanillaPayoff true K x) μ := hlaw.integrable.sub (law_vanilla hlaw true K)
      have hne : ∫ x, (x - vanillaPayoff true K x) ∂μ ≠ 0 := by
        intro hz
        rw [integral_eq_zero_iff_of_nonneg_ae (hp.mono fun x hx => hx.le) hi] at hz
        have hF : ∀ᵐ x ∂μ, False := by
          filter_upwards [hz, hp] with x h1 h2
          rw [Pi.zero_apply] at h1
          linarith
        rw [eventually_false_iff_eq_bot, ae_eq_bot] at hF
        exact IsProbabilityMeasure.ne_zero μ hF
      exact lt_of_le_of_ne (integral_nonneg_of_ae (hp.mono fun x hx => hx.le)) (Ne.symm hne)
    rcases hlow.eq_or_lt with h | h
    · refine ⟨0, le_refl _, ?_⟩
      rw [zero_mul, lognormalExpectation_zero F hF, ← h]
      simp [vanillaPayoff]
    · obtain ⟨s, ⟨hs, hsp⟩, -⟩ := existsUnique_between (f := blackCall F K)
        (fun s hs => (blackCall_hasDerivAt F K s hF hK (ne_of_gt hs)).continuousAt.continuousWithinAt) (blackCall_strictMonoOn F K hF hK)
        (blackCall_zero F K hF hK) h ((blackCall_top F K).eventually (lt_mem_nhds hup)).frequently
      refine ⟨s / Real.sqrt T, by positivity, ?_⟩
      rw [div_mul_cancel₀ _ hsT.ne', lognormal_call F K s hF hK hs, hsp]
  classical
  choose! v hv0 hv using hone
  have key : ∀ (i : ℕ) (k σ : ℝ), strikes[i]? = some k → (strikes.map v)[i]? = some σ → 0 < k ∧ σ = v k := by
    intro i k σ h1 h2
    rw [List.getElem?_map, h1] at h2
    exact ⟨hpos k (List.mem_of_getElem? h1), by simpa using h2.symm⟩
  refine ⟨strikes.map v, ⟨by simp, fun i k σ h1 h2 => ?_⟩, ⟨by simp, fun i k σ h1 h2 => ?_⟩⟩
  · obtain ⟨hk, rfl⟩ := key i k σ h1 h2
    exact ⟨hv0 k hk, hv k hk⟩
  · obtain ⟨hk, rfl⟩ := key i k σ h1 h2
    exact ⟨hv0 k hk, by rw [hparL, hv k hk, hparμ]⟩

/-- C128: with one volatility for all options, the fair strike tends to its square. -/
theorem C128_flat (puts calls : ℕ → List ℝ) (σ T r S ref : ℝ) (η : ℕ → ℝ) (validate : Bool)
    (hσ : 0 ≤ σ) (hT : 0 < T) (hS : 0 < S) (hg : ∀ n, StrikeGrid ref (puts n) (calls n))
    (hfp : ∀ n, FineStrikes (η n) (puts n)) (hfc : ∀ n, FineStrikes (η n) (calls n)) (hη : Tendsto η atTop (𝓝 0))
    (hlp : Tendsto (fun n => (puts n).getLastD 0) atTop (𝓝 0)) (hlc : Tendsto (fun n => (calls n).getLastD 0) atTop atTop) :
    ∃ v : ℕ → ℝ, (∀ n, fairStrike (puts n) ((puts n).map fun _ => σ) (calls n) ((calls n).map fun _ => σ) T r S ref validate =
        .ok (v n)) ∧ Tendsto v atTop (𝓝 (σ ^ 2)) := by
  have hF : 0 < S * Real.exp (r * T) := by positivity
  obtain ⟨f1, f2, f3⟩ := lognormal_facts (S * Real.exp (r * T)) (σ * Real.sqrt T) hF
  set m := Real.log (S * Real.exp (r * T)) - (σ * Real.sqrt T) ^ 2 / 2 with hm
  set ν := ProbabilityTheory.gaussianReal m (Real.toNNReal ((σ * Real.sqrt T) ^ 2)) with hν
  have hmeas : AEMeasurable Real.exp ν := Real.measurable_exp.aemeasurable
  have hint : ∀ f : ℝ → ℝ, AEStronglyMeasurable f (ν.map Real.exp) → ∫ x, f x ∂(ν.map Real.exp) = ∫ y, f (Real.exp y) ∂ν :=
    fun f hf => integral_map hmeas hf
  have hlogm : AEStronglyMeasurable Real.log (ν.map Real.exp) := Real.measurable_log.aestronglyMeasurable
  have hidm : AEStronglyMeasurable (fun x : ℝ => x) (ν.map Real.exp) := measurable_id.aestronglyMeasurable
  have hlaw : SpotLaw (ν.map Real.exp) (S * Real.exp (r * T)) := by
    constructor
    · exact Measure.isProbabilityMeasure_map hmeas
    · rw [ae_map_iff hmeas measurableSet_Ioi]
      exact Eventually.of_forall fun x => Real.exp_pos x
    · exact (integrable_map_measure hidm hmeas).2 f1
    · rw [hint _ hidm]; exact f3
    · refine (integrable_map_measure hlogm hmeas).2 (f2.congr (Eventually.of_forall fun x => ?_))
      simp
  have hq : ∀ (c : Bool) (l : List ℝ), ImpliedQuotes (ν.map Real.exp) (S * Real.exp (r * T)) T c l (l.map fun _ => σ) := by
    intro c l
    refine ⟨by simp, fun i k s _ hs => ?_⟩
    have : s = σ := by
      rw [List.getElem?_map] at hs
      obtain ⟨_, _, h⟩ := Option.map_eq_some_iff.1 hs
      exact h.symm
    subst this
    refine ⟨hσ, ?_⟩
    rw [hint _ (law_vanilla hlaw c k).aestronglyMeasurable]
    rfl
  obtain ⟨v, h1, h2⟩ := C128_converges (ν.map Real.exp) puts calls (fun n => (puts n).map fun _ => σ)
    (fun n => (calls n).map fun _ => σ) T r S ref η validate hlaw hT hS hg hfp hfc hη hlp hlc (fun n => hq _ _) (fun n => hq _ _)
  refine ⟨v, h1, ?_⟩
  have e : 2 / T * (Real.log (S * Real.exp (r * T)) - ∫ x, Real.log x ∂(ν.map Real.exp)) = σ ^ 2 := by
    rw [hint _ hlogm]
    simp only [Real.log_exp]
    rw [hν, ProbabilityTheory.integral_id_gaussianReal, hm, mul_pow, Real.sq_sqrt hT.le]
    field_simp
    ring
  rwa [e] at h2

/-- Strikes 10 apart. -/
example : StrikeGrid 100 [100, 90, 80] [100, 110, 120] ∧ FineStrikes (1 / 72) [100, 90, 80] := by
  constructor
  · constructor <;> norm_num [Ordered]
  · intro j k k' h h'
    rcases j with _ | _ | _ | j
    · simp at h h'; subst h h'; norm_num
    · simp at h h'; subst h h'; norm_num
    · simp at h'
    · simp at h'

/-- Strikes in geometric progression satisfy the hypotheses of the limit theorems. -/
theorem C128_geometric (ref : ℝ) (hr : 0 < ref) : ∃ (puts calls : ℕ → List ℝ) (η : ℕ → ℝ),
    (∀ n, StrikeGrid ref (puts n) (calls n)) ∧ (∀ n, FineStrikes (η n) (puts n)) ∧ (∀ n, FineStrikes (η n) (calls n)) ∧
      Tendsto η atTop (𝓝 0) ∧ Tendsto (fun n => (puts n).getLastD 0) atTop (𝓝 0) ∧
      Tendsto (fun n => (calls n).getLastD 0) atTop atTop := by
  set q : ℕ → ℝ := fun n => 1 + 1 / ((n : ℝ) + 1) with hq
  have hq1 : ∀ n, 1 < q n := fun n => by
    have : (0 : ℝ) < 1 / ((n : ℝ) + 1) := by positivity
    simp only [hq]; linarith
  have hq0 : ∀ n, 0 < q n := fun n => lt_trans one_pos (hq1 n)
  have hlast : ∀ n : ℕ, (n : ℝ) ≤ q n ^ (n ^ 2 + n + 1) := by
    intro n
    have := one_add_mul_le_pow (show (-2 : ℝ) ≤ 1 / ((n : ℝ) + 1) by
      have : (0 : ℝ) < 1 / ((n : ℝ) + 1) := by positivity
      linarith) (n ^ 2 + n + 1)
    refine le_trans ?_ this
    push_cast
    have e : ((n : ℝ) ^ 2 + n + 1) * (1 / ((n : ℝ) + 1)) = n + 1 / ((n : ℝ) + 1) := by field_simp
    rw [e]
    have : (0 : ℝ) < 1 / ((n : ℝ) + 1) := by positivity
    linarith
  refine ⟨fun n => (List.range (n ^ 2 + n + 2)).map (fun i => ref / q n ^ i),
    fun n => (List.range (n ^ 2 + n + 2)).map (fun i => ref * q n ^ i), fun n => (1 / ((n : ℝ) + 1)) ^ 2, ?_, ?_, ?_, ?_, ?_, ?_⟩
  · intro n
    refine ⟨?_, ?_, ?_, by simp, by simp, by simp [List.range_succ_eq_map], by simp [List.range_succ_eq_map]⟩
    · unfold Ordered
      rw [List.pairwise_map]
      refine List.pairwise_lt_range.imp fun {a b} hab => ?_
      simp only [Bool.false_eq_true, if_false]
      exact div_lt_div_of_pos_left hr (pow_pos (hq0 n) _) (pow_lt_pow_right₀ (hq1 n) hab)
    · unfold Ordered
      rw [List.pairwise_map]
      refine List.pairwise_lt_range.imp fun {a b} hab => ?_
      simp only [if_true]
      exact mul_lt_mul_of_pos_left (pow_lt_pow_right₀ (hq1 n) hab) hr
    · intro k hk
      obtain ⟨i, _, rfl⟩ := List.mem_map.1 hk
      have := hq0 n
      positivity
  · intro n j k k' h h'
    rw [List.getElem?_map] at h h'
    obtain ⟨i, hi, rfl⟩ := Option.map_eq_some_iff.1 h
    obtain ⟨i', hi', rfl⟩ := Option.map_eq_some_iff.1 h'
    obtain ⟨_, rfl⟩ := List.getElem?_eq_some_iff.1 hi
    obtain ⟨_, rfl⟩ := List.getElem?_eq_some_iff.1 hi'
    simp only [List.getElem_range]
    have e : 1 / ((n : ℝ) + 1) = q n - 1 := by simp [hq]
    rw [e]
    have h0 := hq0 n
    have h1 := hq1 n
    generalize q n = z at *
    have hz := pow_pos h0 j
    have e1 : (ref / z ^ (j + 1) - ref / z ^ j) ^ 2 = (z - 1) ^ 2 * ((ref / z ^ j) * (ref / z ^ (j + 1))) * (1 / z) := by
      rw [pow_succ]; field_simp; ring
    rw [e1]
    have hnn : 0 ≤ (z - 1) ^ 2 * ((ref / z ^ j) * (ref / z ^ (j + 1))) := by positivity
    have hz1 : 1 / z ≤ 1 := by rw [div_le_one h0]; exact h1.le
    simpa using mul_le_mul_of_nonneg_left hz1 hnn
  · intro n j k k' h h'
    rw [List.getElem?_map] at h h'
    obtain ⟨i, hi, rfl⟩ := Option.map_eq_some_iff.1 h
    obtain ⟨i', hi', rfl⟩ := Option.map_eq_some_iff.1 h'
    obtain ⟨_, rfl⟩ := List.getElem?_eq_some_iff.1 hi
    obtain ⟨_, rfl⟩ := List.getElem?_eq_some_iff.1 hi'
    simp only [List.getElem_range]
    have e : 1 / ((n : ℝ) + 1) = q n - 1 := by simp [hq]
    rw [e]
    have h0 := hq0 n
    have h1 := hq1 n
    generalize q n = z at *
    have hz := pow_pos h0 j
    have e1 : (ref * z ^ (j + 1) - ref * z ^ j) ^ 2 = (z - 1) ^ 2 * ((ref * z ^ j) * (ref * z ^ (j + 1))) * (1 / z) := by
      rw [pow_succ]; field_simp; ring
    rw [e1]
    have hnn : 0 ≤ (z - 1) ^ 2 * ((ref * z ^ j) * (ref * z ^ (j + 1))) := by positivity
    have hz1 : 1 / z ≤ 1 := by rw [div_le_one h0]; exact h1.le
    simpa using mul_le_mul_of_nonneg_left hz1 hnn
  · simpa using (tendsto_one_div_add_atTop_nhds_zero_nat (𝕜 := ℝ)).pow 2
  · have e : ∀ n : ℕ, ((List.range (n ^ 2 + n + 2)).map (fun i => ref / q n ^ i)).getLastD 0 = ref / q n ^ (n ^ 2 + n + 1) := by
      intro n
      rw [← last_getD, List.length_map, List.length_range, show n ^ 2 + n + 2 - 1 = n ^ 2 + n + 1 by omega]
      rw [List.getD_eq_getElem?_getD, List.getElem?_map, List.getElem?_range (by omega)]
      rfl
    simp only [e]
    exact Tendsto.const_div_atTop (tendsto_atTop_mono hlast tendsto_natCast_atTop_atTop) ref
  · have e : ∀ n : ℕ, ((List.range (n ^ 2 + n + 2)).map (fun i => ref * q n ^ i)).getLastD 0 = ref * q n ^ (n ^ 2 + n + 1) := by
      intro n
      rw [← last_getD, List.length_map, List.length_range, show n ^ 2 + n + 2 - 1 = n ^ 2 + n + 1 by omega]
      rw [List.getD_eq_getElem?_getD, List.getElem?_map, List.getElem?_range (by omega)]
      rfl
    simp only [e]
    exact (tendsto_atTop_mono hlast tendsto_natCast_atTop_atTop).const_mul_atTop hr

end Props
