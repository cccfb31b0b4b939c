import Verif.Lemmas.HullWhite
import Verif.Spec.HullWhite
import Mathlib.Data.List.Sort

/-! # C51: the Hull-White paths are exact -/

namespace Lemmas
open Model Spec MeasureTheory

section
variable (m : HullWhite) (hm : HullWhiteOk m)

theorem stateVariance_scale (k : ℝ) (sigma : ℝ → ℝ) (t t' : ℝ) :
    stateVariance k sigma t t' = Real.exp (-2 * k * t') * ∫ s in t..t', sigma s ^ 2 * Real.exp (2 * k * s) := by
  unfold stateVariance
  rw [← intervalIntegral.integral_const_mul]
  congr 1
  funext s
  rw [mul_left_comm, ← Real.exp_add, mul_comm]
  congr 2
  ring

include hm

theorem variance_sub (t t' : ℝ) (ht : 0 ≤ t) (ht' : t ≤ t') :
    m.varianceAt t' - m.varianceAt t = ∫ s in t..t', m.volatility s ^ 2 * Real.exp (2 * m.meanReversion * s) := by
  rw [varianceAt_eq m hm t ht, varianceAt_eq m hm t' (ht.trans ht'),
    intervalIntegral.integral_interval_sub_left (variance_integrable m hm t' (ht.trans ht')) (variance_integrable m hm t ht)]

theorem conditionalVariance_eq (t t' : ℝ) (ht : 0 ≤ t) (ht' : t ≤ t') :
    m.conditionalVariance t t' = stateVariance m.meanReversion m.volatility t t' := by
  rw [stateVariance_scale, ← variance_sub m hm t t' ht ht']
  unfold HullWhite.conditionalVariance
  ring

theorem computeYt_eq (t : ℝ) (ht : 0 ≤ t) : m.computeYt t = convexity m.meanReversion m.volatility t := by
  unfold convexity
  rw [stateVariance_scale, ← varianceAt_eq m hm t ht]
  rfl

theorem stateMean_scale (t t' : ℝ) (ht : 0 ≤ t) (ht' : t ≤ t') : stateMean m.meanReversion m.volatility t t' =
    Real.exp (-m.meanReversion * t') * ∫ s in t..t', Real.exp (-m.meanReversion * s) * m.varianceAt s := by
  unfold stateMean
  rw [← intervalIntegral.integral_const_mul]
  apply intervalIntegral.integral_congr
  intro s hs
  rw [Set.uIcc_of_le ht'] at hs
  simp only
  rw [← computeYt_eq m hm s (ht.trans hs.1)]
  unfold HullWhite.computeYt
  rw [← mul_assoc, ← mul_assoc, ← Real.exp_add, ← Real.exp_add]
  congr 2
  ring

theorem conditionalMean_eq (t t' : ℝ) (ht : 0 ≤ t) (ht' : t ≤ t') :
    m.conditionalMean t t' = stateMean m.meanReversion m.volatility t t' := by
  rw [stateMean_scale m hm t t' ht ht']
  unfold HullWhite.conditionalMean
  rw [exAt_eq m hm t ht, exAt_eq m hm t' (ht.trans ht'),
    intervalIntegral.integral_interval_sub_left (ex_integrable m hm t' (ht.trans ht')) (ex_integrable m hm t ht)]
  ring

theorem conditionalVariance_nonneg (t t' : ℝ) (ht : 0 ≤ t) (ht' : t ≤ t') : 0 ≤ m.conditionalVariance t t' := by
  rw [conditionalVariance_eq m hm t t' ht ht']
  exact intervalIntegral.integral_nonneg ht' (fun s _ => mul_nonneg (Real.exp_pos _).le (sq_nonneg _))

omit hm in
theorem conditionalVariance_add (t t1 t2 : ℝ) : m.conditionalVariance t t2 =
    Real.exp (-m.meanReversion * (t2 - t1)) ^ 2 * m.conditionalVariance t t1 + m.conditionalVariance t1 t2 := by
  unfold HullWhite.conditionalVariance
  have e : Real.exp (-m.meanReversion * (t2 - t1)) ^ 2 * Real.exp (-2 * m.meanReversion * t1) = Real.exp (-2 * m.meanReversion * t2) := by
    rw [sq, ← Real.exp_add, ← Real.exp_add]; congr 1; ring
  rw [← e]; ring

omit hm in
theorem conditionalMean_add (t t1 t2 : ℝ) : m.conditionalMean t t2 =
    Real.exp (-m.meanReversion * (t2 - t1)) * m.conditionalMean t t1 + m.conditionalMean t1 t2 := by
  unfold HullWhite.conditionalMean
  have e : Real.exp (-m.meanReversion * (t2 - t1)) * Real.exp (-m.meanReversion * t1) = Real.exp (-m.meanReversion * t2) := by
    rw [← Real.exp_add]; congr 1; ring
  rw [← e]; ring

theorem nextState_eq (t t' x z : ℝ) (ht : 0 ≤ t) (ht' : t ≤ t') : m.nextState t t' x z =
    Real.exp (-m.meanReversion * (t' - t)) * x + m.conditionalMean t t' + Real.sqrt (m.conditionalVariance t t') * z := by
  unfold HullWhite.nextState
  rw [max_eq_left (conditionalVariance_nonneg m hm t t' ht ht')]
  simp only
  split
  · rfl
  · have h := Real.sqrt_nonneg (m.conditionalVariance t t')
    rw [show Real.sqrt (m.conditionalVariance t t') = 0 by linarith]

omit hm in
theorem states_length (t x : ℝ) (ts zs : List ℝ) (h : zs.length = ts.length) : (m.states t x ts zs).length = ts.length + 1 := by
  induction ts generalizing t x zs with
  | nil => cases zs <;> simp [HullWhite.states]
  | cons t' ts ih =>
    cases zs with
    | nil => simp at h
    | cons z zs =>
      unfold HullWhite.states
      rw [List.length_cons, ih _ _ zs (by simpa using h)]
      simp

/-- Each state is the mean plus a combination of the draws whose squared weights sum to the variance. -/
theorem states_law (ts : List ℝ) (t : ℝ) (ht : 0 ≤ t) (hs : (t :: ts).Pairwise (· ≤ ·)) (i : Nat) (hi : i ≤ ts.length) :
    ∃ w : List ℝ, w.length = i ∧ (w.map (fun a => a ^ 2)).sum = m.conditionalVariance t ((t :: ts).getD i 0) ∧
      ∀ x zs, zs.length = ts.length → (m.states t x ts zs)[i]? = some (Real.exp (-m.meanReversion * ((t :: ts).getD i 0 - t)) * x +
        m.conditionalMean t ((t :: ts).getD i 0) + (List.zipWith (fun a z => a * z) w zs).sum) := by
  induction ts generalizing t i with
  | nil =>
    have h0 : i = 0 := by simpa using hi
    subst h0
    refine ⟨[], rfl, ?_, ?_⟩
    · simp [HullWhite.conditionalVariance]
    · intro x zs _
      cases zs <;> simp [HullWhite.states, HullWhite.conditionalMean]
  | cons t' ts ih =>
    have htt' : t ≤ t' := by
      have := (List.pairwise_cons.1 hs).1 t' (by simp)
      exact this
    cases i with
    | zero =>
      refine ⟨[], rfl, ?_, ?_⟩
      · simp [HullWhite.conditionalVariance]
      · intro x zs hz
        cases zs with
        | nil => simp at hz
        | cons z zs => simp [HullWhite.states, HullWhite.conditionalMean]
    | succ i =>
      obtain ⟨w, h1, h2, h3⟩ := ih t' (ht.trans htt') (List.pairwise_cons.1 hs).2 i (by simpa using hi)
      set u := (t' :: ts).getD i 0 with hu
      have hu' : (t :: t' :: ts).getD (i + 1) 0 = u := by rw [List.getD_cons_succ]
      rw [hu']
      refine ⟨Real.exp (-m.meanReversion * (u - t')) * Real.sqrt (m.conditionalVariance t t') :: w, by simp [h1], ?_, ?_⟩
      · rw [List.map_cons, List.sum_cons, h2, conditionalVariance_add m t t' u, mul_pow,
          Real.sq_sqrt (conditionalVariance_nonneg m hm t t' ht htt')]
      · intro x zs hz
        cases zs with
        | nil => simp at hz
        | cons z zs =>
          unfold HullWhite.states
          rw [List.getElem?_cons_succ, h3 _ zs (by simpa using hz), nextState_eq m hm t t' x z ht htt', conditionalMean_add m t t' u,
            List.zipWith_cons_cons, List.sum_cons]
          have e : Real.exp (-m.meanReversion * (u - t)) = Real.exp (-m.meanReversion * (u - t')) * Real.exp (-m.meanReversion * (t' - t)) := by
            rw [← Real.exp_add]; congr 1; ring
          rw [e]
          congr 1
          ring

end

/-- The recording loop keeps the marked states. -/
theorem recordLoop_eq {A : Type} (requested : Nat) (l : List (A × Bool)) (count : Nat) (written : List (Option A))
    (hw : written.length = requested) (hc : count + (l.filter Prod.snd).length = requested) :
    recordLoop requested l count written = written.take count ++ (l.filter Prod.snd).map (fun p => some p.1) := by
  induction l generalizing count written with
  | nil =>
    simp only [List.filter_nil, List.length_nil, add_zero] at hc
    simp [recordLoop, hc, ← hw]
  | cons p l ih =>
    obtain ⟨state, keep⟩ := p
    unfold recordLoop
    cases keep with
    | true =>
      rw [List.filter_cons_of_pos (by rfl)] at hc ⊢
      rw [List.length_cons] at hc
      rw [if_pos (by omega), if_pos rfl, ih (count + 1) _ (by simpa using hw) (by omega), List.map_cons, List.take_set,
        List.take_add_one, List.set_append_right _ _ (by rw [List.length_take]; omega), List.length_take, Nat.min_eq_left (by omega), Nat.sub_self]
      have : written[count]? = some (written[count]'(by omega)) := List.getElem?_eq_getElem _
      rw [this]
      simp
    | false =>
      rw [List.filter_cons_of_neg (by simp)] at hc ⊢
      by_cases hlt : count < requested
      · rw [if_pos hlt]
        simp only [Bool.false_eq_true, if_false, add_zero]
        rw [ih count _ (by simpa using hw) hc, List.take_set_of_le (by omega)]
      · rw [if_neg hlt]
        have : (l.filter Prod.snd).length = 0 := by omega
        rw [List.length_eq_zero_iff.1 this, List.map_nil, List.append_nil, List.take_of_length_le (by omega)]

/-- Selecting by a mask of indices that increase. -/
theorem filter_mask {A : Type} (d : A) (l : List A) (idx : List Nat) (hs : idx.Pairwise (· < ·)) (hlt : ∀ i ∈ idx, i < l.length) :
    ((l.zip ((List.range l.length).map (fun i => idx.contains i))).filter Prod.snd).map (fun p => p.1) = idx.map (fun i => l.getD i d) := by
  have h1 : l.zip ((List.range l.length).map (fun i => idx.contains i)) = (List.range l.length).map (fun i => (l.getD i d, idx.contains i)) := by
    apply List.ext_getElem?
    intro i
    by_cases hi : i < l.length
    · have hz : (l.zip ((List.range l.length).map (fun i => idx.contains i)))[i]? = some (l.getD i d, idx.contains i) := by
        apply List.getElem?_zip_eq_some.2
        constructor
        · rw [List.getD_eq_getElem?_getD, List.getElem?_eq_getElem hi]; rfl
        · rw [List.getElem?_map, List.getElem?_range hi]; rfl
      rw [hz, List.getElem?_map, List.getElem?_range hi]; rfl
    · rw [List.getElem?_eq_none (by simp; omega), List.getElem?_eq_none (by simp; omega)]
  rw [h1, List.filter_map, List.map_map]
  have h2 : (List.range l.length).filter (Prod.snd ∘ fun i => (l.getD i d, idx.contains i)) = idx := by
    apply List.Perm.eq_of_pairwise (le := (· < ·))
    · intro a b _ _ h1 h2; omega
    · exact (List.pairwise_lt_range).filter _
    · exact hs
    · rw [List.perm_ext_iff_of_nodup ((List.nodup_range).filter _) (hs.imp (fun h => Nat.ne_of_lt h))]
      intro a
      simp only [List.mem_filter, List.mem_range, Function.comp, List.contains_iff_mem]
      constructor
      · intro h; exact h.2
      · intro h; exact ⟨hlt a h, h⟩
  rw [h2]
  rfl

/-- The sampled rate at a requested time is the state at the position of the time in the grid plus the forward rate. -/
theorem samplePath_states (m : HullWhite) (hm : HullWhiteOk m) (times : List ℝ) (hs : times.Pairwise (· < ·)) (h0 : ∀ t ∈ times, 0 ≤ t) :
    ∃ gs : List ℝ, ((0 : ℝ) :: gs).Pairwise (· ≤ ·) ∧ gs.length = times.length + m.volJumps.length ∧
      ∀ j < times.length, searchLeft (0 :: gs) (times.getD j 0) ≤ gs.length ∧ ((0 : ℝ) :: gs).getD (searchLeft (0 :: gs) (times.getD j 0)) 0 = times.getD j 0 ∧
        ∀ (draws : List ℝ) (x : ℝ), draws.length = times.length + m.volJumps.length → (m.states 0 0 gs draws)[searchLeft (0 :: gs) (times.getD j 0)]? = some x →
          (m.samplePath times draws)[j]? = some (some (x + m.instantForwardRate (times.getD j 0))) := by
  have hperm : (m.grid times).Perm ([0] ++ times ++ m.volJumps) := List.perm_insertionSort _ _
  have hlen : (m.grid times).length = 1 + times.length + m.volJumps.length := by rw [hperm.length_eq]; simp; omega
  have hsort : (m.grid times).Pairwise (· ≤ ·) := List.pairwise_insertionSort _ _
  have hmem : ∀ t ∈ m.grid times, 0 ≤ t := by
    intro t ht
    rw [hperm.mem_iff] at ht
    simp only [List.cons_append, List.nil_append, List.mem_cons, List.mem_append] at ht
    rcases ht with rfl | ht | ht
    · exact le_rfl
    · exact h0 t ht
    · exact hm.nonneg t ht
  -- positions
  have hpos : ∀ t ∈ times, searchLeft (m.grid times) t < (m.grid times).length ∧ (m.grid times).getD (searchLeft (m.grid times) t) 0 = t := by
    intro t ht
    have hin : t ∈ m.grid times := by rw [hperm.mem_iff]; simp [ht]
    obtain ⟨i, hi⟩ := List.getElem?_of_mem hin
    have hil : i < (m.grid times).length := by
      by_contra hc
      rw [List.getElem?_eq_none (by omega)] at hi
      simp at hi
    obtain ⟨g1, g2⟩ := searchLeft_spec (m.grid times) hsort t
    have hle : searchLeft (m.grid times) t ≤ i := by
      by_contra hc
      have := (g2 i t hi).1 (by omega)
      exact lt_irrefl _ this
    refine ⟨by omega, le_antisymm ?_ ?_⟩
    · have := getD_mono _ hsort _ i hle hil
      rwa [getD_of_some _ i t hi] at this
    · by_contra hc
      have := (g2 _ _ (getD_some (m.grid times) (searchLeft (m.grid times) t) (by omega))).2 (not_le.1 hc)
      omega
  have hidx : (m.gridIndices times).Pairwise (· < ·) := by
    unfold HullWhite.gridIndices
    rw [List.pairwise_map]
    apply List.Pairwise.imp_of_mem _ hs
    intro a b ha hb hab
    by_contra hc
    have := getD_mono _ hsort _ _ (not_lt.1 hc) (hpos a ha).1
    rw [(hpos a ha).2, (hpos b hb).2] at this
    linarith
  have hidxlt : ∀ i ∈ m.gridIndices times, i < (m.grid times).length := by
    intro i hi
    unfold HullWhite.gridIndices at hi
    rw [List.mem_map] at hi
    obtain ⟨t, ht, rfl⟩ := hi
    exact (hpos t ht).1
  -- the head of the grid is zero
  obtain ⟨g0, gs, hg⟩ : ∃ g0 gs, m.grid times = g0 :: gs := by
    cases h : m.grid times with
    | nil => rw [h] at hlen; simp at hlen; omega
    | cons a b => exact ⟨a, b, rfl⟩
  have hg0 : g0 = 0 := by
    have h1 : (0 : ℝ) ∈ m.grid times := by rw [hperm.mem_iff]; simp
    have h2 : 0 ≤ g0 := hmem g0 (by rw [hg]; simp)
    rw [hg] at h1 hsort
    rcases List.mem_cons.1 h1 with h | h
    · exact h.symm
    · exact le_antisymm ((List.pairwise_cons.1 hsort).1 0 h) h2
  subst hg0
  have hgs : gs.length = times.length + m.volJumps.length := by
    rw [hg] at hlen; simp at hlen; omega
  refine ⟨gs, by rw [← hg]; exact hsort, hgs, fun j hj => ?_⟩
  rw [← hg]
  set tj := times.getD j 0 with htj
  have htjm : tj ∈ times := List.mem_of_getElem? (getD_some times j hj)
  set i := searchLeft (m.grid times) tj with hi
  have hile : i ≤ gs.length := by
    have := (hpos tj htjm).1
    rw [hlen] at this; omega
  refine ⟨hile, (hpos tj htjm).2, fun draws x hdraws hst => ?_⟩
  unfold HullWhite.samplePath
  simp only
  have hhead : (m.grid times).headD 0 = 0 := by rw [hg]; rfl
  have htail : (m.grid times).tail = gs := by rw [hg]; rfl
  rw [hhead, htail]
  set rates := List.zipWith (fun x t => x + m.instantForwardRate t) (m.states 0 0 gs draws) (m.grid times) with hrates
  have hrl : rates.length = (m.grid times).length := by
    rw [hrates, List.length_zipWith, states_length m 0 0 gs draws (by omega)]
    rw [hlen, hgs]; omega
  unfold HullWhite.keepMask
  rw [← hrl]
  have hf := filter_mask (0 : ℝ) rates (m.gridIndices times) hidx (by rw [hrl]; exact hidxlt)
  have hcount : ((rates.zip ((List.range rates.length).map (fun i => (m.gridIndices times).contains i))).filter Prod.snd).length = times.length := by
    have := congrArg List.length hf
    rw [List.length_map, List.length_map] at this
    rw [this]
    unfold HullWhite.gridIndices
    simp
  rw [recordLoop_eq times.length _ 0 _ (by simp) (by rw [hcount]; omega), List.take_zero, List.nil_append,
    show (fun (p : ℝ × Bool) => some p.1) = some ∘ (fun p => p.1) from rfl, ← List.map_map, hf, List.map_map, List.getElem?_map]
  unfold HullWhite.gridIndices
  rw [List.getElem?_map, getD_some times j hj]
  simp only [Option.map_some, Function.comp]
  rw [← htj, ← hi, hrates, List.getD_eq_getElem?_getD, List.getElem?_zipWith, hst, getD_some (m.grid times) i (by rw [hlen]; omega),
    (hpos tj htjm).2]
  rfl

end Lemmas

namespace Props
open Model Lemmas Spec

/-- C51: the moments from one time to the next are those of the stochastic differential equation, for every piecewise constant
volatility. -/
theorem C51_moments (m : HullWhite) (hm : HullWhiteOk m) (t t' : ℝ) (ht : 0 ≤ t) (ht' : t ≤ t') :
    m.computeYt t = convexity m.meanReversion m.volatility t ∧
    m.conditionalVariance t t' = stateVariance m.meanReversion m.volatility t t' ∧
    m.conditionalMean t t' = stateMean m.meanReversion m.volatility t t' :=
  ⟨computeYt_eq m hm t ht, conditionalVariance_eq m hm t t' ht ht', conditionalMean_eq m hm t t' ht ht'⟩

/-- C51: the sampled rate at each requested time is the initial forward rate plus the exact mean of the state plus a combination of the
normal draws whose squared weights sum to the exact variance of the state, whatever the grid. -/
theorem C51_paths (m : HullWhite) (hm : HullWhiteOk m) (times : List ℝ) (hs : times.Pairwise (· < ·)) (h0 : ∀ t ∈ times, 0 ≤ t) (j : Nat)
    (hj : j < times.length) :
    ∃ w : List ℝ, (w.map (fun a => a ^ 2)).sum = stateVariance m.meanReversion m.volatility 0 (times.getD j 0) ∧
      ∀ draws : List ℝ, draws.length = times.length + m.volJumps.length → (m.samplePath times draws)[j]? =
        some (some (stateMean m.meanReversion m.volatility 0 (times.getD j 0) + (List.zipWith (fun a z => a * z) w draws).sum +
          m.instantForwardRate (times.getD j 0))) := by
  obtain ⟨gs, hsort, hgs, hpos⟩ := samplePath_states m hm times hs h0
  obtain ⟨hile, hgi, hpath⟩ := hpos j hj
  set tj := times.getD j 0 with htj
  have htjm : tj ∈ times := List.mem_of_getElem? (getD_some times j hj)
  obtain ⟨w, hw1, hw2, hw3⟩ := states_law m hm gs 0 le_rfl hsort _ hile
  rw [hgi] at hw2 hw3
  have htj0 := h0 tj htjm
  rw [conditionalVariance_eq m hm 0 tj le_rfl htj0] at hw2
  rw [conditionalMean_eq m hm 0 tj le_rfl htj0] at hw3
  refine ⟨w, hw2, ?_⟩
  intro draws hdraws
  have hst := hw3 0 draws (by omega)
  rw [mul_zero, zero_add] at hst
  exact hpath draws _ hdraws hst

/-- C51: the well known moments for a constant volatility. -/
theorem C51_constant (k sigma : ℝ) (hk : k ≠ 0) (rate : ℝ → ℝ) (t : ℝ) (ht : 0 ≤ t) :
    stateVariance k (fun _ => sigma) 0 t = sigma ^ 2 / (2 * k) * (1 - Real.exp (-2 * k * t)) ∧
    stateMean k (fun _ => sigma) 0 t = sigma ^ 2 / (2 * k ^ 2) * (1 - Real.exp (-k * t)) ^ 2 := by
  let m : HullWhite := ⟨k, [], [sigma], rate⟩
  have hm : HullWhiteOk m := ⟨hk, List.Pairwise.nil, by simp [m]⟩
  have hv : m.volatility = fun _ => sigma := by funext s; rfl
  have h1 := conditionalVariance_eq m hm 0 t le_rfl ht
  have h2 := conditionalMean_eq m hm 0 t le_rfl ht
  rw [hv] at h1 h2
  have e0 : searchLeft m.volJumps t = 0 := rfl
  have e1 : searchLeft m.volJumps 0 = 0 := rfl
  have ea : Real.exp (-2 * k * t) = Real.exp (-k * t) * Real.exp (-k * t) := by rw [← Real.exp_add]; congr 1; ring
  have eb : Real.exp (2 * k * t) = Real.exp (k * t) * Real.exp (k * t) := by rw [← Real.exp_add]; congr 1; ring
  have ec : Real.exp (k * t) * Real.exp (-k * t) = 1 := by rw [← Real.exp_add]; simp
  constructor
  · rw [← h1]
    simp only [HullWhite.conditionalVariance, HullWhite.varianceAt, e0, e1, varianceInt, HullWhite.varianceAtKnots, HullWhite.vn, m, hv, HullWhite.volatility, piecewiseConstant]
    simp only [List.getD_cons_zero, ite_self, mul_zero, Real.exp_zero, sub_self, add_zero, if_true]
    rw [ea, eb]
    generalize Real.exp (k * t) = A at *
    generalize Real.exp (-k * t) = B at *
    field_simp
    linear_combination sigma ^ 2 * (A * B + 1) * ec
  · rw [← h2]
    simp only [HullWhite.conditionalMean, HullWhite.exAt, e0, e1, exIntegral, HullWhite.exAtKnots, HullWhite.varianceAtKnots, HullWhite.vn, m, HullWhite.volatility, piecewiseConstant]
    simp only [List.getD_cons_zero, mul_zero, Real.exp_zero, sub_self, add_zero, if_true, zero_mul, zero_div, sub_zero, one_mul]
    generalize Real.exp (k * t) = A at *
    generalize Real.exp (-k * t) = B at *
    field_simp
    linear_combination sigma ^ 2 * ec

/-- A volatility of 1% until time 1 and 2% after that, times between and after. -/
example : HullWhiteOk ⟨3 / 100, [1], [1 / 100, 2 / 100], fun _ => 1 / 50⟩ := ⟨by norm_num, by simp, by simp⟩

example : ∃ w : List ℝ, (w.map (fun a => a ^ 2)).sum = stateVariance (3 / 100)
      (HullWhite.volatility ⟨3 / 100, [1], [1 / 100, 2 / 100], fun _ => 1 / 50⟩) 0 2 := by
  obtain ⟨w, h, _⟩ := C51_paths ⟨3 / 100, [1], [1 / 100, 2 / 100], fun _ => 1 / 50⟩ ⟨by norm_num, by simp, by simp⟩ [1 / 2, 2]
    (by simp; norm_num) (by simp) 1 (by simp)
  exact ⟨w, h⟩

end Props
