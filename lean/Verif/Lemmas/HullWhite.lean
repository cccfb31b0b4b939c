import Verif.Model.HullWhite
import Verif.Lemmas.Piecewise
import Mathlib.MeasureTheory.Integral.IntervalIntegral.FundThmCalculus
import Mathlib.Analysis.SpecialFunctions.ExpDeriv
import Mathlib.Tactic.FieldSimp
import Mathlib.Tactic.Linarith

/-! Integrals of functions that are given piece by piece. -/

namespace Lemmas
open Model MeasureTheory Set

theorem cumsum_false_getD (l : List ℝ) (i : Nat) (hi : i < l.length) :
    (cumsum l false).getD i 0 = (Finset.range (i + 1)).sum (fun k => l.getD k 0) := by
  have := cumsum_getElem? l false i hi
  unfold segmentCumsum at this
  simp only [Bool.false_eq_true, if_false] at this
  rw [List.getD_eq_getElem?_getD, this, Option.getD_some]

theorem cumsum_cons_succ (l : List ℝ) (i : Nat) (hi : i < l.length) :
    (0 :: cumsum l false).getD (i + 1) 0 = (0 :: cumsum l false).getD i 0 + l.getD i 0 := by
  rw [List.getD_cons_succ, cumsum_false_getD l i hi, Finset.sum_range_succ]
  cases i with
  | zero => simp
  | succ j => rw [List.getD_cons_succ, cumsum_false_getD l j (by omega)]

theorem zip_getD (a b : List ℝ) (i : Nat) (ha : i < a.length) (hb : i < b.length) : (a.zip b)[i]? = some (a.getD i 0, b.getD i 0) :=
  List.getElem?_zip_eq_some.2 ⟨getD_some a i ha, getD_some b i hb⟩

/-- Integration of `h`, which is `c i` on the piece `i`. -/
theorem accumulate_le (jumps : List ℝ) (hle : jumps.Pairwise (· ≤ ·)) (h0 : ∀ j ∈ jumps, 0 ≤ j) (h : ℝ → ℝ) (c : Nat → ℝ → ℝ)
    (hc : ∀ i, Continuous (c i))
    (hh : ∀ i, i ≤ jumps.length → ∀ s, (0 :: jumps).getD i 0 < s → (i < jumps.length → s ≤ jumps.getD i 0) → h s = c i s)
    (loc : Nat → ℝ → ℝ) (hloc : ∀ i, i ≤ jumps.length → ∀ t, loc i t = ∫ s in (0 :: jumps).getD i 0..t, c i s)
    (acc : Nat → ℝ) (hacc0 : acc 0 = 0) (hacc : ∀ i, i < jumps.length → acc (i + 1) = acc i + loc i (jumps.getD i 0)) :
    (∀ i, i ≤ jumps.length → ∀ t, (0 :: jumps).getD i 0 ≤ t → (i < jumps.length → t ≤ jumps.getD i 0) →
      IntervalIntegrable h volume 0 t ∧ loc i t + acc i = ∫ s in (0 : ℝ)..t, h s) := by
  have hmono : ∀ i, i < jumps.length → (0 :: jumps).getD i 0 ≤ jumps.getD i 0 := by
    intro i hi
    cases i with
    | zero => exact h0 _ (List.mem_of_getElem? (getD_some jumps 0 hi))
    | succ j => rw [List.getD_cons_succ]; exact getD_mono jumps hle j (j + 1) (by omega) hi
  have piece : ∀ i, i ≤ jumps.length → ∀ t, (0 :: jumps).getD i 0 ≤ t → (i < jumps.length → t ≤ jumps.getD i 0) →
      IntervalIntegrable h volume ((0 :: jumps).getD i 0) t ∧ loc i t = ∫ s in (0 :: jumps).getD i 0..t, h s := by
    intro i hi t h1 h2
    have heq : EqOn (c i) h (Ioc ((0 :: jumps).getD i 0) t) := by
      intro s hs'
      exact (hh i hi s hs'.1 (fun hi' => le_trans hs'.2 (h2 hi'))).symm
    constructor
    · exact ((hc i).intervalIntegrable _ _).congr (by rw [uIoc_of_le h1]; exact heq)
    · rw [hloc i hi t]
      exact intervalIntegral.integral_congr_ae (Filter.Eventually.of_forall (fun s hs' => heq (by rwa [uIoc_of_le h1] at hs')))
  intro i hi
  induction i with
  | zero =>
    intro t h1 h2
    have := piece 0 hi t h1 h2
    rw [hacc0, add_zero]
    simpa using this
  | succ i ih =>
    intro t h1 h2
    have ihi := ih (by omega) (jumps.getD i 0) (hmono i (by omega)) (fun _ => le_rfl)
    have hp := piece (i + 1) hi t h1 h2
    rw [List.getD_cons_succ] at hp
    refine ⟨ihi.1.trans hp.1, ?_⟩
    rw [hacc i (by omega), ← intervalIntegral.integral_add_adjacent_intervals ihi.1 hp.1, ← ihi.2, hp.2]
    ring

theorem accumulate (jumps : List ℝ) (hs : jumps.Pairwise (· < ·)) (h0 : ∀ j ∈ jumps, 0 ≤ j) (h : ℝ → ℝ) (c : Nat → ℝ → ℝ)
    (hc : ∀ i, Continuous (c i))
    (hh : ∀ i, i ≤ jumps.length → ∀ s, (0 :: jumps).getD i 0 < s → (i < jumps.length → s ≤ jumps.getD i 0) → h s = c i s)
    (loc : Nat → ℝ → ℝ) (hloc : ∀ i, i ≤ jumps.length → ∀ t, loc i t = ∫ s in (0 :: jumps).getD i 0..t, c i s)
    (acc : Nat → ℝ) (hacc0 : acc 0 = 0) (hacc : ∀ i, i < jumps.length → acc (i + 1) = acc i + loc i (jumps.getD i 0)) :
    (∀ i, i ≤ jumps.length → ∀ t, (0 :: jumps).getD i 0 ≤ t → (i < jumps.length → t ≤ jumps.getD i 0) →
      IntervalIntegrable h volume 0 t ∧ loc i t + acc i = ∫ s in (0 : ℝ)..t, h s) :=
  accumulate_le jumps (hs.imp le_of_lt) h0 h c hc hh loc hloc acc hacc0 hacc

/-- Every time from zero on is in the piece that `searchsorted` finds. -/
theorem searchLeft_piece_le (jumps : List ℝ) (hs : jumps.Pairwise (· ≤ ·)) (t : ℝ) (ht : 0 ≤ t) :
    searchLeft jumps t ≤ jumps.length ∧ (0 :: jumps).getD (searchLeft jumps t) 0 ≤ t ∧
      (searchLeft jumps t < jumps.length → t ≤ jumps.getD (searchLeft jumps t) 0) := by
  obtain ⟨h1, h2⟩ := searchLeft_spec jumps hs t
  refine ⟨h1, ?_, ?_⟩
  · cases hi : searchLeft jumps t with
    | zero => simpa using ht
    | succ i =>
      rw [List.getD_cons_succ]
      exact ((h2 i _ (getD_some jumps i (by omega))).1 (by omega)).le
  · intro hi
    by_contra hc
    have := (h2 _ _ (getD_some jumps _ hi)).2 (not_le.1 hc)
    omega

theorem searchLeft_piece (jumps : List ℝ) (hs : jumps.Pairwise (· < ·)) (t : ℝ) (ht : 0 ≤ t) :
    searchLeft jumps t ≤ jumps.length ∧ (0 :: jumps).getD (searchLeft jumps t) 0 ≤ t ∧
      (searchLeft jumps t < jumps.length → t ≤ jumps.getD (searchLeft jumps t) 0) :=
  searchLeft_piece_le jumps (hs.imp le_of_lt) t ht

theorem searchLeft_of_piece (jumps : List ℝ) (hs : jumps.Pairwise (· < ·)) (i : Nat) (hi : i ≤ jumps.length) (s : ℝ)
    (h1 : 0 < i → jumps.getD (i - 1) 0 < s) (h2 : i < jumps.length → s ≤ jumps.getD i 0) : searchLeft jumps s = i := by
  apply searchLeft_eq jumps (hs.imp le_of_lt) s i hi
  · intro a hi' ha
    rw [← getD_of_some _ _ _ ha]; exact h1 (by omega)
  · intro a ha
    have hlt : i < jumps.length := by
      by_contra hc
      rw [List.getElem?_eq_none (by omega)] at ha
      simp at ha
    rw [← getD_of_some _ _ _ ha]; exact h2 hlt

/-- Conditions on the parameters. -/
structure HullWhiteOk (m : HullWhite) : Prop where
  mr : m.meanReversion ≠ 0
  sorted : m.volJumps.Pairwise (· < ·)
  nonneg : ∀ j ∈ m.volJumps, 0 ≤ j

section
variable (m : HullWhite) (hm : HullWhiteOk m)
include hm

theorem volatility_piece (i : Nat) (hi : i ≤ m.volJumps.length) (s : ℝ) (h1 : 0 < i → m.volJumps.getD (i - 1) 0 < s)
    (h2 : i < m.volJumps.length → s ≤ m.volJumps.getD i 0) : m.volatility s = m.volValues.getD i 0 := by
  unfold HullWhite.volatility piecewiseConstant
  rw [if_pos rfl, searchLeft_of_piece _ hm.sorted i hi s h1 h2]

theorem volatility_jump (i : Nat) (hi : i < m.volJumps.length) : m.volatility (m.volJumps.getD i 0) = m.volValues.getD i 0 := by
  apply volatility_piece m hm i hi.le
  · intro h0
    have := List.pairwise_iff_getElem.1 hm.sorted (i - 1) i (by omega) hi (by omega)
    rwa [getD_of_some _ _ _ (List.getElem?_eq_getElem (show i - 1 < m.volJumps.length by omega)),
      getD_of_some _ _ _ (List.getElem?_eq_getElem hi)]
  · intro _; exact le_rfl

omit hm in
theorem paddedKnots_getD (i : Nat) (hi : i < m.volJumps.length) : m.paddedKnots.getD i 0 = (0 :: m.volJumps).getD i 0 := by
  unfold HullWhite.paddedKnots
  cases i with
  | zero => rfl
  | succ j =>
    rw [List.getD_cons_succ, List.getD_cons_succ, List.getD_eq_getElem?_getD, List.getElem?_dropLast, if_pos (by omega),
      ← List.getD_eq_getElem?_getD]

omit hm in
theorem paddedKnots_length (i : Nat) (hi : i < m.volJumps.length) : i < m.paddedKnots.length := by
  unfold HullWhite.paddedKnots
  simp; omega

theorem varianceAtKnots_succ (i : Nat) (hi : i < m.volJumps.length) : m.varianceAtKnots.getD (i + 1) 0 = m.varianceAtKnots.getD i 0 +
    varianceInt ((0 :: m.volJumps).getD i 0) (m.volJumps.getD i 0) (m.volValues.getD i 0) m.meanReversion := by
  have hp := paddedKnots_length m i hi
  unfold HullWhite.varianceAtKnots
  rw [cumsum_cons_succ _ _ (by simp [HullWhite.jumpValuesVol, HullWhite.paddedKnots]; omega)]
  congr 1
  rw [List.getD_eq_getElem?_getD, List.getElem?_zipWith, zip_getD _ _ i hp hi]
  unfold HullWhite.jumpValuesVol
  rw [List.getElem?_map, getD_some _ _ hi]
  simp only [Option.map_some, Option.getD_some]
  rw [volatility_jump m hm i hi, paddedKnots_getD m i hi]

omit hm in
theorem varianceAtKnots_length : m.varianceAtKnots.length = m.volJumps.length + 1 := by
  unfold HullWhite.varianceAtKnots HullWhite.jumpValuesVol HullWhite.paddedKnots
  have := cumsum_length (List.zipWith (fun (p : ℝ × ℝ) v => varianceInt p.1 p.2 v m.meanReversion)
    ((0 :: m.volJumps.dropLast).zip m.volJumps) (m.volJumps.map m.volatility)) false
  unfold segmentCumsum at this
  simp only at this
  rw [List.length_cons, this]
  simp
  omega

theorem exAtKnots_succ (i : Nat) (hi : i < m.volJumps.length) : m.exAtKnots.getD (i + 1) 0 = m.exAtKnots.getD i 0 +
    exIntegral ((0 :: m.volJumps).getD i 0) (m.volJumps.getD i 0) (m.volValues.getD i 0) m.meanReversion (m.varianceAtKnots.getD i 0) := by
  have hp := paddedKnots_length m i hi
  have hv : i < m.varianceAtKnots.dropLast.length := by
    rw [List.length_dropLast, varianceAtKnots_length]; omega
  have hj : i < m.jumpValuesVol.length := by simp [HullWhite.jumpValuesVol]; omega
  unfold HullWhite.exAtKnots
  rw [cumsum_cons_succ _ _ (by simp only [List.length_zipWith, List.length_zip]; omega)]
  congr 1
  rw [List.getD_eq_getElem?_getD, List.getElem?_zipWith, zip_getD _ _ i hp hi,
    zip_getD _ _ i hj hv]
  simp only [Option.getD_some]
  have e1 : m.jumpValuesVol.getD i 0 = m.volValues.getD i 0 := by
    rw [← volatility_jump m hm i hi]
    unfold HullWhite.jumpValuesVol
    rw [List.getD_eq_getElem?_getD, List.getElem?_map, getD_some _ _ hi]
    rfl
  have e2 : m.varianceAtKnots.dropLast.getD i 0 = m.varianceAtKnots.getD i 0 := by
    rw [List.getD_eq_getElem?_getD, List.getElem?_dropLast, if_pos (by rw [varianceAtKnots_length]; omega), ← List.getD_eq_getElem?_getD]
  rw [e1, e2, paddedKnots_getD m i hi]

omit hm in
theorem varianceInt_eq (hk : m.meanReversion ≠ 0) (t0 t v : ℝ) :
    varianceInt t0 t v m.meanReversion = ∫ s in t0..t, v ^ 2 * Real.exp (2 * m.meanReversion * s) := by
  have hd : ∀ s ∈ uIcc t0 t, HasDerivAt (fun s => v ^ 2 / (2 * m.meanReversion) * Real.exp (2 * m.meanReversion * s))
      (v ^ 2 * Real.exp (2 * m.meanReversion * s)) s := by
    intro s _
    have h1 : HasDerivAt (fun s : ℝ => 2 * m.meanReversion * s) (2 * m.meanReversion) s := by
      simpa using (hasDerivAt_id s).const_mul (2 * m.meanReversion)
    refine (h1.exp.const_mul _).congr_deriv ?_
    field_simp
  rw [intervalIntegral.integral_eq_sub_of_hasDerivAt hd (Continuous.intervalIntegrable (by fun_prop) _ _)]
  unfold varianceInt
  ring

/-- `varianceAt` is an integral, and on each piece given by a formula. -/
theorem varianceAt_piece (i : Nat) (hi : i ≤ m.volJumps.length) (t : ℝ) (h1 : (0 :: m.volJumps).getD i 0 ≤ t)
    (h2 : i < m.volJumps.length → t ≤ m.volJumps.getD i 0) :
    IntervalIntegrable (fun s => m.volatility s ^ 2 * Real.exp (2 * m.meanReversion * s)) volume 0 t ∧
    varianceInt ((0 :: m.volJumps).getD i 0) t (m.volValues.getD i 0) m.meanReversion + m.varianceAtKnots.getD i 0 =
      ∫ s in (0 : ℝ)..t, m.volatility s ^ 2 * Real.exp (2 * m.meanReversion * s) := by
  refine accumulate m.volJumps hm.sorted hm.nonneg (fun s => m.volatility s ^ 2 * Real.exp (2 * m.meanReversion * s))
    (fun i s => m.volValues.getD i 0 ^ 2 * Real.exp (2 * m.meanReversion * s)) (fun i => by fun_prop) ?_
    (fun i t => varianceInt ((0 :: m.volJumps).getD i 0) t (m.volValues.getD i 0) m.meanReversion)
    (fun i _ t => varianceInt_eq m hm.mr _ t _) (fun i => m.varianceAtKnots.getD i 0) rfl
    (fun i hi => varianceAtKnots_succ m hm i hi) i hi t h1 h2
  intro i hi s h1 h2
  rw [volatility_piece m hm i hi s _ h2]
  intro h0
  obtain ⟨j, rfl⟩ : ∃ j, i = j + 1 := ⟨i - 1, by omega⟩
  simpa using h1

theorem varianceAt_eq (t : ℝ) (ht : 0 ≤ t) :
    m.varianceAt t = ∫ s in (0 : ℝ)..t, m.volatility s ^ 2 * Real.exp (2 * m.meanReversion * s) := by
  obtain ⟨h1, h2, h3⟩ := searchLeft_piece m.volJumps hm.sorted t ht
  exact (varianceAt_piece m hm _ h1 t h2 h3).2

theorem varianceAt_on_piece (i : Nat) (hi : i ≤ m.volJumps.length) (t : ℝ) (h1 : (0 :: m.volJumps).getD i 0 ≤ t)
    (h2 : i < m.volJumps.length → t ≤ m.volJumps.getD i 0) (ht : 0 ≤ t) :
    m.varianceAt t = varianceInt ((0 :: m.volJumps).getD i 0) t (m.volValues.getD i 0) m.meanReversion + m.varianceAtKnots.getD i 0 := by
  rw [varianceAt_eq m hm t ht, (varianceAt_piece m hm i hi t h1 h2).2]

theorem knots_nonneg (i : Nat) (hi : i ≤ m.volJumps.length) : 0 ≤ (0 :: m.volJumps).getD i 0 := by
  cases i with
  | zero => simp
  | succ j => rw [List.getD_cons_succ]; exact hm.nonneg _ (List.mem_of_getElem? (getD_some _ j (by omega)))

omit hm in
theorem exIntegral_eq (hk : m.meanReversion ≠ 0) (t0 t v y0 : ℝ) : exIntegral t0 t v m.meanReversion y0 =
    ∫ s in t0..t, Real.exp (-m.meanReversion * s) * (varianceInt t0 s v m.meanReversion + y0) := by
  set k := m.meanReversion
  have hd : ∀ s ∈ uIcc t0 t, HasDerivAt (fun s => exIntegral t0 s v k y0) (Real.exp (-k * s) * (varianceInt t0 s v k + y0)) s := by
    intro s _
    have h1 : HasDerivAt (fun s : ℝ => Real.exp (k * s)) (k * Real.exp (k * s)) s := by
      have : HasDerivAt (fun s : ℝ => k * s) k s := by simpa using (hasDerivAt_id s).const_mul k
      simpa [mul_comm] using this.exp
    have h2 : HasDerivAt (fun s : ℝ => Real.exp (-k * s)) (-k * Real.exp (-k * s)) s := by
      have : HasDerivAt (fun s : ℝ => -k * s) (-k) s := by simpa using (hasDerivAt_id s).const_mul (-k)
      simpa [mul_comm] using this.exp
    have h3 := (((h1.sub_const (Real.exp (k * t0))).add ((h2.sub_const (Real.exp (-k * t0))).const_mul (Real.exp (2 * k * t0)))).mul_const
      (v ^ 2)).div_const (2 * k * k)
    have h4 := (((hasDerivAt_const s (Real.exp (-k * t0))).sub h2).const_mul y0).div_const k
    refine (h3.add h4).congr_deriv ?_
    unfold varianceInt
    have e1 : Real.exp (2 * k * s) = Real.exp (k * s) * Real.exp (k * s) := by rw [← Real.exp_add]; congr 1; ring
    have e2 : Real.exp (-k * s) * Real.exp (k * s) = 1 := by rw [← Real.exp_add]; simp
    rw [e1]
    field_simp
    rw [show -(k * s) = -k * s by ring]
    linear_combination (-(v ^ 2 * Real.exp (k * s))) * e2
  have hcont : Continuous (fun s => Real.exp (-k * s) * (varianceInt t0 s v k + y0)) := by unfold varianceInt; fun_prop
  rw [intervalIntegral.integral_eq_sub_of_hasDerivAt hd (hcont.intervalIntegrable _ _)]
  have : exIntegral t0 t0 v k y0 = 0 := by unfold exIntegral; simp
  rw [this, sub_zero]

theorem exAt_piece (i : Nat) (hi : i ≤ m.volJumps.length) (t : ℝ) (h1 : (0 :: m.volJumps).getD i 0 ≤ t)
    (h2 : i < m.volJumps.length → t ≤ m.volJumps.getD i 0) :
    IntervalIntegrable (fun s => Real.exp (-m.meanReversion * s) * m.varianceAt s) volume 0 t ∧
    exIntegral ((0 :: m.volJumps).getD i 0) t (m.volValues.getD i 0) m.meanReversion (m.varianceAtKnots.getD i 0) + m.exAtKnots.getD i 0 =
      ∫ s in (0 : ℝ)..t, Real.exp (-m.meanReversion * s) * m.varianceAt s := by
  refine accumulate m.volJumps hm.sorted hm.nonneg (fun s => Real.exp (-m.meanReversion * s) * m.varianceAt s)
    (fun i s => Real.exp (-m.meanReversion * s) * (varianceInt ((0 :: m.volJumps).getD i 0) s (m.volValues.getD i 0) m.meanReversion +
      m.varianceAtKnots.getD i 0)) (fun i => by unfold varianceInt; fun_prop) ?_
    (fun i t => exIntegral ((0 :: m.volJumps).getD i 0) t (m.volValues.getD i 0) m.meanReversion (m.varianceAtKnots.getD i 0))
    (fun i _ t => exIntegral_eq m hm.mr _ t _ _) (fun i => m.exAtKnots.getD i 0) rfl
    (fun i hi => exAtKnots_succ m hm i hi) i hi t h1 h2
  intro i hi s h1 h2
  rw [varianceAt_on_piece m hm i hi s h1.le h2 (le_trans (knots_nonneg m hm i hi) h1.le)]

theorem exAt_eq (t : ℝ) (ht : 0 ≤ t) : m.exAt t = ∫ s in (0 : ℝ)..t, Real.exp (-m.meanReversion * s) * m.varianceAt s := by
  obtain ⟨h1, h2, h3⟩ := searchLeft_piece m.volJumps hm.sorted t ht
  exact (exAt_piece m hm _ h1 t h2 h3).2

theorem variance_integrable (t : ℝ) (ht : 0 ≤ t) :
    IntervalIntegrable (fun s => m.volatility s ^ 2 * Real.exp (2 * m.meanReversion * s)) volume 0 t := by
  obtain ⟨h1, h2, h3⟩ := searchLeft_piece m.volJumps hm.sorted t ht
  exact (varianceAt_piece m hm _ h1 t h2 h3).1

theorem ex_integrable (t : ℝ) (ht : 0 ≤ t) :
    IntervalIntegrable (fun s => Real.exp (-m.meanReversion * s) * m.varianceAt s) volume 0 t := by
  obtain ⟨h1, h2, h3⟩ := searchLeft_piece m.volJumps hm.sorted t ht
  exact (exAt_piece m hm _ h1 t h2 h3).1

end

end Lemmas
