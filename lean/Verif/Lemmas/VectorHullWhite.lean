import Verif.Model.VectorHullWhite
import Verif.Spec.VectorHullWhite
import Verif.Props.HullWhite

/-! The moments of the factors of the correlated Hull-White model. -/

namespace VectorHw
open Model Spec Lemmas MeasureTheory

/-- Conditions on the parameters of a factor. -/
structure FactorOk (m : VectorHullWhite) (i : Nat) : Prop where
  mr : m.meanReversion i ≠ 0
  sorted : (m.volJumps i).Pairwise (· < ·)
  nonneg : ∀ j ∈ m.volJumps i, 0 ≤ j
  corr_nonneg : ∀ j ∈ m.corrJumps, 0 ≤ j

section
variable (m : VectorHullWhite) (i : Nat)

theorem knots_perm : (m.knots i).Perm (m.volJumps i ++ m.corrJumps) := List.perm_insertionSort _ _

theorem knots_sorted : (m.knots i).Pairwise (· ≤ ·) := List.pairwise_insertionSort _ _

/-- The value of the volatility on a piece between knots. -/
noncomputable def pieceVol (j : Nat) : ℝ :=
  if j < (m.knots i).length then m.volatility i ((m.knots i).getD j 0) else (m.volValues i).getD (m.volJumps i).length 0

variable (hm : FactorOk m i)
include hm

theorem knots_nonneg_mem : ∀ j ∈ m.knots i, 0 ≤ j := by
  intro j hj
  rw [(knots_perm m i).mem_iff, List.mem_append] at hj
  rcases hj with h | h
  · exact hm.nonneg j h
  · exact hm.corr_nonneg j h

theorem vol_piece (j : Nat) (hj : j ≤ (m.knots i).length) (s : ℝ) (h1 : 0 < j → (m.knots i).getD (j - 1) 0 < s)
    (h2 : j < (m.knots i).length → s ≤ (m.knots i).getD j 0) : m.volatility i s = pieceVol m i j := by
  have hmem : ∀ q ∈ m.volJumps i, q ∈ m.knots i := fun q hq => by
    rw [(knots_perm m i).mem_iff]; exact List.mem_append_left _ hq
  have hle : (m.volJumps i).Pairwise (· ≤ ·) := hm.sorted.imp le_of_lt
  have hback : ∀ q ∈ m.volJumps i, (∃ c, q < c ∧ (j < (m.knots i).length → c = (m.knots i).getD j 0) ∧ (¬ j < (m.knots i).length → True)) → q < s := by
    intro q hq hc
    obtain ⟨p, hp⟩ := List.mem_iff_getElem?.1 (hmem q hq)
    have hpl := (List.getElem?_eq_some_iff.1 hp).1
    have hpj : p < j := by
      by_contra hge
      obtain ⟨c, h3, h4, _⟩ := hc
      have := getD_mono (m.knots i) (knots_sorted m i) j p (not_lt.1 hge) hpl
      rw [getD_of_some _ _ _ hp, ← h4 (by omega)] at this
      linarith
    have := getD_mono (m.knots i) (knots_sorted m i) p (j - 1) (by omega) (by omega)
    rw [getD_of_some _ _ _ hp] at this
    exact lt_of_le_of_lt this (h1 (by omega))
  unfold pieceVol VectorHullWhite.volatility piecewiseConstant
  simp only [if_true]
  by_cases hl : j < (m.knots i).length
  · rw [if_pos hl]
    obtain ⟨e1, e2⟩ := searchLeft_spec (m.volJumps i) hle ((m.knots i).getD j 0)
    congr 1
    apply searchLeft_eq (m.volJumps i) hle s _ e1
    · intro a hn ha
      exact hback a (List.mem_of_getElem? ha) ⟨_, (e2 _ a ha).1 (by omega), fun _ => rfl, fun _ => trivial⟩
    · intro a ha
      have hna : ¬ a < (m.knots i).getD j 0 := fun h => by
        have := (e2 _ a ha).2 h
        omega
      exact le_trans (h2 hl) (not_lt.1 hna)
  · rw [if_neg hl]
    congr 1
    apply searchLeft_eq (m.volJumps i) hle s _ le_rfl
    · intro a hn ha
      exact hback a (List.mem_of_getElem? ha) ⟨a + 1, by linarith, fun h => absurd h hl, fun _ => trivial⟩
    · intro a ha
      rw [List.getElem?_eq_none (by omega)] at ha
      simp at ha

omit hm in
theorem padded_getD (j : Nat) (hj : j < (m.knots i).length) : (m.paddedKnots i).getD j 0 = (0 :: m.knots i).getD j 0 := by
  unfold VectorHullWhite.paddedKnots
  cases j with
  | zero => rfl
  | succ j =>
    rw [List.getD_cons_succ, List.getD_cons_succ, List.getD_eq_getElem?_getD, List.getElem?_dropLast, if_pos (by omega),
      ← List.getD_eq_getElem?_getD]

omit hm in
theorem padded_length (j : Nat) (hj : j < (m.knots i).length) : j < (m.paddedKnots i).length := by
  unfold VectorHullWhite.paddedKnots
  simp; omega

omit hm in
theorem jumpValues_getD (j : Nat) (hj : j < (m.knots i).length) : (m.jumpValuesVol i).getD j 0 = pieceVol m i j := by
  unfold VectorHullWhite.jumpValuesVol pieceVol
  rw [if_pos hj, List.getD_eq_getElem?_getD, List.getElem?_map, getD_some _ _ hj]
  rfl

omit hm in
theorem variance_succ (j : Nat) (hj : j < (m.knots i).length) : (m.varianceAtKnots i).getD (j + 1) 0 = (m.varianceAtKnots i).getD j 0 +
    varianceInt ((0 :: m.knots i).getD j 0) ((m.knots i).getD j 0) (pieceVol m i j) (m.meanReversion i) := by
  have hp := padded_length m i j hj
  have hv : j < (m.jumpValuesVol i).length := by simp [VectorHullWhite.jumpValuesVol]; omega
  unfold VectorHullWhite.varianceAtKnots
  rw [cumsum_cons_succ _ _ (by simp only [List.length_zipWith, List.length_zip]; omega)]
  congr 1
  rw [List.getD_eq_getElem?_getD, List.getElem?_zipWith, zip_getD _ _ j hp hj, getD_some _ _ hv]
  simp only [Option.getD_some]
  rw [jumpValues_getD m i j hj, padded_getD m i j hj]

omit hm in
theorem variance_length : (m.varianceAtKnots i).length = (m.knots i).length + 1 := by
  unfold VectorHullWhite.varianceAtKnots VectorHullWhite.jumpValuesVol VectorHullWhite.paddedKnots
  have := cumsum_length (List.zipWith (fun (p : ℝ × ℝ) (v : ℝ) => varianceInt p.1 p.2 v (m.meanReversion i))
    ((0 :: (m.knots i).dropLast).zip (m.knots i)) ((m.knots i).map (m.volatility i))) false
  unfold segmentCumsum at this
  simp only at this
  rw [List.length_cons, this]
  simp
  omega

omit hm in
theorem ex_succ (j : Nat) (hj : j < (m.knots i).length) : (m.exAtKnots i).getD (j + 1) 0 = (m.exAtKnots i).getD j 0 +
    exIntegral ((0 :: m.knots i).getD j 0) ((m.knots i).getD j 0) (pieceVol m i j) (m.meanReversion i) ((m.varianceAtKnots i).getD j 0) := by
  have hp := padded_length m i j hj
  have hv : j < (m.varianceAtKnots i).dropLast.length := by
    rw [List.length_dropLast, variance_length]; omega
  have hjv : j < (m.jumpValuesVol i).length := by simp [VectorHullWhite.jumpValuesVol]; omega
  unfold VectorHullWhite.exAtKnots
  rw [cumsum_cons_succ _ _ (by simp only [List.length_zipWith, List.length_zip]; omega)]
  congr 1
  rw [List.getD_eq_getElem?_getD, List.getElem?_zipWith, zip_getD _ _ j hp hj, zip_getD _ _ j hjv hv]
  simp only [Option.getD_some]
  have e2 : (m.varianceAtKnots i).dropLast.getD j 0 = (m.varianceAtKnots i).getD j 0 := by
    rw [List.getD_eq_getElem?_getD, List.getElem?_dropLast, if_pos (by rw [variance_length]; omega), ← List.getD_eq_getElem?_getD]
  rw [jumpValues_getD m i j hj, e2, padded_getD m i j hj]

/-- The factor alone, for lemmas on integrals of formulas. -/
def alone (m : VectorHullWhite) (i : Nat) : HullWhite := ⟨m.meanReversion i, m.volJumps i, m.volValues i, m.discountRate i⟩

theorem variance_piece (j : Nat) (hj : j ≤ (m.knots i).length) (t : ℝ) (h1 : (0 :: m.knots i).getD j 0 ≤ t)
    (h2 : j < (m.knots i).length → t ≤ (m.knots i).getD j 0) :
    IntervalIntegrable (fun s => m.volatility i s ^ 2 * Real.exp (2 * m.meanReversion i * s)) volume 0 t ∧
    varianceInt ((0 :: m.knots i).getD j 0) t (pieceVol m i j) (m.meanReversion i) + (m.varianceAtKnots i).getD j 0 =
      ∫ s in (0 : ℝ)..t, m.volatility i s ^ 2 * Real.exp (2 * m.meanReversion i * s) := by
  refine accumulate_le (m.knots i) (knots_sorted m i) (knots_nonneg_mem m i hm) (fun s => m.volatility i s ^ 2 * Real.exp (2 * m.meanReversion i * s))
    (fun j s => pieceVol m i j ^ 2 * Real.exp (2 * m.meanReversion i * s)) (fun j => by fun_prop) ?_
    (fun j t => varianceInt ((0 :: m.knots i).getD j 0) t (pieceVol m i j) (m.meanReversion i))
    (fun j _ t => varianceInt_eq (alone m i) hm.mr _ t _) (fun j => (m.varianceAtKnots i).getD j 0) rfl
    (fun j hj => variance_succ m i j hj) j hj t h1 h2
  intro j hj s h1 h2
  rw [vol_piece m i hm j hj s _ h2]
  intro h0
  obtain ⟨j, rfl⟩ : ∃ l, j = l + 1 := ⟨j - 1, by omega⟩
  simpa using h1

/-- On a piece, beginning included if time zero or the previous knot, the variance is given by the value of the volatility there. -/
theorem varianceAt_formula (t : ℝ) (ht : 0 ≤ t) :
    m.varianceAt i t = ∫ s in (0 : ℝ)..t, m.volatility i s ^ 2 * Real.exp (2 * m.meanReversion i * s) := by
  obtain ⟨h1, h2, h3⟩ := searchLeft_piece_le (m.knots i) (knots_sorted m i) t ht
  have hp := (variance_piece m i hm _ h1 t h2 h3).2
  rw [← hp]
  unfold VectorHullWhite.varianceAt
  dsimp only
  congr 1
  have hv : m.volatility i t = pieceVol m i (searchLeft (m.knots i) t) := by
    apply vol_piece m i hm _ h1 t _ h3
    intro h0
    obtain ⟨e1, e2⟩ := searchLeft_spec (m.knots i) (knots_sorted m i) t
    exact (e2 _ _ (getD_some (m.knots i) (searchLeft (m.knots i) t - 1) (by omega))).1 (by omega)
  rw [hv]

theorem ex_piece (j : Nat) (hj : j ≤ (m.knots i).length) (t : ℝ) (h1 : (0 :: m.knots i).getD j 0 ≤ t)
    (h2 : j < (m.knots i).length → t ≤ (m.knots i).getD j 0) :
    IntervalIntegrable (fun s => Real.exp (-m.meanReversion i * s) * m.varianceAt i s) volume 0 t ∧
    exIntegral ((0 :: m.knots i).getD j 0) t (pieceVol m i j) (m.meanReversion i) ((m.varianceAtKnots i).getD j 0) + (m.exAtKnots i).getD j 0 =
      ∫ s in (0 : ℝ)..t, Real.exp (-m.meanReversion i * s) * m.varianceAt i s := by
  refine accumulate_le (m.knots i) (knots_sorted m i) (knots_nonneg_mem m i hm) (fun s => Real.exp (-m.meanReversion i * s) * m.varianceAt i s)
    (fun j s => Real.exp (-m.meanReversion i * s) * (varianceInt ((0 :: m.knots i).getD j 0) s (pieceVol m i j) (m.meanReversion i) +
      (m.varianceAtKnots i).getD j 0)) (fun j => by unfold varianceInt; fun_prop) ?_
    (fun j t => exIntegral ((0 :: m.knots i).getD j 0) t (pieceVol m i j) (m.meanReversion i) ((m.varianceAtKnots i).getD j 0))
    (fun j _ t => exIntegral_eq (alone m i) hm.mr _ t _ _) (fun j => (m.exAtKnots i).getD j 0) rfl
    (fun j hj => ex_succ m i j hj) j hj t h1 h2
  intro j hj s h1 h2
  have hk0 : 0 ≤ (0 :: m.knots i).getD j 0 := by
    cases j with
    | zero => simp
    | succ j => rw [List.getD_cons_succ]; exact knots_nonneg_mem m i hm _ (List.mem_of_getElem? (getD_some _ j (by omega)))
  rw [varianceAt_formula m i hm s (le_trans hk0 h1.le), (variance_piece m i hm j hj s h1.le h2).2]

theorem exAt_formula (t : ℝ) (ht : 0 ≤ t) : m.exAt i t = ∫ s in (0 : ℝ)..t, Real.exp (-m.meanReversion i * s) * m.varianceAt i s := by
  obtain ⟨h1, h2, h3⟩ := searchLeft_piece_le (m.knots i) (knots_sorted m i) t ht
  rw [← (ex_piece m i hm _ h1 t h2 h3).2]
  unfold VectorHullWhite.exAt
  dsimp only
  congr 1
  have hv : m.volatility i t = pieceVol m i (searchLeft (m.knots i) t) := by
    apply vol_piece m i hm _ h1 t _ h3
    intro h0
    obtain ⟨e1, e2⟩ := searchLeft_spec (m.knots i) (knots_sorted m i) t
    exact (e2 _ _ (getD_some (m.knots i) (searchLeft (m.knots i) t - 1) (by omega))).1 (by omega)
  rw [hv]

theorem alone_ok : HullWhiteOk (alone m i) := ⟨hm.mr, hm.sorted, hm.nonneg⟩

/-- The additional knots do not change the accumulated variance. -/
theorem varianceAt_alone (t : ℝ) (ht : 0 ≤ t) : m.varianceAt i t = (alone m i).varianceAt t := by
  rw [varianceAt_formula m i hm t ht, varianceAt_eq (alone m i) (alone_ok m i hm) t ht]
  rfl

theorem exAt_alone (t : ℝ) (ht : 0 ≤ t) : m.exAt i t = (alone m i).exAt t := by
  rw [exAt_formula m i hm t ht, exAt_eq (alone m i) (alone_ok m i hm) t ht]
  apply intervalIntegral.integral_congr
  intro s hs
  rw [Set.uIcc_of_le ht] at hs
  dsimp only
  rw [varianceAt_alone m i hm s hs.1]
  rfl

theorem conditionalMean_alone (t t' : ℝ) (ht : 0 ≤ t) (ht' : t ≤ t') : m.conditionalMean i t t' = (alone m i).conditionalMean t t' := by
  unfold VectorHullWhite.conditionalMean HullWhite.conditionalMean
  rw [exAt_alone m i hm t ht, exAt_alone m i hm t' (ht.trans ht')]
  rfl

theorem conditionalVariance_alone (t t' : ℝ) (ht : 0 ≤ t) (ht' : t ≤ t') :
    m.conditionalVariance i t t' = (alone m i).conditionalVariance t t' := by
  unfold VectorHullWhite.conditionalVariance HullWhite.conditionalVariance
  rw [varianceAt_alone m i hm t ht, varianceAt_alone m i hm t' (ht.trans ht')]
  rfl

theorem nextState_alone (t t' x z : ℝ) (ht : 0 ≤ t) (ht' : t ≤ t') : m.nextState i t t' x z = (alone m i).nextState t t' x z := by
  unfold VectorHullWhite.nextState HullWhite.nextState
  rw [conditionalMean_alone m i hm t t' ht ht', conditionalVariance_alone m i hm t t' ht ht']
  rfl

end

end VectorHw
