import Verif.Lemmas.Piecewise
import Mathlib.MeasureTheory.Integral.DivergenceTheorem
import Mathlib.MeasureTheory.Integral.IntervalIntegral.Basic

/-! # C22: evaluation of piecewise constant functions; C23: their integrals -/

namespace Props
open Model Lemmas

section
variable {K : Type} [LinearOrder K] [Zero K]

/-- C22.  Left-continuous evaluation: the argument is in piece `i`, that is `t_{i-1} < x ≤ t_i` (no condition on
the missing side for the first and the last piece): the value is `v_i`. -/
theorem C22_left_continuous (jumps values : List K) (hs : jumps.Pairwise (· ≤ ·))
    (hl : values.length = jumps.length + 1) (x : K) (i : Nat) (hi : i ≤ jumps.length)
    (h1 : ∀ a, 1 ≤ i → jumps[i - 1]? = some a → a < x) (h2 : ∀ a, jumps[i]? = some a → x ≤ a) :
    some (piecewiseConstant jumps values true x) = values[i]? := by
  unfold piecewiseConstant
  simp only [if_true]
  rw [searchLeft_eq jumps hs x i hi h1 h2, List.getD_eq_getElem?_getD, List.getElem?_eq_getElem (by omega)]; rfl

/-- C22.  Right-continuous evaluation: the argument is in piece `i`, that is `t_{i-1} ≤ x < t_i`: the value is `v_i`. -/
theorem C22_right_continuous (jumps values : List K) (hs : jumps.Pairwise (· ≤ ·))
    (hl : values.length = jumps.length + 1) (x : K) (i : Nat) (hi : i ≤ jumps.length)
    (h1 : ∀ a, 1 ≤ i → jumps[i - 1]? = some a → a ≤ x) (h2 : ∀ a, jumps[i]? = some a → x < a) :
    some (piecewiseConstant jumps values false x) = values[i]? := by
  unfold piecewiseConstant
  simp only [Bool.false_eq_true, if_false]
  rw [searchRight_eq jumps hs x i hi h1 h2, List.getD_eq_getElem?_getD, List.getElem?_eq_getElem (by omega)]; rfl

/-- C22.  Every argument lies in exactly one piece (left-continuous pieces). -/
theorem C22_unique_piece (jumps : List K) (hs : jumps.Pairwise (· < ·)) (x : K) :
    ∃! i, i ≤ jumps.length ∧ (∀ a, 1 ≤ i → jumps[i - 1]? = some a → a < x) ∧
      (∀ a, jumps[i]? = some a → x ≤ a) := by
  have hs' : jumps.Pairwise (· ≤ ·) := hs.imp le_of_lt
  obtain ⟨hle, hsp⟩ := searchLeft_spec jumps hs' x
  refine ⟨searchLeft jumps x, ⟨hle, ?_, ?_⟩, ?_⟩
  · intro a h1 ha
    exact (hsp _ _ ha).1 (by omega)
  · intro a ha
    by_contra hc
    have := (hsp _ _ ha).2 (not_le.1 hc)
    omega
  · rintro j ⟨h0, h1, h2⟩
    exact (searchLeft_eq jumps hs' x j h0 h1 h2).symm

/-- C22.  The two conventions differ only at the jumps. -/
theorem C22_conventions_agree (jumps values : List K) (hs : jumps.Pairwise (· ≤ ·)) (x : K) (hx : x ∉ jumps) :
    piecewiseConstant jumps values true x = piecewiseConstant jumps values false x := by
  obtain ⟨hle, hsp⟩ := searchLeft_spec jumps hs x
  unfold piecewiseConstant
  simp only [if_true, Bool.false_eq_true, if_false]
  rw [searchRight_eq jumps hs x (searchLeft jumps x) hle]
  · intro a h1 ha
    exact ((hsp _ _ ha).1 (by omega)).le
  · intro a ha
    rcases lt_trichotomy x a with h | h | h
    · exact h
    · exact absurd (List.mem_of_getElem? ha) (by rw [← h]; exact hx)
    · have := (hsp _ _ ha).2 h
      omega

omit [Zero K] in
/-- C22.  `find_interval_index`, half-open intervals: the index `k` of the interval `[x_k, x_{k+1})`, `-1` before
the first one. -/
theorem C22_find_interval_index (lowers : List K) (hs : lowers.Pairwise (· ≤ ·)) (q : K) (k : Int)
    (hk0 : -1 ≤ k) (hk1 : k < lowers.length)
    (h1 : ∀ a, 0 ≤ k → lowers[k.toNat]? = some a → a ≤ q)
    (h2 : ∀ a, lowers[(k + 1).toNat]? = some a → q < a) :
    findIntervalIndex q lowers false = k := by
  unfold findIntervalIndex
  simp only [Bool.false_eq_true, if_false]
  rw [searchRight_eq lowers hs q (k + 1).toNat (by omega) _ h2]
  · omega
  · intro a h ha
    refine h1 a (by omega) ?_
    rw [← ha]; congr 1; omega

omit [Zero K] in
/-- C22.  `find_interval_index`, last interval closed: the right end of the last interval belongs to it, nothing
else changes. -/
theorem C22_find_interval_index_closed (lowers : List K) (hs : lowers.Pairwise (· < ·)) (q xn : K)
    (hlast : lowers.getLast? = some xn) :
    findIntervalIndex q lowers true =
      if q = xn then (lowers.length : Int) - 2 else findIntervalIndex q lowers false := by
  have hs' : lowers.Pairwise (· ≤ ·) := hs.imp le_of_lt
  have hne : lowers ≠ [] := by rintro rfl; simp at hlast
  have hpos := List.length_pos_iff.2 hne
  obtain ⟨hle, hsp⟩ := searchRight_spec lowers hs' q
  have hl2 := hlast
  rw [List.getLast?_eq_getElem?] at hl2
  have hn := hsp _ _ hl2
  unfold findIntervalIndex
  simp only [hlast, if_true, Bool.false_eq_true, if_false]
  by_cases hq : q = xn
  · subst hq
    have : searchRight lowers q = lowers.length := by
      have := hn.2 (le_refl _); omega
    rw [this, if_pos rfl]
    simp only [decide_true, le_refl, Bool.and_self, if_true]
    omega
  · rw [if_neg hq]
    have : ¬ (((searchRight lowers q : Int) - 1 = (lowers.length : Int) - 1) ∧ q ≤ xn) := by
      rintro ⟨h1, h2⟩
      exact hq (le_antisymm h2 (hn.1 (by omega)))
    have hb : (decide ((searchRight lowers q : Int) - 1 = (lowers.length : Int) - 1) && decide (q ≤ xn)) = false := by
      rw [Bool.eq_false_iff]
      intro h
      rw [Bool.and_eq_true, decide_eq_true_eq, decide_eq_true_eq] at h
      exact this h
    rw [hb]
    simp only [Bool.false_eq_true, if_false]
    omega

end

section
variable {K : Type} [Field K] [LinearOrder K] [IsStrictOrderedRing K]

/-- C23.  Additivity in adjacent intervals, in any order of the end points. -/
theorem C23_additive (jumps values : List K) (hs : jumps.Pairwise (· ≤ ·)) (hne : jumps ≠ [])
    (hl : values.length = jumps.length + 1) (x1 x2 x3 : K) :
    piecewiseIntegrate jumps values x1 x2 + piecewiseIntegrate jumps values x2 x3 =
      piecewiseIntegrate jumps values x1 x3 := by
  rw [piecewiseIntegrate_eq _ _ hs hne hl, piecewiseIntegrate_eq _ _ hs hne hl,
    piecewiseIntegrate_eq _ _ hs hne hl]
  ring

/-- C23.  Empty intervals. -/
theorem C23_empty (jumps values : List K) (hs : jumps.Pairwise (· ≤ ·)) (hne : jumps ≠ [])
    (hl : values.length = jumps.length + 1) (x : K) : piecewiseIntegrate jumps values x x = 0 := by
  rw [piecewiseIntegrate_eq _ _ hs hne hl, sub_self]

/-- C23.  An interval inside one piece: length times value. -/
theorem C23_one_piece (jumps values : List K) (hs : jumps.Pairwise (· ≤ ·)) (hne : jumps ≠ [])
    (hl : values.length = jumps.length + 1) (x1 x2 : K) (i : Nat) (hi : i ≤ jumps.length)
    (h1 : ∀ a, 1 ≤ i → jumps[i - 1]? = some a → a ≤ x1 ∧ a ≤ x2)
    (h2 : ∀ a, jumps[i]? = some a → x1 ≤ a ∧ x2 ≤ a) :
    piecewiseIntegrate jumps values x1 x2 = (x2 - x1) * values.getD i 0 := by
  rw [piecewiseIntegrate_eq _ _ hs hne hl]
  apply primitive_cell jumps values i hi
  · intro j hj
    have h := h1 _ (by omega) (getD_some jumps (i - 1) (by omega))
    have := getD_mono jumps hs j (i - 1) (by omega) (by omega)
    exact ⟨le_trans this h.1, le_trans this h.2⟩
  · intro j hj hj'
    have h := h2 _ (getD_some jumps i (by omega))
    have := getD_mono jumps hs i j hj hj'
    exact ⟨le_trans h.1 this, le_trans h.2 this⟩

end

/-- Integral of a unit step. -/
theorem step_integral (t a b : ℝ) :
    ∫ x in a..b, (if t < x then (1 : ℝ) else 0) = max (b - t) 0 - max (a - t) 0 := by
  have hmono : Monotone (fun x : ℝ => if t < x then (1 : ℝ) else 0) := by
    intro x y hxy
    simp only
    split
    · rw [if_pos (lt_of_lt_of_le (by assumption) hxy)]
    · split <;> simp
  apply MeasureTheory.integral_eq_of_hasDerivAt_off_countable (fun x => max (x - t) 0) _
    (s := {t}) (Set.countable_singleton t)
  · fun_prop
  · intro x hx
    have hxt : x ≠ t := hx.2
    rcases lt_or_gt_of_ne hxt with h | h
    · rw [if_neg (not_lt.2 h.le)]
      apply (hasDerivAt_const x (0 : ℝ)).congr_of_eventuallyEq
      filter_upwards [eventually_lt_nhds h] with y hy
      exact max_eq_right (by linarith)
    · rw [if_pos h]
      have hd : HasDerivAt (fun y : ℝ => y - t) 1 x := (hasDerivAt_id x).sub_const t
      refine hd.congr_of_eventuallyEq ?_
      filter_upwards [eventually_gt_nhds h] with y hy
      exact max_eq_left (by linarith)
  · exact hmono.intervalIntegrable

/-- The function as a sum of steps. -/
theorem piecewiseConstant_steps (jumps values : List ℝ) (hs : jumps.Pairwise (· ≤ ·)) (x : ℝ) :
    piecewiseConstant jumps values true x = values.getD 0 0 + (Finset.range jumps.length).sum
      (fun j => (values.getD (j + 1) 0 - values.getD j 0) * (if jumps.getD j 0 < x then 1 else 0)) := by
  obtain ⟨hle, hsp⟩ := searchLeft_spec jumps hs x
  have h1 : (Finset.range jumps.length).sum
      (fun j => (values.getD (j + 1) 0 - values.getD j 0) * (if jumps.getD j 0 < x then (1 : ℝ) else 0)) =
      (Finset.range (searchLeft jumps x)).sum (fun j => values.getD (j + 1) 0 - values.getD j 0) := by
    rw [← Finset.sum_range_add_sum_Ico _ hle]
    rw [Finset.sum_eq_zero (s := Finset.Ico _ _), add_zero]
    · apply Finset.sum_congr rfl
      intro j hj
      rw [Finset.mem_range] at hj
      rw [if_pos ((hsp j _ (getD_some jumps j (by omega))).1 hj), mul_one]
    · intro j hj
      rw [Finset.mem_Ico] at hj
      rw [if_neg, mul_zero]
      intro hc
      have := (hsp j _ (getD_some jumps j (by omega))).2 hc
      omega
  rw [h1, telescope (fun j => values.getD j 0)]
  unfold piecewiseConstant
  simp

/-- C23.  `integrate(x1, x2)` is the integral of the function from `x1` to `x2` (for `x1 > x2` with the usual
sign), whichever continuity convention is used. -/
theorem C23_integral (jumps values : List ℝ) (hs : jumps.Pairwise (· ≤ ·)) (hne : jumps ≠ [])
    (hl : values.length = jumps.length + 1) (x1 x2 : ℝ) (leftContinuous : Bool) :
    piecewiseIntegrate jumps values x1 x2 =
      ∫ x in x1..x2, piecewiseConstant jumps values leftContinuous x := by
  have hleft : piecewiseIntegrate jumps values x1 x2 =
      ∫ x in x1..x2, piecewiseConstant jumps values true x := by
    have hmono : ∀ t : ℝ, Monotone (fun x : ℝ => if t < x then (1 : ℝ) else 0) := by
      intro t x y hxy
      simp only
      split
      · rw [if_pos (lt_of_lt_of_le (by assumption) hxy)]
      · split <;> simp
    simp_rw [piecewiseConstant_steps jumps values hs]
    rw [intervalIntegral.integral_add, intervalIntegral.integral_finset_sum]
    · simp_rw [intervalIntegral.integral_const_mul, step_integral]
      rw [intervalIntegral.integral_const, piecewiseIntegrate_eq _ _ hs hne hl]
      unfold primitive
      simp_rw [mul_sub]
      rw [Finset.sum_sub_distrib, smul_eq_mul]
      ring
    · intro j _
      exact (hmono _).intervalIntegrable.const_mul _
    · exact intervalIntegrable_const
    · have := IntervalIntegrable.sum (μ := MeasureTheory.volume) (a := x1) (b := x2) (Finset.range jumps.length)
        (f := fun j x => (values.getD (j + 1) 0 - values.getD j 0) * (if jumps.getD j 0 < x then (1 : ℝ) else 0))
        (fun j _ => (hmono _).intervalIntegrable.const_mul _)
      have e : (∑ j ∈ Finset.range jumps.length, fun x : ℝ => (values.getD (j + 1) 0 - values.getD j 0) *
          (if jumps.getD j 0 < x then (1 : ℝ) else 0)) = (fun x => ∑ j ∈ Finset.range jumps.length,
          (values.getD (j + 1) 0 - values.getD j 0) * (if jumps.getD j 0 < x then (1 : ℝ) else 0)) := by
        ext x
        rw [Finset.sum_apply]
      rw [← e]
      exact this
  cases leftContinuous with
  | true => exact hleft
  | false =>
    rw [hleft]
    apply intervalIntegral.integral_congr_ae
    have hfin : (MeasureTheory.volume : MeasureTheory.Measure ℝ) {x | x ∈ jumps} = 0 :=
      (List.finite_toSet jumps).measure_zero _
    rw [MeasureTheory.ae_iff]
    refine MeasureTheory.measure_mono_null ?_ hfin
    intro x hx
    simp only [Set.mem_setOf_eq] at hx ⊢
    by_contra hc
    exact hx (fun _ => C22_conventions_agree jumps values hs x hc)

/- Concrete instances: jumps 1, 2, 4; values 10, 20, 30, 5. -/
example : piecewiseConstant [1, 2, 4] [10, 20, 30, 5] true (2 : ℚ) = 20 ∧
    piecewiseConstant [1, 2, 4] [10, 20, 30, 5] false (2 : ℚ) = 30 ∧
    piecewiseConstant [1, 2, 4] [10, 20, 30, 5] true (7 : ℚ) = 5 := by decide +kernel
example : piecewiseIntegrate [1, 2, 4] [10, 20, 30, 5] (0 : ℚ) 6 = 10 + 20 + 60 + 10 ∧
    piecewiseIntegrate [1, 2, 4] [10, 20, 30, 5] (3 / 2 : ℚ) 3 = 40 ∧
    piecewiseIntegrate [1, 2, 4] [10, 20, 30, 5] (3 : ℚ) (3 / 2) = -40 := by decide +kernel
example : findIntervalIndex (3 : ℚ) [1/4, 1/2, 1, 2, 3] false = 4 ∧
    findIntervalIndex (3 : ℚ) [1/4, 1/2, 1, 2, 3] true = 3 ∧
    findIntervalIndex (0 : ℚ) [1/4, 1/2, 1, 2, 3] true = -1 ∧
    findIntervalIndex (5 : ℚ) [1/4, 1/2, 1, 2, 3] true = 4 := by decide +kernel

end Props
