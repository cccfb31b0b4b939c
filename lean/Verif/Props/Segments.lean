import Verif.Lemmas.Segments
import Mathlib.Algebra.BigOperators.Intervals
import Mathlib.Tactic.FieldSimp
import Mathlib.Tactic.Ring
import Mathlib.Tactic.NormNum
import Mathlib.Data.Rat.Defs
import Mathlib.Algebra.Order.Ring.Rat
import Mathlib.Algebra.Order.Field.Basic
import Mathlib.Algebra.Field.Rat

/-! # C18: segmented differences and cumulative sums; C19: yields and forward rates -/

namespace Props

open Model Spec Lemmas

section
variable {G : Type} [AddCommGroup G]

open Classical in
/-- C18.  `segment_diff` (not exclusive): a position whose predecessor (at distance `order`) lies in the same segment gets
the difference with it, every other position keeps its value; the length is that of the input. -/
theorem C18_segment_diff (x : List G) (ids : List Int) (order : Nat) (hl : ids.length = x.length) :
    (segmentDiff x (some ids) order false).length = x.length ∧
    ∀ i, i < x.length → (segmentDiff x (some ids) order false)[i]? =
      some (if order ≤ i ∧ SameSegment ids (i - order) i then x.getD i 0 - x.getD (i - order) 0
        else x.getD i 0) :=
  ⟨segmentDiff_length x ids order, fun i hi => segmentDiff_getElem? x ids order i hl hi⟩

open Classical in
/-- C18.  `segment_diff`, exclusive: the list of the differences over all positions whose predecessor lies in
the same segment. -/
theorem C18_segment_diff_exclusive (x : List G) (ids : List Int) (order : Nat)
    (hl : ids.length = x.length) :
    segmentDiff x (some ids) order true =
      ((List.range x.length).filter (fun i => decide (order ≤ i ∧ SameSegment ids (i - order) i))).map
        (fun i => x.getD i 0 - x.getD (i - order) 0) :=
  segmentDiff_ex x ids order hl

/-- C18.  Without segment ids: plain differences. -/
theorem C18_diff (x : List G) (order : Nat) :
    (segmentDiff x none order false).length = x.length ∧
    (segmentDiff x none order true).length = x.length - order ∧
    (∀ i, i < x.length → (segmentDiff x none order false)[i]? =
      some (if order ≤ i then x.getD i 0 - x.getD (i - order) 0 else x.getD i 0)) ∧
    (∀ i, i + order < x.length → (segmentDiff x none order true)[i]? =
      some (x.getD (i + order) 0 - x.getD i 0)) :=
  ⟨diff_length x order, diff_ex_length x order, fun i hi => diff_getElem? x order i hi,
    fun i hi => diff_ex_getElem? x order i hi⟩

open Classical in
/-- C18.  `segment_cumsum`: the sum of the values of the same segment up to (exclusive: strictly before) the
position. -/
theorem C18_segment_cumsum (x : List G) (ids : List Int) (exclusive : Bool) (hl : ids.length = x.length) :
    (segmentCumsum x (some ids) exclusive).length = x.length ∧
    ∀ i, i < x.length → (segmentCumsum x (some ids) exclusive)[i]? = some
      (((Finset.range (if exclusive then i else i + 1)).filter (fun j => SameSegment ids j i)).sum
        (fun j => x.getD j 0)) :=
  ⟨segmentCumsum_length x ids exclusive hl, fun i hi => segmentCumsum_getElem? ids x exclusive hl i hi⟩

/-- C18.  Without segment ids: the plain cumulative sum. -/
theorem C18_cumsum (x : List G) (exclusive : Bool) :
    (segmentCumsum x none exclusive).length = x.length ∧
    ∀ i, i < x.length → (segmentCumsum x none exclusive)[i]? = some
      ((Finset.range (if exclusive then i else i + 1)).sum (fun j => x.getD j 0)) :=
  ⟨cumsum_length x exclusive, fun i hi => cumsum_getElem? x exclusive i hi⟩

/-- C18.  First differences of the cumulative sum give back the input. -/
theorem C18_diff_of_cumsum (x : List G) (ids : Option (List Int))
    (hl : ∀ l, ids = some l → l.length = x.length) :
    segmentDiff (segmentCumsum x ids false) ids 1 false = x :=
  diff_cumsum x ids hl

/-- C18.  The cumulative sum of first differences gives back the input. -/
theorem C18_cumsum_of_diff (x : List G) (ids : Option (List Int))
    (hl : ∀ l, ids = some l → l.length = x.length) :
    segmentCumsum (segmentDiff x ids 1 false) ids false = x :=
  cumsum_diff x ids hl

/- Concrete instances: segments `[3,3,3], [7,7], [1]`, orders 1 and 2. -/
example : segmentDiff [2, 5, 1, 7, 9, 4] (some [3, 3, 3, 7, 7, 1]) 1 false = [2, 3, -4, 7, 2, (4 : ℤ)] := by
  decide +kernel
example : segmentDiff [2, 5, 1, 7, 9, 4] (some [3, 3, 3, 7, 7, 1]) 2 true = [(-1 : ℤ)] := by decide +kernel
example : segmentCumsum [2, 5, 1, 7, 9, 4] (some [3, 3, 3, 7, 7, 1]) false = [2, 7, 8, 7, 16, (4 : ℤ)] := by
  decide +kernel
example : segmentCumsum [2, 5, 1, 7, 9, 4] (some [3, 3, 3, 7, 7, 1]) true = [0, 2, 7, 0, 7, (0 : ℤ)] := by
  decide +kernel
example : segmentCumsum (segmentDiff [2, 5, 1, 7, 9, 4] none 1 false) none false = [2, 5, 1, 7, 9, (4 : ℤ)] :=
  C18_cumsum_of_diff _ _ (by simp)
example : SameSegment [3, 3, 3, 7, 7, 1] 0 2 ∧ ¬ SameSegment [3, 3, 3, 7, 7, 1] 2 3 :=
  ⟨by intro k h1 h2; rcases k with _ | _ | _ | k <;> simp; omega, fun h => by simpa using h 2 (by omega) (by omega)⟩

end

section
variable {K : Type} [Field K]

/-- The times of every group are nonzero and consecutive times of a group differ (in particular: positive
and strictly increasing in every group). -/
def GoodTimes (times : List K) (groups : Option (List Int)) : Prop :=
  (∀ i, i < times.length → times.getD i 0 ≠ 0) ∧
  ∀ i, i + 1 < times.length → SameGroup groups i (i + 1) → times.getD i 0 ≠ times.getD (i + 1) 0

theorem goodTimes_of_increasing {K : Type} [Field K] [LinearOrder K] [IsStrictOrderedRing K]
    (times : List K) (groups : Option (List Int))
    (h0 : ∀ i, i < times.length → 0 < times.getD i 0)
    (h1 : ∀ i, i + 1 < times.length → SameGroup groups i (i + 1) → times.getD i 0 < times.getD (i + 1) 0) :
    GoodTimes times groups :=
  ⟨fun i hi => (h0 i hi).ne', fun i hi hs => (h1 i hi hs).ne⟩

open Classical in
/-- Length of the accrual interval ending at position `i` of its group: the first interval of a group starts
at time 0. -/
noncomputable def interval (times : List K) (groups : Option (List Int)) (i : Nat) : K :=
  times.getD i 0 - (if 1 ≤ i ∧ SameGroup groups (i - 1) i then times.getD (i - 1) 0 else 0)

theorem diff_times (times : List K) (groups : Option (List Int))
    (hl : ∀ l, groups = some l → l.length = times.length) (i : Nat) (hi : i < times.length) :
    (segmentDiff times groups 1 false).getD i 0 = interval times groups i := by
  classical
  rw [groupDiff_getD times groups 1 i hl hi]
  unfold interval
  split <;> simp_all

theorem interval_ne (times : List K) (groups : Option (List Int)) (h : GoodTimes times groups) (i : Nat)
    (hi : i < times.length) : interval times groups i ≠ 0 := by
  classical
  unfold interval
  split
  · rename_i hc
    have := h.2 (i - 1) (by omega) (by rw [Nat.sub_add_cancel hc.1]; exact hc.2)
    rw [Nat.sub_add_cancel hc.1] at this
    exact sub_ne_zero.2 this.symm
  · rw [sub_zero]; exact h.1 i hi

theorem zipWith_getD (f : K → K → K) (a b : List K) (i : Nat) (ha : i < a.length) (hb : i < b.length) :
    (List.zipWith f a b).getD i 0 = f (a.getD i 0) (b.getD i 0) := by
  rw [List.getD_eq_getElem?_getD, List.getElem?_zipWith, getElem?_getD a i ha, getElem?_getD b i hb]; rfl

theorem forwards_length (yields times : List K) (groups : Option (List Int)) (hy : yields.length = times.length) :
    (forwardRatesFromYields yields times groups).length = times.length := by
  unfold forwardRatesFromYields
  simp [groupDiff_length, hy]

theorem yields_length (forwards times : List K) (groups : Option (List Int))
    (hl : ∀ l, groups = some l → l.length = times.length) (hf : forwards.length = times.length) :
    (yieldsFromForwardRates forwards times groups).length = times.length := by
  unfold yieldsFromForwardRates
  have e : (List.zipWith (· * ·) (segmentDiff times groups 1 false) forwards).length = times.length := by
    simp [groupDiff_length, hf]
  rw [List.length_zipWith, groupCumsum_length _ _ _ (by rw [e]; exact hl), e, Nat.min_self]

open Classical in
/-- C19.  The forward rate of an interval times its length is the increment of `yield * time` within the
group. -/
theorem C19_forward_rates (yields times : List K) (groups : Option (List Int))
    (hl : ∀ l, groups = some l → l.length = times.length) (hy : yields.length = times.length)
    (ht : GoodTimes times groups) (i : Nat) (hi : i < times.length) :
    (forwardRatesFromYields yields times groups).getD i 0 * interval times groups i =
      yields.getD i 0 * times.getD i 0 -
        (if 1 ≤ i ∧ SameGroup groups (i - 1) i then yields.getD (i - 1) 0 * times.getD (i - 1) 0 else 0) := by
  unfold forwardRatesFromYields
  have e : (List.zipWith (· * ·) yields times).length = times.length := by simp [hy]
  rw [zipWith_getD _ _ _ i (by rw [groupDiff_length, e]; exact hi) (by rw [groupDiff_length]; exact hi),
    diff_times times groups hl i hi, div_mul_cancel₀ _ (interval_ne times groups ht i hi),
    groupDiff_getD _ groups 1 i (by rw [e]; exact hl) (by omega)]
  rw [zipWith_getD _ _ _ i (by omega) hi, zipWith_getD _ _ _ (i - 1) (by omega) (by omega)]
  split <;> simp

open Classical in
/-- C19.  `yield * time` is the sum of `forward * interval` over the intervals of the group up to that
time. -/
theorem C19_yields (forwards times : List K) (groups : Option (List Int))
    (hl : ∀ l, groups = some l → l.length = times.length) (hf : forwards.length = times.length)
    (i : Nat) (hi : i < times.length) (ht : times.getD i 0 ≠ 0) :
    (yieldsFromForwardRates forwards times groups).getD i 0 * times.getD i 0 =
      ((Finset.range (i + 1)).filter (fun j => SameGroup groups j i)).sum
        (fun j => forwards.getD j 0 * interval times groups j) := by
  unfold yieldsFromForwardRates
  have e : (List.zipWith (· * ·) (segmentDiff times groups 1 false) forwards).length = times.length := by
    simp [groupDiff_length, hf]
  have hl' : ∀ l, groups = some l → l.length =
    (List.zipWith (· * ·) (segmentDiff times groups 1 false) forwards).length := by rw [e]; exact hl
  rw [zipWith_getD _ _ _ i (by rw [groupCumsum_length _ _ _ hl', e]; exact hi) hi, div_mul_cancel₀ _ ht,
    List.getD_eq_getElem?_getD, groupCumsum_getElem? _ groups false hl' i (by omega)]
  simp only [Bool.false_eq_true, if_false, Option.getD_some]
  apply Finset.sum_congr rfl
  intro j hj
  have hj := Finset.mem_range.1 (Finset.mem_filter.1 hj).1
  rw [zipWith_getD _ _ _ j (by rw [groupDiff_length]; omega) (by omega), diff_times times groups hl j (by omega),
    mul_comm]

/-- C19.  From yields to forward rates and back. -/
theorem C19_yields_roundtrip (yields times : List K) (groups : Option (List Int))
    (hl : ∀ l, groups = some l → l.length = times.length) (hy : yields.length = times.length)
    (ht : GoodTimes times groups) :
    yieldsFromForwardRates (forwardRatesFromYields yields times groups) times groups = yields := by
  have hfl := forwards_length yields times groups hy
  have e : List.zipWith (· * ·) (segmentDiff times groups 1 false)
      (forwardRatesFromYields yields times groups) =
      segmentDiff (List.zipWith (· * ·) yields times) groups 1 false := by
    apply list_ext_getD
    · simp [groupDiff_length, hfl, hy]
    · intro i hi
      have hi : i < times.length := by
        rw [List.length_zipWith, groupDiff_length, hfl] at hi; omega
      rw [zipWith_getD _ _ _ i (by rw [groupDiff_length]; exact hi) (by omega),
        diff_times times groups hl i hi]
      unfold forwardRatesFromYields
      rw [zipWith_getD _ _ _ i (by rw [groupDiff_length]; simp; omega) (by rw [groupDiff_length]; exact hi),
        diff_times times groups hl i hi, mul_div_cancel₀ _ (interval_ne times groups ht i hi)]
  unfold yieldsFromForwardRates
  simp only
  rw [e, cumsum_diff _ _ (by simpa [hy] using hl)]
  apply list_ext_getD
  · simp [hy]
  · intro i hi
    have hi : i < times.length := by simp at hi; omega
    rw [zipWith_getD _ _ _ i (by simp; omega) hi, zipWith_getD _ _ _ i (by omega) hi,
      mul_div_cancel_right₀ _ (ht.1 i hi)]

/-- C19.  From forward rates to yields and back. -/
theorem C19_forwards_roundtrip (forwards times : List K) (groups : Option (List Int))
    (hl : ∀ l, groups = some l → l.length = times.length) (hf : forwards.length = times.length)
    (ht : GoodTimes times groups) :
    forwardRatesFromYields (yieldsFromForwardRates forwards times groups) times groups = forwards := by
  have e0 : (List.zipWith (· * ·) (segmentDiff times groups 1 false) forwards).length = times.length := by
    simp [groupDiff_length, hf]
  have hyl := yields_length forwards times groups hl hf
  have e : List.zipWith (· * ·) (yieldsFromForwardRates forwards times groups) times =
      segmentCumsum (List.zipWith (· * ·) (segmentDiff times groups 1 false) forwards) groups false := by
    apply list_ext_getD
    · rw [List.length_zipWith, hyl, groupCumsum_length _ _ _ (by rw [e0]; exact hl), e0, Nat.min_self]
    · intro i hi
      have hi : i < times.length := by rw [List.length_zipWith] at hi; omega
      rw [zipWith_getD _ _ _ i (by omega) hi]
      unfold yieldsFromForwardRates
      rw [zipWith_getD _ _ _ i (by rw [groupCumsum_length _ _ _ (by rw [e0]; exact hl), e0]; exact hi) hi,
        div_mul_cancel₀ _ (ht.1 i hi)]
  have hd := diff_cumsum (List.zipWith (· * ·) (segmentDiff times groups 1 false) forwards) groups
    (by rw [e0]; exact hl)
  unfold forwardRatesFromYields
  simp only
  rw [e, hd]
  apply list_ext_getD
  · simp [groupDiff_length, hf]
  · intro i hi
    have hi : i < times.length := by simp [groupDiff_length] at hi; omega
    rw [zipWith_getD _ _ _ i (by omega) (by rw [groupDiff_length]; exact hi),
      zipWith_getD _ _ _ i (by rw [groupDiff_length]; exact hi) (by omega),
      diff_times times groups hl i hi, mul_div_cancel_left₀ _ (interval_ne times groups ht i hi)]

/-- C19.  The simply compounded forward rate of `forward_rates`: investing at it over the period gives the
ratio of the discount factors. -/
theorem C19_forward_rate (dfStart dfEnd daycount : K) (hd : daycount ≠ 0) :
    1 + forwardRate dfStart dfEnd daycount * daycount = dfStart / dfEnd := by
  unfold forwardRate
  rw [div_mul_cancel₀ _ hd]
  ring

/-- Concrete instance: two groups of times, `[1,2,4]` and `[1,3]`. -/
example : (forwardRatesFromYields [2, 3, 5, 1, 4] [1, 2, 4, 1, 3] (some [0, 0, 0, 1, 1]) : List ℚ) =
    [2, 4, 7, 1, 11/2] ∧
    (yieldsFromForwardRates [2, 4, 7, 1, 11/2] [1, 2, 4, 1, 3] (some [0, 0, 0, 1, 1]) : List ℚ) =
    [2, 3, 5, 1, 4] := by decide +kernel

example : GoodTimes [1, 2, 4, 1, (3 : ℚ)] (some [0, 0, 0, 1, 1]) := by
  apply goodTimes_of_increasing
  · intro i hi
    rcases i with _ | _ | _ | _ | _ | i
    all_goals first | (simp at hi; omega) | simp
  · intro i hi hs
    have := hs _ rfl i (by omega) (by omega)
    rcases i with _ | _ | _ | _ | i
    all_goals first | (simp at hi; omega) | (simp at this; done) | (simp; done) | (simp; norm_num)

end

end Props
