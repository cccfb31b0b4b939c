import Mathlib.Algebra.BigOperators.Group.Finset.Basic
import Mathlib.Algebra.BigOperators.Intervals
import Mathlib.Tactic.Abel
import Verif.Model.Segments
import Verif.Spec.Segments

/-! Segmented operations, position by position. -/

namespace Lemmas
open Model Spec

theorem mem_fix_aux (order n : Nat) (l : List Nat) (hs : l.Pairwise (· < ·)) (hn : ∀ p ∈ l, p < n) (i : Nat) :
    i ∈ (l.zip (l.tail ++ [n])).flatMap
      (fun q => ((List.range order).map (fun k => q.1 + k)).filter (fun i => decide (i < q.2))) ↔
    i < n ∧ ∃ p ∈ l, p ≤ i ∧ i < p + order := by
  induction l with
  | nil => simp
  | cons a l ih =>
    have hs' := (List.pairwise_cons.1 hs)
    have ih' := ih hs'.2 (fun p hp => hn p (List.mem_cons_of_mem _ hp))
    have hmem : ∀ e, i ∈ ((List.range order).map (fun k => a + k)).filter (fun i => decide (i < e)) ↔
        a ≤ i ∧ i < a + order ∧ i < e := by
      intro e
      simp only [List.mem_filter, List.mem_map, List.mem_range, decide_eq_true_eq]
      constructor
      · rintro ⟨⟨k, hk, rfl⟩, he⟩; exact ⟨by omega, by omega, he⟩
      · rintro ⟨h1, h2, h3⟩; exact ⟨⟨i - a, by omega, by omega⟩, h3⟩
    cases l with
    | nil =>
      simp only [List.tail_cons, List.nil_append, List.zip_cons_cons, List.zip_nil_right, List.flatMap_cons,
        List.flatMap_nil, List.append_nil, hmem, List.mem_singleton, exists_eq_left]
      tauto
    | cons b l =>
      have hab : a < b := hs'.1 b (List.mem_cons_self)
      have hbn : b < n := hn b (by simp)
      simp only [List.tail_cons, List.cons_append, List.zip_cons_cons, List.flatMap_cons] at ih' ⊢
      rw [List.mem_append, hmem]
      have ih2 : i ∈ _ ↔ _ := ih'
      rw [List.tail_cons] at *
      simp only [List.mem_append, List.mem_cons, exists_eq_or_imp] at ih2 ⊢
      constructor
      · rintro (⟨h1, h2, h3⟩ | h)
        · exact ⟨by omega, Or.inl ⟨h1, h2⟩⟩
        · obtain ⟨h0, h⟩ := ih2.1 h
          exact ⟨h0, Or.inr h⟩
      · rintro ⟨h0, ⟨h1, h2⟩ | h⟩
        · by_cases hb : i < b
          · exact Or.inl ⟨h1, h2, hb⟩
          · exact Or.inr (ih2.2 ⟨h0, Or.inl ⟨by omega, by omega⟩⟩)
        · exact Or.inr (ih2.2 ⟨h0, h⟩)

theorem changed_getD (ids : List Int) (p : Nat) (hp : p < ids.length) :
    (hasSegmentChanged ids).getD p false = true ↔ 1 ≤ p ∧ ids[p]? ≠ ids[p - 1]? := by
  unfold hasSegmentChanged
  cases p with
  | zero => simp
  | succ p =>
    rw [List.getD_cons_succ, List.getD_eq_getElem?_getD, List.getElem?_zipWith]
    rw [List.getElem?_tail, List.getElem?_dropLast, if_pos (by omega), List.getElem?_eq_getElem hp,
      List.getElem?_eq_getElem (show p < ids.length by omega)]
    simp only [Option.getD_some, decide_eq_true_eq, Nat.add_sub_cancel,
      List.getElem?_eq_getElem (show p < ids.length by omega)]
    constructor
    · intro h; refine ⟨by omega, fun hh => h ?_⟩; rw [Option.some.inj hh]; omega
    · rintro ⟨_, h⟩ hh; exact h (by congr 1; omega)

theorem mem_starts (ids : List Int) (p : Nat) :
    p ∈ segmentStarts ids ↔ p < ids.length ∧ 1 ≤ p ∧ ids[p]? ≠ ids[p - 1]? := by
  unfold segmentStarts
  rw [List.mem_filter, List.mem_range]
  constructor
  · rintro ⟨h1, h2⟩; exact ⟨h1, (changed_getD ids p h1).1 h2⟩
  · rintro ⟨h1, h2⟩; exact ⟨h1, (changed_getD ids p h1).2 h2⟩

theorem mem_fix (ids : List Int) (order i : Nat) :
    i ∈ fixIndices ids order ↔
      i < ids.length ∧ ∃ p ∈ segmentStarts ids, p ≤ i ∧ i < p + order := by
  unfold fixIndices
  apply mem_fix_aux
  · exact List.Pairwise.filter _ List.pairwise_lt_range
  · intro p hp; exact ((mem_starts ids p).1 hp).1

theorem sameSegment_iff (ids : List Int) (j i : Nat) (hi : i < ids.length) (hji : j ≤ i) :
    SameSegment ids j i ↔ ∀ p ∈ segmentStarts ids, p ≤ i → p ≤ j := by
  constructor
  · intro h p hp hpi
    by_contra hlt
    have h1 := h p (by omega) hpi
    have h2 := h (p - 1) (by omega) (by omega)
    exact ((mem_starts ids p).1 hp).2.2 (by rw [h1, h2])
  · intro h
    have key : ∀ m, m ≤ i - j → ids[i - m]? = ids[i]? := by
      intro m
      induction m with
      | zero => intro _; rfl
      | succ m ih =>
        intro hm
        rw [← ih (by omega)]
        by_contra hne
        have := h (i - m) ((mem_starts ids _).2 ⟨by omega, by omega, fun hh => hne (by
          rw [hh, show i - (m + 1) = i - m - 1 by omega])⟩) (by omega)
        omega
    intro k h1 h2
    have := key (i - k) (by omega)
    rwa [show i - (i - k) = k by omega] at this

/-- Non-exclusive differences replace exactly the positions whose predecessor is in another segment. -/
theorem not_fix_iff (ids : List Int) (order i : Nat) (hi : i < ids.length) (ho : order ≤ i) :
    i ∉ fixIndices ids order ↔ SameSegment ids (i - order) i := by
  rw [sameSegment_iff ids _ i hi (by omega), mem_fix]
  constructor
  · intro h p hp hpi
    by_contra hlt
    exact h ⟨hi, p, hp, hpi, by omega⟩
  · rintro h ⟨_, p, hp, h1, h2⟩
    have := h p hp h1
    omega

section
variable {G : Type} [AddCommGroup G]

theorem getElem?_getD (x : List G) (i : Nat) (hi : i < x.length) : x[i]? = some (x.getD i 0) := by
  rw [List.getD_eq_getElem?_getD, List.getElem?_eq_getElem hi]; rfl

theorem diff_length (x : List G) (order : Nat) : (diff x order false).length = x.length := by
  unfold diff
  simp only [Bool.false_eq_true, if_false, List.length_append, List.length_take, List.length_zipWith,
    List.length_drop]
  omega

theorem diff_ex_length (x : List G) (order : Nat) : (diff x order true).length = x.length - order := by
  unfold diff
  simp

theorem diff_ex_getElem? (x : List G) (order i : Nat) (h : i + order < x.length) :
    (diff x order true)[i]? = some (x.getD (i + order) 0 - x.getD i 0) := by
  unfold diff
  simp only [if_true]
  rw [List.getElem?_zipWith, List.getElem?_drop, List.getElem?_take, if_pos (by omega),
    getElem?_getD x _ (by omega), getElem?_getD x i (by omega)]
  simp only [Nat.add_comm]

theorem diff_getElem? (x : List G) (order i : Nat) (hi : i < x.length) :
    (diff x order false)[i]? = some (if order ≤ i then x.getD i 0 - x.getD (i - order) 0 else x.getD i 0) := by
  have e : diff x order false = x.take order ++ diff x order true := by simp [diff]
  rw [e]
  by_cases ho : order ≤ i
  · rw [if_pos ho, List.getElem?_append_right (by simp only [List.length_take]; omega)]
    simp only [List.length_take]
    rw [Nat.min_eq_left (by omega), diff_ex_getElem? x order _ (by omega), Nat.sub_add_cancel ho]
  · rw [if_neg ho, List.getElem?_append_left (by simp only [List.length_take]; omega), List.getElem?_take,
      if_pos (by omega), getElem?_getD x i hi]

theorem needsFix_getElem? (ids : List Int) (order n i : Nat) (hi : i < n) :
    (needsFix ids order n)[i]? = some (decide (i ∈ fixIndices ids order)) := by
  unfold needsFix
  rw [List.getElem?_map, List.getElem?_range hi]
  simp only [Option.map_some]
  congr 1
  rw [decide_eq_decide, ← List.count_pos_iff]
  omega

theorem segmentDiff_length (x : List G) (ids : List Int) (order : Nat) :
    (segmentDiff x (some ids) order false).length = x.length := by
  unfold segmentDiff needsFix
  simp [diff_length]

open Classical in
theorem segmentDiff_getElem? (x : List G) (ids : List Int) (order i : Nat) (hl : ids.length = x.length)
    (hi : i < x.length) :
    (segmentDiff x (some ids) order false)[i]? =
      some (if order ≤ i ∧ SameSegment ids (i - order) i then x.getD i 0 - x.getD (i - order) 0
        else x.getD i 0) := by
  unfold segmentDiff
  simp only [Bool.false_eq_true, not_false_eq_true, if_true]
  rw [List.getElem?_zipWith, needsFix_getElem? _ _ _ _ hi]
  have hz : (x.zip (diff x order false))[i]? = some (x.getD i 0,
      if order ≤ i then x.getD i 0 - x.getD (i - order) 0 else x.getD i 0) := by
    rw [List.getElem?_zip_eq_some]
    exact ⟨getElem?_getD x i hi, diff_getElem? x order i hi⟩
  rw [hz]
  simp only
  congr 1
  by_cases ho : order ≤ i
  · by_cases hf : i ∈ fixIndices ids order
    · rw [if_pos (by simpa using hf), if_neg]
      rintro ⟨_, hS⟩
      exact (not_fix_iff ids order i (by omega) ho).2 hS hf
    · rw [if_neg (by simpa using hf), if_pos ho, if_pos ⟨ho, (not_fix_iff ids order i (by omega) ho).1 hf⟩]
  · have hn : ¬ (order ≤ i ∧ SameSegment ids (i - order) i) := fun h => ho h.1
    rw [if_neg hn, if_neg ho, ite_self]

open Classical in
/-- Exclusive differences: the positions whose predecessor is in the same segment, in order. -/
theorem segmentDiff_ex (x : List G) (ids : List Int) (order : Nat) (hl : ids.length = x.length) :
    segmentDiff x (some ids) order true =
      ((List.range x.length).filter (fun i => decide (order ≤ i ∧ SameSegment ids (i - order) i))).map
        (fun i => x.getD i 0 - x.getD (i - order) 0) := by
  unfold segmentDiff
  simp only [not_true_eq_false, if_false]
  have hz : (diff x order true).zip ((needsFix ids order x.length).drop order) =
      (List.range (x.length - order)).map (fun i => (x.getD (i + order) 0 - x.getD i 0,
        decide (i + order ∈ fixIndices ids order))) := by
    apply List.ext_getElem?
    intro i
    by_cases hi : i < x.length - order
    · rw [List.getElem?_map, List.getElem?_range hi, Option.map_some, List.getElem?_zip_eq_some]
      refine ⟨diff_ex_getElem? x order i (by omega), ?_⟩
      rw [List.getElem?_drop, needsFix_getElem? _ _ _ _ (by omega), Nat.add_comm]
    · rw [List.getElem?_eq_none, List.getElem?_eq_none]
      · simp; omega
      · simp [diff_ex_length]; omega
  rw [hz, List.filter_map, List.map_map]
  have hr : List.range x.length = List.range (min order x.length) ++
      (List.range (x.length - order)).map (fun i => i + order) := by
    by_cases h : order ≤ x.length
    · rw [Nat.min_eq_left h]
      have := List.range_add (n := order) (m := x.length - order)
      rw [show order + (x.length - order) = x.length by omega] at this
      rw [this]
      congr 1
      exact List.map_congr_left (fun i _ => by omega)
    · rw [Nat.min_eq_right (by omega), show x.length - order = 0 by omega]; simp
  rw [hr, List.filter_append, List.map_append]
  have h0 : (List.range (min order x.length)).filter
      (fun i => decide (order ≤ i ∧ SameSegment ids (i - order) i)) = [] := by
    rw [List.filter_eq_nil_iff]
    intro i hi
    rw [List.mem_range] at hi
    simp only [decide_eq_true_eq]
    omega
  rw [h0, List.map_nil, List.nil_append, List.filter_map, List.map_map]
  have hf : (List.range (x.length - order)).filter ((fun p : G × Bool => !p.2) ∘ fun i =>
      (x.getD (i + order) 0 - x.getD i 0, decide (i + order ∈ fixIndices ids order))) =
      (List.range (x.length - order)).filter ((fun i =>
        decide (order ≤ i ∧ SameSegment ids (i - order) i)) ∘ fun i => i + order) := by
    apply List.filter_congr
    intro i hi
    rw [List.mem_range] at hi
    simp only [Function.comp]
    rw [← decide_not, decide_eq_decide, not_fix_iff ids order (i + order) (by omega) (by omega)]
    exact ⟨fun h => ⟨by omega, h⟩, fun h => h.2⟩
  rw [hf]
  apply List.map_congr_left
  intro i _
  simp only [Function.comp, Nat.add_sub_cancel]

/-- State of the scan before position `i`. -/
theorem segmentScan_getElem? (ids : List Int) (x : List G) (ex : Bool) (hl : ids.length = x.length)
    (hx : 0 < x.length) :
    ∃ y : Nat → G, (∀ i, i < x.length → (segmentCumsum x (some ids) ex)[i]? = some (y i)) ∧
      y 0 = (if ex then 0 else x.getD 0 0) ∧
      ∀ i, i + 1 < x.length → y (i + 1) = if ids[i]? = ids[i + 1]? then
        (if ex then y i + x.getD i 0 else y i + x.getD (i + 1) 0)
        else (if ex then 0 else x.getD (i + 1) 0) := by
  -- general statement about the scan
  have key : ∀ (l : List (G × Int)) (st : G × Int × G), ∃ y : Nat → G,
      (∀ i, i < l.length → (segmentScan ex st l)[i]? = some (y i)) ∧
      (∀ p, l[0]? = some p → y 0 = if st.2.1 = p.2 then (if ex then st.1 + st.2.2 else st.1 + p.1)
        else (if ex then 0 else p.1)) ∧
      (∀ i p q, l[i]? = some p → l[i + 1]? = some q → y (i + 1) =
        if p.2 = q.2 then (if ex then y i + p.1 else y i + q.1) else (if ex then 0 else q.1)) := by
    intro l
    induction l with
    | nil => intro st; exact ⟨fun _ => 0, by simp, by simp, by simp⟩
    | cons a l ih =>
      intro st
      obtain ⟨y, h1, h2, h3⟩ := ih ((if st.2.1 = a.2 then (if ex then st.1 + st.2.2 else st.1 + a.1)
        else (if ex then 0 else a.1)), a.2, a.1)
      refine ⟨fun i => match i with
        | 0 => if st.2.1 = a.2 then (if ex then st.1 + st.2.2 else st.1 + a.1)
            else (if ex then 0 else a.1)
        | i + 1 => y i, ?_, ?_, ?_⟩
      · intro i hi
        obtain ⟨c, s, v⟩ := st
        obtain ⟨w, t⟩ := a
        cases i with
        | zero => rfl
        | succ i => exact h1 i (by simpa using hi)
      · intro p hp
        cases hp
        rfl
      · intro i p q hp hq
        cases i with
        | zero =>
          cases hp
          exact h2 q hq
        | succ i => exact h3 i p q hp hq
  obtain ⟨y, h1, h2, h3⟩ := key (x.zip ids) (0, -1, 0)
  have hz : ∀ i, i < x.length → ∃ d, ids[i]? = some d ∧ (x.zip ids)[i]? = some (x.getD i 0, d) := by
    intro i hi
    refine ⟨_, List.getElem?_eq_getElem (by omega), ?_⟩
    rw [List.getElem?_zip_eq_some]
    exact ⟨getElem?_getD x i hi, List.getElem?_eq_getElem (by omega)⟩
  refine ⟨y, fun i hi => h1 i (by simp; omega), ?_, ?_⟩
  · obtain ⟨d, _, hd⟩ := hz 0 hx
    rw [h2 _ hd]
    cases ex <;> simp
  · intro i hi
    obtain ⟨d, e1, hd⟩ := hz i (by omega)
    obtain ⟨d', e2, hd'⟩ := hz (i + 1) hi
    rw [h3 i _ _ hd hd', e1, e2]
    simp only [Option.some.injEq]

theorem sameSegment_succ (ids : List Int) (j i : Nat) (h : j ≤ i) :
    SameSegment ids j (i + 1) ↔ ids[i]? = ids[i + 1]? ∧ SameSegment ids j i := by
  constructor
  · intro hs
    have := hs i h (by omega)
    exact ⟨this, fun k h1 h2 => by rw [hs k h1 (by omega), this]⟩
  · rintro ⟨h1, h2⟩ k hk1 hk2
    by_cases hk : k = i + 1
    · rw [hk]
    · rw [h2 k hk1 (by omega), h1]

open Classical in
theorem segmentCumsum_getElem? (ids : List Int) (x : List G) (ex : Bool) (hl : ids.length = x.length)
    (i : Nat) (hi : i < x.length) :
    (segmentCumsum x (some ids) ex)[i]? = some
      (((Finset.range (if ex then i else i + 1)).filter (fun j => SameSegment ids j i)).sum
        (fun j => x.getD j 0)) := by
  obtain ⟨y, h1, h2, h3⟩ := segmentScan_getElem? ids x ex hl (by omega)
  rw [h1 i hi]
  congr 1
  induction i with
  | zero =>
    rw [h2]
    cases ex
    · simp [Finset.sum_filter, SameSegment]
    · simp
  | succ i ih =>
    rw [h3 i hi, ih (by omega)]
    by_cases hd : ids[i]? = ids[i + 1]?
    · rw [if_pos hd]
      have hss : ∀ j, j ≤ i → (SameSegment ids j (i + 1) ↔ SameSegment ids j i) := fun j hj => by
        rw [sameSegment_succ ids j i hj]; exact ⟨fun h => h.2, fun h => ⟨hd, h⟩⟩
      cases ex
      · simp only [Bool.false_eq_true, if_false]
        rw [Finset.sum_filter, Finset.sum_filter, Finset.sum_range_succ (n := i + 1)]
        congr 1
        · apply Finset.sum_congr rfl
          intro j hj
          rw [Finset.mem_range] at hj
          simp only [hss j (by omega)]
        · rw [if_pos]
          intro k h1 h2
          rw [show k = i + 1 by omega]
      · simp only [if_true]
        rw [Finset.sum_filter, Finset.sum_filter, Finset.sum_range_succ (n := i)]
        congr 1
        · apply Finset.sum_congr rfl
          intro j hj
          rw [Finset.mem_range] at hj
          simp only [hss j (by omega)]
        · rw [if_pos]
          intro k h1 h2
          by_cases hk : k = i
          · rw [hk, hd]
          · rw [show k = i + 1 by omega]
    · rw [if_neg hd]
      have hss : ∀ j, j ≤ i → ¬ SameSegment ids j (i + 1) := fun j hj h =>
        hd ((sameSegment_succ ids j i hj).1 h).1
      cases ex
      · simp only [Bool.false_eq_true, if_false]
        rw [Finset.sum_filter, Finset.sum_range_succ (n := i + 1), Finset.sum_eq_zero, if_pos, zero_add]
        · intro k h1 h2
          rw [show k = i + 1 by omega]
        · intro j hj
          rw [Finset.mem_range] at hj
          rw [if_neg (hss j (by omega))]
      · simp only [if_true]
        rw [Finset.sum_filter, Finset.sum_eq_zero]
        intro j hj
        rw [Finset.mem_range] at hj
        rw [if_neg (hss j (by omega))]

theorem cumsum_go_length (ex : Bool) (x : List G) (acc : G) : (cumsum.go ex acc x).length = x.length := by
  induction x generalizing acc with
  | nil => rfl
  | cons a t ih => simp [cumsum.go, ih]

theorem cumsum_length (x : List G) (ex : Bool) : (segmentCumsum x none ex).length = x.length :=
  cumsum_go_length ex x 0

theorem cumsum_go_getElem? (ex : Bool) (x : List G) (acc : G) (i : Nat) (hi : i < x.length) :
    (cumsum.go ex acc x)[i]? = some (acc + (Finset.range (if ex then i else i + 1)).sum (fun j => x.getD j 0)) := by
  induction x generalizing acc i with
  | nil => simp at hi
  | cons a t ih =>
    cases i with
    | zero => cases ex <;> simp [cumsum.go]
    | succ i =>
      have := ih (acc + a) i (by simpa using hi)
      simp only [cumsum.go, List.getElem?_cons_succ]
      rw [this]
      congr 1
      cases ex
      · simp only [Bool.false_eq_true, if_false]
        rw [Finset.sum_range_succ' _ (i + 1)]
        simp only [List.getD_cons_succ, List.getD_cons_zero]
        abel
      · simp only [if_true]
        rw [Finset.sum_range_succ' _ i]
        simp only [List.getD_cons_succ, List.getD_cons_zero]
        abel

theorem cumsum_getElem? (x : List G) (ex : Bool) (i : Nat) (hi : i < x.length) :
    (segmentCumsum x none ex)[i]? = some ((Finset.range (if ex then i else i + 1)).sum (fun j => x.getD j 0)) := by
  have := cumsum_go_getElem? ex x 0 i hi
  rw [zero_add] at this
  exact this

theorem segmentScan_length (ex : Bool) (l : List (G × Int)) (st : G × Int × G) :
    (segmentScan ex st l).length = l.length := by
  induction l generalizing st with
  | nil => rfl
  | cons a l ih =>
    obtain ⟨c, s, v⟩ := st
    obtain ⟨w, t⟩ := a
    simp [segmentScan, ih]

theorem segmentCumsum_length (x : List G) (ids : List Int) (ex : Bool) (hl : ids.length = x.length) :
    (segmentCumsum x (some ids) ex).length = x.length := by
  have := segmentScan_length ex (x.zip ids) (0, -1, 0)
  rw [List.length_zip, hl, Nat.min_self] at this
  exact this

theorem sameSegment_step (ids : List Int) (i : Nat) : SameSegment ids i (i + 1) ↔ ids[i]? = ids[i + 1]? := by
  rw [sameSegment_succ ids i i (le_refl i)]
  exact ⟨fun h => h.1, fun h => ⟨h, fun k h1 h2 => by rw [show k = i by omega]⟩⟩

theorem groupDiff_length (x : List G) (ids : Option (List Int)) (order : Nat) :
    (segmentDiff x ids order false).length = x.length := by
  cases ids with
  | none => exact diff_length x order
  | some l => exact segmentDiff_length x l order

theorem groupCumsum_length (x : List G) (ids : Option (List Int)) (ex : Bool)
    (hl : ∀ l, ids = some l → l.length = x.length) : (segmentCumsum x ids ex).length = x.length := by
  cases ids with
  | none => exact cumsum_length x ex
  | some l => exact segmentCumsum_length x l ex (hl l rfl)

open Classical in
/-- Differences with optional ids. -/
theorem groupDiff_getElem? (x : List G) (ids : Option (List Int)) (order i : Nat)
    (hl : ∀ l, ids = some l → l.length = x.length) (hi : i < x.length) :
    (segmentDiff x ids order false)[i]? = some (if order ≤ i ∧ SameGroup ids (i - order) i then
      x.getD i 0 - x.getD (i - order) 0 else x.getD i 0) := by
  cases ids with
  | none =>
    have : (segmentDiff x none order false)[i]? = _ := diff_getElem? x order i hi
    rw [this]
    have hs : SameGroup none (i - order) i := fun l hl => by cases hl
    by_cases h : order ≤ i
    · rw [if_pos h, if_pos ⟨h, hs⟩]
    · have hn : ¬ (order ≤ i ∧ SameGroup none (i - order) i) := fun h' => h h'.1
      rw [if_neg h, if_neg hn]
  | some l =>
    rw [segmentDiff_getElem? x l order i (hl l rfl) hi]
    have hs : SameGroup (some l) (i - order) i ↔ SameSegment l (i - order) i :=
      ⟨fun h => h l rfl, fun h l' hl' => by cases hl'; exact h⟩
    simp only [hs]

open Classical in
theorem groupCumsum_getElem? (x : List G) (ids : Option (List Int)) (ex : Bool)
    (hl : ∀ l, ids = some l → l.length = x.length) (i : Nat) (hi : i < x.length) :
    (segmentCumsum x ids ex)[i]? = some
      (((Finset.range (if ex then i else i + 1)).filter (fun j => SameGroup ids j i)).sum
        (fun j => x.getD j 0)) := by
  cases ids with
  | none =>
    rw [cumsum_getElem? x ex i hi, Finset.filter_true_of_mem]
    intro j _ l hl; cases hl
  | some l =>
    rw [segmentCumsum_getElem? l x ex (hl l rfl) i hi]
    congr 2
    ext j
    have hs : SameGroup (some l) j i ↔ SameSegment l j i :=
      ⟨fun h => h l rfl, fun h l' hl' => by cases hl'; exact h⟩
    simp only [Finset.mem_filter, hs]

open Classical in
/-- The cumulative sum as a recurrence. -/
theorem groupCumsum_rec (x : List G) (ids : Option (List Int))
    (hl : ∀ l, ids = some l → l.length = x.length) (i : Nat) (hi : i < x.length) :
    (segmentCumsum x ids false).getD i 0 =
      (if 1 ≤ i ∧ SameGroup ids (i - 1) i then (segmentCumsum x ids false).getD (i - 1) 0 else 0) + x.getD i 0 := by
  have hval : ∀ k, k < x.length → (segmentCumsum x ids false).getD k 0 =
      ((Finset.range (k + 1)).filter (fun j => SameGroup ids j k)).sum (fun j => x.getD j 0) := by
    intro k hk
    rw [List.getD_eq_getElem?_getD, groupCumsum_getElem? x ids false hl k hk]
    simp
  have hself : ∀ k, SameGroup ids k k := fun k l _ j h1 h2 => by rw [show j = k by omega]
  rw [hval i hi, Finset.sum_filter, Finset.sum_range_succ, if_pos (hself i)]
  congr 1
  by_cases h : 1 ≤ i ∧ SameGroup ids (i - 1) i
  · rw [if_pos h, hval (i - 1) (by omega), Finset.sum_filter, Nat.sub_add_cancel h.1]
    apply Finset.sum_congr rfl
    intro j hj
    rw [Finset.mem_range] at hj
    have : SameGroup ids j i ↔ SameGroup ids j (i - 1) := by
      constructor
      · intro hs l hl'
        have := (sameSegment_succ l j (i - 1) (by omega)).1
        rw [Nat.sub_add_cancel h.1] at this
        exact (this (hs l hl')).2
      · intro hs l hl'
        have := (sameSegment_succ l j (i - 1) (by omega)).2
        rw [Nat.sub_add_cancel h.1] at this
        refine this ⟨?_, hs l hl'⟩
        have h2 := (sameSegment_step l (i - 1)).1
        rw [Nat.sub_add_cancel h.1] at h2
        exact h2 (h.2 l hl')
    simp only [this]
  · rw [if_neg h]
    apply Finset.sum_eq_zero
    intro j hj
    rw [Finset.mem_range] at hj
    rw [if_neg]
    intro hs
    apply h
    refine ⟨by omega, fun l hl' k h1 h2 => hs l hl' k (by omega) h2⟩

theorem list_ext_getD (x y : List G) (hl : x.length = y.length)
    (h : ∀ i, i < x.length → x.getD i 0 = y.getD i 0) : x = y := by
  apply List.ext_getElem? 
  intro i
  by_cases hi : i < x.length
  · rw [getElem?_getD x i hi, getElem?_getD y i (by omega), h i hi]
  · rw [List.getElem?_eq_none (by omega), List.getElem?_eq_none (by omega)]

open Classical in
theorem groupDiff_getD (x : List G) (ids : Option (List Int)) (order i : Nat)
    (hl : ∀ l, ids = some l → l.length = x.length) (hi : i < x.length) :
    (segmentDiff x ids order false).getD i 0 = (if order ≤ i ∧ SameGroup ids (i - order) i then
      x.getD i 0 - x.getD (i - order) 0 else x.getD i 0) := by
  rw [List.getD_eq_getElem?_getD, groupDiff_getElem? x ids order i hl hi]; rfl

open Classical in
theorem diff_cumsum (x : List G) (ids : Option (List Int)) (hl : ∀ l, ids = some l → l.length = x.length) :
    segmentDiff (segmentCumsum x ids false) ids 1 false = x := by
  have hlen := groupCumsum_length x ids false hl
  apply list_ext_getD
  · rw [groupDiff_length, hlen]
  · intro i hi
    rw [groupDiff_length, hlen] at hi
    rw [groupDiff_getD _ ids 1 i (by rw [hlen]; exact hl) (by omega)]
    have := groupCumsum_rec x ids hl i hi
    by_cases h : 1 ≤ i ∧ SameGroup ids (i - 1) i
    · rw [if_pos h] at this ⊢; rw [this]; abel
    · rw [if_neg h] at this ⊢; rw [this]; abel

open Classical in
theorem cumsum_diff (x : List G) (ids : Option (List Int)) (hl : ∀ l, ids = some l → l.length = x.length) :
    segmentCumsum (segmentDiff x ids 1 false) ids false = x := by
  have hlen := groupDiff_length x ids 1
  have hl' : ∀ l, ids = some l → l.length = (segmentDiff x ids 1 false).length := by rw [hlen]; exact hl
  apply list_ext_getD
  · rw [groupCumsum_length _ ids false hl', hlen]
  · intro i
    induction i with
    | zero =>
      intro hi
      rw [groupCumsum_length _ ids false hl', hlen] at hi
      rw [groupCumsum_rec _ ids hl' 0 (by omega), groupDiff_getD x ids 1 0 hl hi]
      simp
    | succ i ih =>
      intro hi
      have hi' := hi
      rw [groupCumsum_length _ ids false hl', hlen] at hi'
      rw [groupCumsum_rec _ ids hl' (i + 1) (by omega), groupDiff_getD x ids 1 _ hl hi', Nat.add_sub_cancel,
        ih (by omega)]
      split
      · abel
      · abel

end

end Lemmas
