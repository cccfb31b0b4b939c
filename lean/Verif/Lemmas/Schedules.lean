import Verif.Lemmas.Shift
import Verif.Lemmas.BoundedRoll

/-! Periodic schedules. -/

namespace Lemmas
open Model Spec

theorem mapM_ok {α β : Type} (f : α → Except String β) (g : α → β) (l : List α)
    (h : ∀ x ∈ l, f x = .ok (g x)) : l.mapM f = .ok (l.map g) := by
  induction l with
  | nil => rfl
  | cons a l ih =>
    rw [List.mapM_cons, h a (List.mem_cons_self), bind_ok,
      ih (fun x hx => h x (List.mem_cons_of_mem _ hx)), bind_ok]
    rfl

theorem mapM_ok_inv {α β : Type} (f : α → Except String β) (g : α → β) (l : List α)
    (h : ∀ x ∈ l, ∀ t, f x = .ok t → t = g x) (r : List β) (hr : l.mapM f = .ok r) :
    r = l.map g := by
  induction l generalizing r with
  | nil => cases hr; rfl
  | cons a l ih =>
    rw [List.mapM_cons, bind_ok_iff] at hr
    obtain ⟨b, hb, hr⟩ := hr
    rw [bind_ok_iff] at hr
    obtain ⟨bs, hbs, hr⟩ := hr
    cases hr
    rw [h a (List.mem_cons_self) b hb, ih (fun x hx => h x (List.mem_cons_of_mem _ hx)) bs hbs]
    rfl

theorem exists_threshold (P : Nat → Prop) (hmono : ∀ i j, i ≤ j → P j → P i) (n : Nat)
    (hn : ¬ P n) : ∃ k, k ≤ n ∧ ∀ i, i < k ↔ P i := by
  induction n with
  | zero => exact ⟨0, Nat.le_refl 0, fun i => ⟨fun h => by omega, fun h => absurd (hmono 0 i (by omega) h) hn⟩⟩
  | succ n ih =>
    by_cases hp : P n
    · refine ⟨n + 1, Nat.le_refl _, fun i => ⟨fun h => hmono i n (by omega) hp, fun h => ?_⟩⟩
      by_contra hlt
      exact hn (hmono (n + 1) i (by omega) h)
    · obtain ⟨k, h1, h2⟩ := ih hp
      exact ⟨k, by omega, h2⟩

theorem ceilDiv_ge (a b : Int) (hb : 0 < b) : a ≤ ceilDiv a b * b := by
  unfold ceilDiv
  have := Int.mul_ediv_add_emod (-a) b
  have := Int.emod_nonneg (-a) (show b ≠ 0 by omega)
  have : -(-a / b) * b = -(b * (-a / b)) := by rw [Int.neg_mul, Int.mul_comm]
  omega

theorem ceilDiv_lt (a b n : Int) (hb : 0 < b) (hn : n < ceilDiv a b) : n * b < a := by
  unfold ceilDiv at hn
  have h1 := Int.mul_ediv_add_emod (-a) b
  have h2 := Int.emod_lt_of_pos (-a) hb
  have h3 : n + 1 ≤ -(-a / b) := by omega
  have h4 : (n + 1) * b ≤ -(-a / b) * b := Int.mul_le_mul_of_nonneg_right h3 (by omega)
  have : -(-a / b) * b = -(b * (-a / b)) := by rw [Int.neg_mul, Int.mul_comm]
  rw [Int.add_mul] at h4
  omega

theorem minDays_pos (p : PeriodType) : 0 < minDaysInPeriod p := by cases p <;> decide

/-- A row whose dates are well formed, in order, with positive tenor. -/
structure RowOK (r : ScheduleRow) : Prop where
  start : r.start = repr (dateOf r.start.ordinal)
  stop : r.stop = repr (dateOf r.stop.ordinal)
  le : r.start.ordinal ≤ r.stop.ordinal
  quantity : 0 < r.quantity

theorem bound_row {p : PeriodType} {rows : List ScheduleRow} {r : ScheduleRow} (hr : r ∈ rows)
    (h : RowOK r) :
    ∃ b : Nat, (scheduleLenUpperBound p rows) = b ∧
      r.stop.ordinal - r.start.ordinal + 1 ≤ minDaysInPeriod p * (r.quantity * (b : Int)) := by
  unfold scheduleLenUpperBound
  generalize hL : rows.map _ = L
  have hm : ceilDiv (r.stop.ordinal - r.start.ordinal + 1) (r.quantity * minDaysInPeriod p) ∈ L := by
    rw [← hL]; exact List.mem_map.2 ⟨r, hr, rfl⟩
  have hpos : 0 < r.quantity * minDaysInPeriod p := Int.mul_pos h.quantity (minDays_pos p)
  have hge := ceilDiv_ge (r.stop.ordinal - r.start.ordinal + 1) _ hpos
  have hle := h.le
  have hc : 0 < ceilDiv (r.stop.ordinal - r.start.ordinal + 1) (r.quantity * minDaysInPeriod p) := by
    by_contra hn
    have := Int.mul_nonpos_of_nonpos_of_nonneg (show ceilDiv (r.stop.ordinal - r.start.ordinal + 1)
      (r.quantity * minDaysInPeriod p) ≤ 0 by omega) (show 0 ≤ r.quantity * minDaysInPeriod p by omega)
    omega
  cases hmx : L.max? with
  | none => rw [List.max?_eq_none_iff] at hmx; rw [hmx] at hm; cases hm
  | some x =>
    rw [List.max?_eq_some_iff] at hmx
    have hx := hmx.2 _ hm
    refine ⟨x.toNat, by simp only [Option.getD_some]; omega, ?_⟩
    have : ((x.toNat : Nat) : Int) = x := by omega
    rw [this]
    have := Int.mul_le_mul_of_nonneg_right hx (show 0 ≤ r.quantity * minDaysInPeriod p by omega)
    have e : minDaysInPeriod p * (r.quantity * x) = x * (r.quantity * minDaysInPeriod p) := by
      rw [Int.mul_comm (minDaysInPeriod p), Int.mul_comm (r.quantity) x, Int.mul_assoc]
    rw [e]; omega

/-- Date number `i` of the forward sequence. -/
def fwdD (p : PeriodType) (r : ScheduleRow) (i : Nat) : YMD :=
  shiftD p (r.quantity * (i : Int)) (dateOf r.start.ordinal)

/-- Date number `i` of the backward sequence. -/
def bwdD (p : PeriodType) (r : ScheduleRow) (i : Nat) : YMD :=
  shiftD p (-(r.quantity * (i : Int))) (dateOf r.stop.ordinal)

theorem fwd_mono {p : PeriodType} {r : ScheduleRow} (h : RowOK r) {i j : Nat} (hij : i ≤ j) :
    (fwdD p r i).number ≤ (fwdD p r j).number := by
  rcases Nat.lt_or_ge i j with hlt | hge
  · apply Int.le_of_lt
    apply shiftD_mono _ _ _ (dateOf_valid _)
    exact Int.mul_lt_mul_of_pos_left (by omega) h.quantity
  · rw [show i = j by omega]; exact Int.le_refl _

theorem bwd_mono {p : PeriodType} {r : ScheduleRow} (h : RowOK r) {i j : Nat} (hij : i ≤ j) :
    (bwdD p r j).number ≤ (bwdD p r i).number := by
  rcases Nat.lt_or_ge i j with hlt | hge
  · apply Int.le_of_lt
    apply shiftD_mono _ _ _ (dateOf_valid _)
    have := Int.mul_lt_mul_of_pos_left (show (i : Int) < j by omega) h.quantity
    omega
  · rw [show i = j by omega]; exact Int.le_refl _

theorem fwd_threshold {p : PeriodType} {rows : List ScheduleRow} {r : ScheduleRow} (hr : r ∈ rows)
    (h : RowOK r) :
    ∃ k : Nat, (k : Int) ≤ scheduleLenUpperBound p rows ∧
      ∀ i, i < k ↔ (fwdD p r i).number < r.stop.ordinal := by
  obtain ⟨b, hb, hle⟩ := bound_row (p := p) hr h
  obtain ⟨k, h1, h2⟩ := exists_threshold (fun i => (fwdD p r i).number < r.stop.ordinal)
    (fun i j hij hj => Int.lt_of_le_of_lt (fwd_mono h hij) hj) b (by
      have hq : 0 ≤ r.quantity * (b : Int) := Int.mul_nonneg (by have := h.quantity; omega) (by omega)
      have := shiftD_growth p (r.quantity * (b : Int)) hq (dateOf r.start.ordinal) (dateOf_valid _)
      rw [dateOf_number] at this
      show ¬ (shiftD p (r.quantity * (b : Int)) (dateOf r.start.ordinal)).number < _
      omega)
  exact ⟨k, by omega, h2⟩

theorem bwd_threshold {p : PeriodType} {rows : List ScheduleRow} {r : ScheduleRow} (hr : r ∈ rows)
    (h : RowOK r) :
    ∃ k : Nat, (k : Int) ≤ scheduleLenUpperBound p rows ∧
      ∀ i, i < k ↔ r.start.ordinal < (bwdD p r i).number := by
  obtain ⟨b, hb, hle⟩ := bound_row (p := p) hr h
  obtain ⟨k, h1, h2⟩ := exists_threshold (fun i => r.start.ordinal < (bwdD p r i).number)
    (fun i j hij hj => Int.lt_of_lt_of_le hj (bwd_mono h hij)) b (by
      have hq : 0 ≤ r.quantity * (b : Int) := Int.mul_nonneg (by have := h.quantity; omega) (by omega)
      have := shiftD_growth_back p (r.quantity * (b : Int)) hq (dateOf r.stop.ordinal) (dateOf_valid _)
      rw [dateOf_number] at this
      show ¬ _ < (shiftD p (-(r.quantity * (b : Int))) (dateOf r.stop.ordinal)).number
      omega)
  exact ⟨k, by omega, h2⟩

theorem repr_ordinal (d : YMD) : (repr d).ordinal = d.number := rfl

/-- A forward row before trimming. -/
theorem forwardRow_eq {p : PeriodType} {rows : List ScheduleRow} {r : ScheduleRow}
    (h : RowOK r) (hpos : 0 < r.start.ordinal) {k : Nat}
    (hk : (k : Int) ≤ scheduleLenUpperBound p rows)
    (hthr : ∀ i, i < k ↔ (fwdD p r i).number < r.stop.ordinal) :
    forwardRow p (scheduleLenUpperBound p rows) r =
      .ok ((List.range ((scheduleLenUpperBound p rows).toNat + 1)).map
        (fun i => if i < k then repr (fwdD p r i) else r.stop)) := by
  generalize hub : (scheduleLenUpperBound p rows).toNat = b
  have hkb : k ≤ b := by omega
  unfold forwardRow
  rw [hub, mapM_ok _ (fun i : Nat => repr (fwdD p r i)), bind_ok]
  · show Except.ok _ = _
    congr 1
    rw [List.range_succ, List.map_append, List.map_append, List.map_map]
    congr 1
    · apply List.map_congr_left
      intro i hi
      change (if (repr (fwdD p r i)).ordinal ≤ r.stop.ordinal then repr (fwdD p r i) else r.stop) = _
      have ho := repr_ordinal (fwdD p r i)
      by_cases h1 : i < k
      · rw [if_pos h1, if_pos (by have := (hthr i).1 h1; omega)]
      · rw [if_neg h1]
        have := mt (hthr i).2 h1
        by_cases h2 : (repr (fwdD p r i)).ordinal ≤ r.stop.ordinal
        · rw [if_pos h2, h.stop]
          have : (fwdD p r i).number = r.stop.ordinal := by omega
          rw [← this, dateOf_of_number (fwdD p r i) (shiftD_valid _ _ _ (dateOf_valid _))]
        · rw [if_neg h2]
    · simp only [List.map_cons, List.map_nil, Int.le_refl, if_true]
      rw [if_neg (by omega)]
  · intro i _
    conv_lhs => rw [h.start]
    apply add_eq_shiftD _ _ _ (dateOf_valid _)
    right; right
    have hq : 0 ≤ r.quantity * (i : Int) := Int.mul_nonneg (by have := h.quantity; omega) (by omega)
    have := shiftD_growth p (r.quantity * (i : Int)) hq (dateOf r.start.ordinal) (dateOf_valid _)
    rw [dateOf_number] at this
    have := Int.mul_nonneg (Int.le_of_lt (minDays_pos p)) hq
    omega

theorem positionsNe_map (o : Int) (n : Nat) (f : Nat → DateT) :
    positionsNe o ((List.range n).map f) = (List.range n).filter (fun j => decide ((f j).ordinal ≠ o)) := by
  unfold positionsNe
  rw [List.length_map, List.length_range, List.map_map]
  apply List.filter_congr
  intro j hj
  have hj' : j < n := List.mem_range.1 hj
  have : (((List.range n).map (DateT.ordinal ∘ f)).getD j o) = (f j).ordinal := by
    rw [List.getD_eq_getElem?_getD, List.getElem?_map, List.getElem?_range hj']
    rfl
  rw [this]

/-- A backward row before trimming (when it exists: going back may leave year 1). -/
theorem backwardRow_eq {p : PeriodType} {rows : List ScheduleRow} {r : ScheduleRow}
    (h : RowOK r) {k : Nat}
    (hk : (k : Int) ≤ scheduleLenUpperBound p rows)
    (hthr : ∀ i, i < k ↔ r.start.ordinal < (bwdD p r i).number) (s : List DateT)
    (hs : backwardRow p (scheduleLenUpperBound p rows) r = .ok s) :
    s = (List.range ((scheduleLenUpperBound p rows).toNat + 1)).map
        (fun j => if (scheduleLenUpperBound p rows).toNat - j < k
          then repr (bwdD p r ((scheduleLenUpperBound p rows).toNat - j)) else r.start) := by
  generalize hub : (scheduleLenUpperBound p rows).toNat = b at *
  have hkb : k ≤ b := by omega
  unfold backwardRow at hs
  rw [hub, bind_ok_iff] at hs
  obtain ⟨l, hl, hs⟩ := hs
  have hl' := mapM_ok_inv _ (fun i : Nat => repr (bwdD p r i)) _ (by
    intro i _ t ht
    have h2 := h.stop
    unfold DateT.sub at ht
    rw [h2] at ht
    exact add_ok_shiftD p _ _ (dateOf_valid _) ht) l hl
  have hs' : s = (r.start :: l).map (fun t => if t.ordinal ≥ r.start.ordinal then t else r.start) := by
    cases hs; rfl
  have clip : ∀ i, (if (repr (bwdD p r i)).ordinal ≥ r.start.ordinal then repr (bwdD p r i) else r.start) =
      (if i < k then repr (bwdD p r i) else r.start) := by
    intro i
    have ho := repr_ordinal (bwdD p r i)
    by_cases h1 : i < k
    · rw [if_pos h1, if_pos (by have := (hthr i).1 h1; omega)]
    · rw [if_neg h1]
      have := mt (hthr i).2 h1
      by_cases h2 : (repr (bwdD p r i)).ordinal ≥ r.start.ordinal
      · rw [if_pos h2, h.start]
        have : (bwdD p r i).number = r.start.ordinal := by omega
        rw [← this, dateOf_of_number (bwdD p r i) (shiftD_valid _ _ _ (dateOf_valid _))]
      · rw [if_neg h2]
  rw [hs', List.range_succ_eq_map, List.map_cons, List.map_cons, hl']
  congr 1
  · rw [if_pos (Int.le_refl _), if_neg (by omega)]
  · rw [List.map_map, List.map_map]
    apply List.ext_getElem
    · simp
    · intro i h1 h2
      simp only [List.length_map, List.length_reverse, List.length_range] at h1 h2
      rw [List.getElem_map, List.getElem_map, List.getElem_reverse, List.getElem_range, List.getElem_range]
      simp only [Function.comp, List.length_range, Nat.succ_eq_add_one]
      rw [show b - (i + 1) = b - 1 - i by omega]
      exact clip _

theorem backwardRow_ok {p : PeriodType} {r : ScheduleRow} (h : RowOK r) (b : Int)
    (hb : p = .MONTH ∨ p = .YEAR ∨ ∀ i : Nat, (i : Int) < b → 0 < (bwdD p r i).number) :
    ∃ s, backwardRow p b r = .ok s := by
  unfold backwardRow
  rw [mapM_ok _ (fun i : Nat => repr (bwdD p r i)), bind_ok]
  · exact ⟨_, rfl⟩
  · intro i hi
    have h2 := h.stop
    unfold DateT.sub
    rw [h2]
    apply add_eq_shiftD _ _ _ (dateOf_valid _)
    rcases hb with rfl | rfl | hb
    · exact Or.inl rfl
    · exact Or.inr (Or.inl rfl)
    · refine Or.inr (Or.inr (hb i ?_))
      rw [List.mem_reverse, List.mem_range] at hi
      omega

/-- Largest element of a list of thresholds. -/
theorem exists_max_threshold {α : Type} (l : List α) (k : α → Nat) (hne : l ≠ []) :
    ∃ a ∈ l, ∀ b ∈ l, k b ≤ k a := by
  induction l with
  | nil => exact absurd rfl hne
  | cons a l ih =>
    cases l with
    | nil => exact ⟨a, List.mem_cons_self, fun b hb => by simp at hb; subst hb; exact Nat.le_refl _⟩
    | cons b l =>
      obtain ⟨c, hc, hmax⟩ := ih (by simp)
      by_cases hca : k c ≤ k a
      · refine ⟨a, List.mem_cons_self, fun x hx => ?_⟩
        rcases List.mem_cons.1 hx with rfl | hx
        · exact Nat.le_refl _
        · exact Nat.le_trans (hmax x hx) hca
      · refine ⟨c, List.mem_cons_of_mem _ hc, fun x hx => ?_⟩
        rcases List.mem_cons.1 hx with rfl | hx
        · omega
        · exact hmax x hx

theorem zip_map_self {α β : Type} (l : List α) (f : α → β) : l.zip (l.map f) = l.map (fun a => (a, f a)) := by
  induction l with
  | nil => rfl
  | cons a l ih => simp [ih]

theorem trimForward_eq {p : PeriodType} {rows : List ScheduleRow} {k : ScheduleRow → Nat} {b : Nat}
    (hk : ∀ r ∈ rows, k r ≤ b)
    (hthr : ∀ r ∈ rows, ∀ i, i < k r ↔ (fwdD p r i).number < r.stop.ordinal)
    {a : ScheduleRow} (ha : a ∈ rows) (hmax : ∀ r ∈ rows, k r ≤ k a) (hpos : 0 < k a) :
    trimForward rows (rows.map (fun r => (List.range (b + 1)).map
        (fun i => if i < k r then repr (fwdD p r i) else r.stop))) =
      rows.map (fun r => (List.range (k a + 1)).map
        (fun i => if i < k r then repr (fwdD p r i) else r.stop)) := by
  unfold trimForward
  rw [zip_map_self, List.flatMap_map]
  have hmem : ∀ r ∈ rows, ∀ j, j ∈ positionsNe r.stop.ordinal ((List.range (b + 1)).map
        (fun i => if i < k r then repr (fwdD p r i) else r.stop)) ↔ j < k r := by
    intro r hr j
    rw [positionsNe_map, List.mem_filter, List.mem_range]
    have := hk r hr
    by_cases hj : j < k r
    · rw [if_pos hj]
      have h1 := (hthr r hr j).1 hj
      have h2 := repr_ordinal (fwdD p r j)
      simp only [hj, iff_true]
      exact ⟨by omega, decide_eq_true (by omega)⟩
    · rw [if_neg hj]; simp [hj]
  have hmx : (rows.flatMap (fun r => positionsNe r.stop.ordinal ((List.range (b + 1)).map
        (fun i => if i < k r then repr (fwdD p r i) else r.stop)))).max? = some (k a - 1) := by
    rw [List.max?_eq_some_iff]
    constructor
    · rw [List.mem_flatMap]
      exact ⟨a, ha, (hmem a ha _).2 (by omega)⟩
    · intro j hj
      rw [List.mem_flatMap] at hj
      obtain ⟨r, hr, hj⟩ := hj
      have := (hmem r hr j).1 hj
      have := hmax r hr
      omega
  rw [hmx]
  simp only
  rw [List.map_map]
  apply List.map_congr_left
  intro r hr
  simp only [Function.comp]
  rw [← List.map_take, List.take_range]
  have := hk a ha
  rw [show min (k a - 1 + 2) (b + 1) = k a + 1 by omega]

theorem trimForward_nil {p : PeriodType} {rows : List ScheduleRow} {b : Nat}
    (hthr : ∀ r ∈ rows, ∀ i, (fwdD p r i).number ≥ r.stop.ordinal) :
    trimForward rows (rows.map (fun r => (List.range (b + 1)).map
        (fun i => if i < 0 then repr (fwdD p r i) else r.stop))) =
      rows.map (fun _ => []) := by
  unfold trimForward
  rw [zip_map_self, List.flatMap_map]
  have : (rows.flatMap (fun r => positionsNe r.stop.ordinal ((List.range (b + 1)).map
        (fun i => if i < 0 then repr (fwdD p r i) else r.stop)))) = [] := by
    rw [List.flatMap_eq_nil_iff]
    intro r hr
    rw [positionsNe_map, List.filter_eq_nil_iff]
    intro j _
    rw [if_neg (by omega)]; simp
  rw [this]
  simp

theorem trimBackward_eq {p : PeriodType} {rows : List ScheduleRow} {k : ScheduleRow → Nat} {b : Nat}
    (hk : ∀ r ∈ rows, k r ≤ b)
    (hthr : ∀ r ∈ rows, ∀ i, i < k r ↔ r.start.ordinal < (bwdD p r i).number)
    {a : ScheduleRow} (ha : a ∈ rows) (hmax : ∀ r ∈ rows, k r ≤ k a) (hpos : 0 < k a) :
    trimBackward rows (rows.map (fun r => (List.range (b + 1)).map
        (fun j => if b - j < k r then repr (bwdD p r (b - j)) else r.start))) =
      rows.map (fun r => (List.range (k a + 1)).map
        (fun i => if k a - i < k r then repr (bwdD p r (k a - i)) else r.start)) := by
  unfold trimBackward
  rw [zip_map_self, List.flatMap_map]
  have hmem : ∀ r ∈ rows, ∀ j, j ∈ positionsNe r.start.ordinal ((List.range (b + 1)).map
        (fun j => if b - j < k r then repr (bwdD p r (b - j)) else r.start)) ↔ j ≤ b ∧ b - j < k r := by
    intro r hr j
    rw [positionsNe_map, List.mem_filter, List.mem_range]
    have := hk r hr
    by_cases hj : b - j < k r
    · rw [if_pos hj]
      have h1 := (hthr r hr (b - j)).1 hj
      have h2 := repr_ordinal (bwdD p r (b - j))
      constructor
      · rintro ⟨h, _⟩; exact ⟨by omega, hj⟩
      · rintro ⟨h, _⟩; exact ⟨by omega, decide_eq_true (by omega)⟩
    · rw [if_neg hj]; simp [hj]
  have hka := hk a ha
  have hmx : (rows.flatMap (fun r => positionsNe r.start.ordinal ((List.range (b + 1)).map
        (fun j => if b - j < k r then repr (bwdD p r (b - j)) else r.start)))).min? = some (b - k a + 1) := by
    rw [List.min?_eq_some_iff]
    constructor
    · rw [List.mem_flatMap]
      exact ⟨a, ha, (hmem a ha _).2 (by omega)⟩
    · intro j hj
      rw [List.mem_flatMap] at hj
      obtain ⟨r, hr, hj⟩ := hj
      have := (hmem r hr j).1 hj
      have := hmax r hr
      omega
  rw [hmx]
  simp only
  rw [List.map_map]
  apply List.map_congr_left
  intro r hr
  simp only [Function.comp]
  rw [if_neg (by omega), ← List.map_drop]
  apply List.ext_getElem
  · simp; omega
  · intro i h1 h2
    simp only [List.length_map, List.length_drop, List.length_range] at h1 h2
    rw [List.getElem_map, List.getElem_map, List.getElem_drop, List.getElem_range, List.getElem_range]
    rw [show b - (b - k a + 1 - 1 + i) = k a - i by omega]

theorem trimBackward_nil {p : PeriodType} {rows : List ScheduleRow} {b : Nat} :
    trimBackward rows (rows.map (fun r => (List.range (b + 1)).map
        (fun j => if b - j < 0 then repr (bwdD p r (b - j)) else r.start))) =
      rows.map (fun _ => []) := by
  unfold trimBackward
  rw [zip_map_self, List.flatMap_map]
  have : (rows.flatMap (fun r => positionsNe r.start.ordinal ((List.range (b + 1)).map
        (fun j => if b - j < 0 then repr (bwdD p r (b - j)) else r.start)))) = [] := by
    rw [List.flatMap_eq_nil_iff]
    intro r hr
    rw [positionsNe_map, List.filter_eq_nil_iff]
    intro j _
    rw [if_neg (by omega)]; simp
  rw [this]
  simp

theorem gen_checks {p : PeriodType} {rows : List ScheduleRow} (h : ∀ r ∈ rows, RowOK r)
    (backward : Bool) :
    genPeriodicSchedule p rows none backward false =
      (if backward then do
        let s ← rows.mapM (backwardRow p (scheduleLenUpperBound p rows))
        return trimBackward rows s
      else do
        let s ← rows.mapM (forwardRow p (scheduleLenUpperBound p rows))
        return trimForward rows s) := by
  have h1 : rows.all (fun r => decide (r.start.ordinal ≤ r.stop.ordinal)) = true := by
    rw [List.all_eq_true]; intro r hr; exact decide_eq_true (h r hr).le
  have h2 : rows.all (fun r => decide (0 < r.quantity)) = true := by
    rw [List.all_eq_true]; intro r hr; exact decide_eq_true (h r hr).quantity
  unfold genPeriodicSchedule
  simp only [h1, h2, Bool.false_and, Bool.false_eq_true, if_false, not_true_eq_false]
  cases backward
  · simp only [Bool.false_eq_true, if_false, pure_bind, bind_pure]
  · simp only [if_true, pure_bind, bind_pure]

theorem gen_forward {p : PeriodType} {rows : List ScheduleRow} (h : ∀ r ∈ rows, RowOK r)
    (hpos : ∀ r ∈ rows, 0 < r.start.ordinal) :
    ∃ k : ScheduleRow → Nat, (∀ r ∈ rows, ∀ i, i < k r ↔ (fwdD p r i).number < r.stop.ordinal) ∧
      ((∀ r ∈ rows, k r = 0) → genPeriodicSchedule p rows none false false = .ok (rows.map (fun _ => []))) ∧
      (∀ a ∈ rows, (∀ r ∈ rows, k r ≤ k a) → 0 < k a →
        genPeriodicSchedule p rows none false false = .ok (rows.map (fun r => (List.range (k a + 1)).map
          (fun i => if i < k r then repr (fwdD p r i) else r.stop)))) := by
  have hex : ∀ r : ScheduleRow, ∃ k : Nat, r ∈ rows → (k : Int) ≤ scheduleLenUpperBound p rows ∧
      ∀ i, i < k ↔ (fwdD p r i).number < r.stop.ordinal := by
    intro r
    by_cases hr : r ∈ rows
    · obtain ⟨k, hk⟩ := fwd_threshold (p := p) hr (h r hr)
      exact ⟨k, fun _ => hk⟩
    · exact ⟨0, fun hh => absurd hh hr⟩
  obtain ⟨k, hk⟩ := Classical.skolem.1 hex
  refine ⟨k, fun r hr => (hk r hr).2, ?_⟩
  have key : genPeriodicSchedule p rows none false false = .ok (trimForward rows (rows.map (fun r =>
      (List.range ((scheduleLenUpperBound p rows).toNat + 1)).map
        (fun i => if i < k r then repr (fwdD p r i) else r.stop)))) := by
    rw [gen_checks h]
    simp only [Bool.false_eq_true, if_false]
    rw [mapM_ok _ _ _ (fun r hr => forwardRow_eq (h r hr) (hpos r hr) (hk r hr).1 (hk r hr).2), bind_ok]
    rfl
  constructor
  · intro h0
    have e : rows.map (fun r => (List.range ((scheduleLenUpperBound p rows).toNat + 1)).map
        (fun i => if i < k r then repr (fwdD p r i) else r.stop)) =
      rows.map (fun r => (List.range ((scheduleLenUpperBound p rows).toNat + 1)).map
        (fun i => if i < 0 then repr (fwdD p r i) else r.stop)) := by
      apply List.map_congr_left
      intro r hr
      rw [h0 r hr]
    rw [key, e, trimForward_nil]
    intro r hr i
    have := mt ((hk r hr).2 i).2 (by rw [h0 r hr]; omega)
    omega
  · intro a ha hmax hp
    rw [key, trimForward_eq (fun r hr => by have := (hk r hr).1; omega) (fun r hr => (hk r hr).2) ha hmax hp]

theorem gen_backward {p : PeriodType} {rows : List ScheduleRow} (h : ∀ r ∈ rows, RowOK r)
    {res : List (List DateT)} (hres : genPeriodicSchedule p rows none true false = .ok res) :
    ∃ k : ScheduleRow → Nat, (∀ r ∈ rows, ∀ i, i < k r ↔ r.start.ordinal < (bwdD p r i).number) ∧
      ((∀ r ∈ rows, k r = 0) → res = rows.map (fun _ => [])) ∧
      (∀ a ∈ rows, (∀ r ∈ rows, k r ≤ k a) → 0 < k a →
        res = rows.map (fun r => (List.range (k a + 1)).map
          (fun i => if k a - i < k r then repr (bwdD p r (k a - i)) else r.start))) := by
  have hex : ∀ r : ScheduleRow, ∃ k : Nat, r ∈ rows → (k : Int) ≤ scheduleLenUpperBound p rows ∧
      ∀ i, i < k ↔ r.start.ordinal < (bwdD p r i).number := by
    intro r
    by_cases hr : r ∈ rows
    · obtain ⟨k, hk⟩ := bwd_threshold (p := p) hr (h r hr)
      exact ⟨k, fun _ => hk⟩
    · exact ⟨0, fun hh => absurd hh hr⟩
  obtain ⟨k, hk⟩ := Classical.skolem.1 hex
  refine ⟨k, fun r hr => (hk r hr).2, ?_⟩
  have key : res = trimBackward rows (rows.map (fun r =>
      (List.range ((scheduleLenUpperBound p rows).toNat + 1)).map
        (fun j => if (scheduleLenUpperBound p rows).toNat - j < k r
          then repr (bwdD p r ((scheduleLenUpperBound p rows).toNat - j)) else r.start))) := by
    rw [gen_checks h] at hres
    simp only [if_true] at hres
    rw [bind_ok_iff] at hres
    obtain ⟨s, hs, hres⟩ := hres
    have := mapM_ok_inv _ _ _ (fun r hr => backwardRow_eq (h r hr) (hk r hr).1 (hk r hr).2) s hs
    rw [← this]
    cases hres; rfl
  constructor
  · intro h0
    have e : rows.map (fun r => (List.range ((scheduleLenUpperBound p rows).toNat + 1)).map
        (fun j => if (scheduleLenUpperBound p rows).toNat - j < k r
          then repr (bwdD p r ((scheduleLenUpperBound p rows).toNat - j)) else r.start)) =
      rows.map (fun r => (List.range ((scheduleLenUpperBound p rows).toNat + 1)).map
        (fun j => if (scheduleLenUpperBound p rows).toNat - j < 0
          then repr (bwdD p r ((scheduleLenUpperBound p rows).toNat - j)) else r.start)) := by
      apply List.map_congr_left
      intro r hr
      rw [h0 r hr]
    rw [key, e, trimBackward_nil]
  · intro a ha hmax hp
    rw [key, trimBackward_eq (fun r hr => by have := (hk r hr).1; omega) (fun r hr => (hk r hr).2) ha hmax hp]

theorem gen_backward_ok {p : PeriodType} {rows : List ScheduleRow} (h : ∀ r ∈ rows, RowOK r)
    (hb : p = .MONTH ∨ p = .YEAR ∨ ∀ r ∈ rows, ∀ i : Nat, (i : Int) < scheduleLenUpperBound p rows →
      0 < (bwdD p r i).number) :
    ∃ res, genPeriodicSchedule p rows none true false = .ok res := by
  rw [gen_checks h]
  simp only [if_true]
  have hex : ∀ r : ScheduleRow, ∃ s, r ∈ rows → backwardRow p (scheduleLenUpperBound p rows) r = .ok s := by
    intro r
    by_cases hr : r ∈ rows
    · obtain ⟨s, hs⟩ := backwardRow_ok (p := p) (h r hr) (scheduleLenUpperBound p rows) (by
        rcases hb with hb | hb | hb
        · exact Or.inl hb
        · exact Or.inr (Or.inl hb)
        · exact Or.inr (Or.inr (hb r hr)))
      exact ⟨s, fun _ => hs⟩
    · exact ⟨[], fun hh => absurd hh hr⟩
  obtain ⟨s, hs⟩ := Classical.skolem.1 hex
  rw [mapM_ok _ s _ hs, bind_ok]
  exact ⟨_, rfl⟩

end Lemmas
