import Verif.Lemmas.RankSelect
import Verif.Lemmas.DateTensor

/-! Helper lemmas about the table based calendar. -/

namespace Lemmas
open Model Spec

theorem bind_ok {α β : Type} (a : α) (f : α → Except String β) :
    ((Except.ok a : Except String α) >>= f) = f a := rfl

theorem bind_error {α β : Type} (e : String) (f : α → Except String β) :
    ((Except.error e : Except String α) >>= f) = .error e := rfl

/-- A well formed calendar state. -/
structure CalOK (c : BoundedCal) : Prop where
  len : c.mask.length = 7
  bits : ∀ m ∈ c.mask, m = 0 ∨ m = 1
  nodup : c.holidays.Nodup
  size : 0 ≤ c.size

def calB (c : BoundedCal) (o : Int) : Prop := IsBusinessDay c.mask c.holidays o

instance (c : BoundedCal) : DecidablePred (calB c) := fun o => by unfold calB; infer_instance

/-- Table position predicate. -/
def calP (c : BoundedCal) (k : Nat) : Bool :=
  decide (k = 0 ∨ k = c.size.toNat + 1 ∨ calB c (c.offset + k - 1))

/-- Business day or one of the two sentinel days around the calendar. -/
def calE (c : BoundedCal) (o : Int) : Prop :=
  c.offset - 1 ≤ o ∧ o ≤ c.offset + c.size ∧ (o = c.offset - 1 ∨ o = c.offset + c.size ∨ calB c o)

theorem weekday_lt (o : Int) : weekday o < 7 := by unfold weekday; omega

theorem isHoliday_eq {c : BoundedCal} (h : CalOK c) (o : Int) :
    c.isHoliday o = if calB c o then 0 else 1 := by
  have hw := weekday_lt o
  have hl := h.len
  have hg : c.mask[weekday o]? = some (c.mask.getD (weekday o) 0) := by
    rw [List.getElem?_eq_getElem (by omega)]
    simp [List.getD_eq_getElem?_getD, List.getElem?_eq_getElem (show weekday o < c.mask.length by omega)]
  have hb := h.bits (c.mask.getD (weekday o) 0) (List.mem_of_getElem? hg)
  have hc : c.holidays.count o = if o ∈ c.holidays then 1 else 0 := by
    split
    · rename_i hm; exact by rw [h.nodup.count, if_pos hm]
    · rename_i hm; exact List.count_eq_zero_of_not_mem hm
  have hB : calB c o ↔ c.mask.getD (weekday o) 0 = 0 ∧ o ∉ c.holidays := by
    unfold calB IsBusinessDay
    rw [hg, Option.some_inj]
  unfold BoundedCal.isHoliday
  simp only [hB]
  change (c.mask.getD (weekday o) 0) ||| _ = _
  rw [hc]
  clear hB hg
  generalize c.mask.getD (weekday o) 0 = m at hb
  rcases hb with rfl | rfl <;> by_cases hm : o ∈ c.holidays <;> simp [hm]

theorem table_length (c : BoundedCal) : c.isBusDayTable.length = c.size.toNat + 2 := by
  simp [BoundedCal.isBusDayTable]

theorem table_get {c : BoundedCal} (h : CalOK c) (k : Nat) (hk : k < c.size.toNat + 2) :
    c.isBusDayTable[k]? = some (if calP c k then 1 else 0) := by
  unfold BoundedCal.isBusDayTable
  rcases Nat.eq_zero_or_pos k with rfl | hk0
  · simp [calP]
  · obtain ⟨j, rfl⟩ : ∃ j, k = j + 1 := ⟨k - 1, by omega⟩
    rw [List.append_assoc, List.singleton_append, List.getElem?_cons_succ]
    rw [List.getElem?_append]
    simp only [List.length_map, List.length_range]
    split
    · rename_i hj
      rw [List.getElem?_map, List.getElem?_range hj, Option.map_some, isHoliday_eq h]
      congr 1
      have e : c.offset + ((j + 1 : Nat) : Int) - 1 = c.offset + (j : Int) := by omega
      have : calP c (j + 1) = decide (calB c (c.offset + (j : Int))) := by
        unfold calP
        rw [e]
        simp only [decide_eq_decide]
        constructor
        · rintro (h | h | h)
          · omega
          · omega
          · exact h
        · intro h; exact Or.inr (Or.inr h)
      rw [this]
      by_cases hb : calB c (c.offset + (j : Int)) <;> simp [hb]
    · rename_i hj
      have : j = c.size.toNat := by omega
      subst this
      simp [calP]

theorem cumul_get {c : BoundedCal} (h : CalOK c) (k : Nat) (hk : k < c.size.toNat + 2) :
    c.cumulBusDaysTable[k]? = some (rank (calP c) k : Int) := by
  unfold BoundedCal.cumulBusDaysTable
  rw [cumsumExclusive_getElem?, if_pos (by rw [table_length]; exact hk)]
  congr 1
  apply sum_take_rank
  · intro j hj
    rw [table_length] at hj
    exact table_get h j hj
  · rw [table_length]; omega

theorem ordinals_get {c : BoundedCal} (h : CalOK c) (k : Nat) (o : Int) :
    c.busDayOrdinalsTable[k]? = some o ↔
      ∃ j : Nat, o = j + c.offset - 1 ∧ j < c.size.toNat + 2 ∧ calP c j = true ∧
        rank (calP c) j = k := by
  unfold BoundedCal.busDayOrdinalsTable BoundedCal.whereNonzero
  have : (List.range c.isBusDayTable.length).filter (fun k => c.isBusDayTable.getD k 0 != 0)
      = (List.range (c.size.toNat + 2)).filter (calP c) := by
    rw [table_length]
    apply List.filter_congr
    intro k hk
    rw [List.mem_range] at hk
    rw [List.getD_eq_getElem?_getD, table_get h k hk]
    by_cases hp : calP c k <;> simp [hp]
  rw [this, List.map_map, List.getElem?_map]
  constructor
  · intro he
    cases hj : ((List.range (c.size.toNat + 2)).filter (calP c))[k]? with
    | none => rw [hj] at he; cases he
    | some j =>
      rw [hj] at he
      obtain ⟨a, b, e⟩ := (select_iff _ _ _ _).1 hj
      refine ⟨j, ?_, a, b, e⟩
      simp at he; omega
  · rintro ⟨j, e, a, b, cc⟩
    rw [(select_iff (calP c) _ k j).2 ⟨a, b, cc⟩, e]
    simp

/-- Index of an ordinal. -/
theorem calP_index {c : BoundedCal} (h : CalOK c) {o : Int} (h1 : c.offset - 1 ≤ o)
    (h2 : o ≤ c.offset + c.size) : calP c (o - c.offset + 1).toNat = true ↔ calE c o := by
  have := h.size
  unfold calP calE
  have e : c.offset + ((o - c.offset + 1).toNat : Int) - 1 = o := by omega
  rw [decide_eq_true_iff, e]
  constructor
  · rintro (x | x | x)
    · exact ⟨h1, h2, Or.inl (by omega)⟩
    · exact ⟨h1, h2, Or.inr (Or.inl (by omega))⟩
    · exact ⟨h1, h2, Or.inr (Or.inr x)⟩
  · rintro ⟨_, _, x | x | x⟩
    · exact Or.inl (by omega)
    · exact Or.inr (Or.inl (by omega))
    · exact Or.inr (Or.inr x)

/-- Rank of an ordinal. -/
def calR (c : BoundedCal) (o : Int) : Nat := rank (calP c) (o - c.offset + 1).toNat

theorem calR_mono {c : BoundedCal} {a b : Int} (h : a ≤ b) : calR c a ≤ calR c b := by
  apply rank_mono; omega

theorem calR_lt {c : BoundedCal} (h : CalOK c) {a b x : Int} (h1 : a ≤ x) (h2 : x < b)
    (hx : calE c x) : calR c a < calR c b := by
  refine rank_lt _ (x := (x - c.offset + 1).toNat) ?_ ?_ ?_
  · omega
  · have := hx.1; omega
  · exact (calP_index h hx.1 hx.2.1).2 hx

theorem calR_succ {c : BoundedCal} (h : CalOK c) {x : Int} (h1 : c.offset ≤ x)
    (h2 : x < c.offset + c.size) :
    (calR c (x + 1) : Int) = calR c x + (if calB c x then 1 else 0) := by
  unfold calR
  rw [show (x + 1 - c.offset + 1).toNat = (x - c.offset + 1).toNat + 1 by omega, rank_succ]
  have := calP_index h (show c.offset - 1 ≤ x by omega) (show x ≤ c.offset + c.size by omega)
  have hE : calE c x ↔ calB c x := by
    unfold calE
    constructor
    · rintro ⟨_, _, x | x | x⟩
      · omega
      · omega
      · exact x
    · intro hb; exact ⟨by omega, by omega, Or.inr (Or.inr hb)⟩
  rw [hE] at this
  by_cases hb : calB c x
  · rw [if_pos (this.2 hb), if_pos hb]; simp
  · rw [if_neg (fun hp => hb (this.1 hp)), if_neg hb]; simp

theorem countIn_calR {c : BoundedCal} (h : CalOK c) {a b : Int} (h1 : c.offset ≤ a)
    (h2 : b ≤ c.offset + c.size) (hab : a ≤ b) :
    (countIn (calB c) a b : Int) = calR c b - calR c a :=
  countIn_unique (calB c) (fun x => (calR c x : Int)) c.offset (c.offset + c.size)
    (fun _ hx1 hx2 => calR_succ h hx1 hx2) h1 h2 hab

theorem table_gather {c : BoundedCal} (h : CalOK c) {o : Int} (h1 : c.offset - 1 ≤ o)
    (h2 : o ≤ c.offset + c.size) (v : Int) :
    gather c.isBusDayTable (o - c.offset + 1) = .ok v ↔ (calE c o ∧ v = 1) ∨ (¬ calE c o ∧ v = 0) := by
  have := h.size
  rw [gather_ok_iff, table_get h _ (by omega)]
  by_cases hE : calE c o
  · rw [if_pos ((calP_index h h1 h2).2 hE)]
    simp [hE]
    constructor
    · rintro ⟨_, rfl⟩; rfl
    · rintro rfl; exact ⟨by omega, rfl⟩
  · rw [if_neg (fun hp => hE ((calP_index h h1 h2).1 hp))]
    simp [hE]
    constructor
    · rintro ⟨_, rfl⟩; rfl
    · rintro rfl; exact ⟨by omega, rfl⟩

theorem cumul_gather {c : BoundedCal} (h : CalOK c) {o : Int} (h1 : c.offset - 1 ≤ o)
    (h2 : o ≤ c.offset + c.size) :
    gather c.cumulBusDaysTable (o - c.offset + 1) = .ok (calR c o : Int) := by
  have := h.size
  rw [gather_ok_iff]
  exact ⟨by omega, cumul_get h _ (by omega)⟩

theorem ordinals_gather {c : BoundedCal} (h : CalOK c) (k o : Int) :
    gather c.busDayOrdinalsTable k = .ok o ↔ calE c o ∧ (calR c o : Int) = k := by
  have := h.size
  rw [gather_ok_iff, ordinals_get h]
  constructor
  · rintro ⟨hk, j, rfl, hj, hp, hr⟩
    have e : ((j : Int) + c.offset - 1 - c.offset + 1).toNat = j := by omega
    refine ⟨(calP_index h (by omega) (by omega)).1 (by rw [e]; exact hp), ?_⟩
    unfold calR
    rw [e, hr]; omega
  · rintro ⟨hE, hr⟩
    have := hE.1; have := hE.2.1
    exact ⟨by omega, (o - c.offset + 1).toNat, by omega, by omega,
      (calP_index h hE.1 hE.2.1).2 hE, by unfold calR at hr; omega⟩

theorem calE_last {c : BoundedCal} (h : CalOK c) : calE c (c.offset + c.size) :=
  ⟨by have := h.size; omega, by omega, Or.inr (Or.inl rfl)⟩

theorem calE_first {c : BoundedCal} (h : CalOK c) : calE c (c.offset - 1) :=
  ⟨by omega, by have := h.size; omega, Or.inl rfl⟩

theorem first_iff_rank {c : BoundedCal} (h : CalOK c) {d r : Int} (hE : calE c r) :
    calR c r = calR c d ∧ (d ≤ c.offset + c.size) ∧ c.offset - 1 ≤ d → FirstOnOrAfter (calE c) d r := by
  rintro ⟨e, h2, h1⟩
  refine ⟨?_, hE, ?_⟩
  · by_contra hlt
    have := calR_lt h (Int.le_refl r) (show r < d by omega) hE
    omega
  · intro x hx1 hx2 hx
    have := calR_lt h hx1 hx2 hx
    omega

theorem first_rank {c : BoundedCal} (h : CalOK c) {d r : Int} (h1 : c.offset - 1 ≤ d)
    (hf : FirstOnOrAfter (calE c) d r) : calR c r = calR c d := by
  obtain ⟨hdr, hE, hn⟩ := hf
  symm
  apply rank_eq_of_none _ (by omega)
  intro x hx1 hx2
  have := hE.2.1
  have hq := calP_index h (o := c.offset - 1 + x) (by omega) (by omega)
  rw [show (c.offset - 1 + (x : Int) - c.offset + 1).toNat = x by omega] at hq
  cases hp : calP c x
  · rfl
  · exact absurd (hq.1 hp) (hn _ (by omega) (by omega))

/-- FOLLOWING table entry. -/
theorem following_iff {c : BoundedCal} (h : CalOK c) {d : Int} (h1 : c.offset - 1 ≤ d)
    (h2 : d ≤ c.offset + c.size) (r : Int) :
    c.followingEntry (d - c.offset + 1) = .ok r ↔ FirstOnOrAfter (calE c) d r := by
  unfold BoundedCal.followingEntry
  rw [cumul_gather h h1 h2]
  rw [bind_ok, ordinals_gather h]
  constructor
  · rintro ⟨hE, hr⟩
    exact first_iff_rank h hE ⟨by omega, h2, h1⟩
  · intro hf
    exact ⟨hf.2.1, by rw [first_rank h h1 hf]⟩

theorem exists_first {B : Int → Prop} (d : Int) (n : Nat) (h : ∃ x, d ≤ x ∧ x < d + n ∧ B x) :
    ∃ r, FirstOnOrAfter B d r ∧ r < d + n := by
  induction n generalizing d with
  | zero => obtain ⟨x, h1, h2, _⟩ := h; omega
  | succ n ih =>
    by_cases hd : B d
    · exact ⟨d, ⟨Int.le_refl d, hd, fun x a b => by omega⟩, by omega⟩
    · obtain ⟨x, h1, h2, hx⟩ := h
      have hne : x ≠ d := by rintro rfl; exact hd hx
      obtain ⟨r, ⟨a, b, e⟩, f⟩ := ih (d + 1) ⟨x, by omega, by omega, hx⟩
      refine ⟨r, ⟨by omega, b, fun y hy1 hy2 => ?_⟩, by omega⟩
      by_cases hyd : y = d
      · subst hyd; exact hd
      · exact e y (by omega) hy2

theorem exists_last {B : Int → Prop} (d : Int) (n : Nat) (h : ∃ x, x ≤ d ∧ d - n < x ∧ B x) :
    ∃ r, LastOnOrBefore B d r ∧ d - n < r := by
  have := exists_first (B := fun x => B (-x)) (-d) n (by
    obtain ⟨x, a, b, e⟩ := h
    exact ⟨-x, by omega, by omega, by show B (- -x); rwa [Int.neg_neg]⟩)
  obtain ⟨r, ⟨a, b, e⟩, f⟩ := this
  refine ⟨-r, ⟨by omega, b, fun x hx1 hx2 hx => e (-x) (by omega) (by omega) (by show B (- -x); rwa [Int.neg_neg])⟩, by omega⟩

theorem first_unique {B : Int → Prop} {d r s : Int} (h : FirstOnOrAfter B d r)
    (h' : FirstOnOrAfter B d s) : r = s := by
  obtain ⟨a, b, e⟩ := h
  obtain ⟨a', b', e'⟩ := h'
  by_contra hne
  rcases Int.lt_or_gt_of_ne hne with hl | hl
  · exact e' r a hl b
  · exact e s a' hl b'

theorem last_unique {B : Int → Prop} {d r s : Int} (h : LastOnOrBefore B d r)
    (h' : LastOnOrBefore B d s) : r = s := by
  obtain ⟨a, b, e⟩ := h
  obtain ⟨a', b', e'⟩ := h'
  by_contra hne
  rcases Int.lt_or_gt_of_ne hne with hl | hl
  · exact e s hl a' b'
  · exact e' r hl a b

theorem following_exists {c : BoundedCal} (h : CalOK c) {d : Int}
    (h2 : d ≤ c.offset + c.size) : ∃ r, FirstOnOrAfter (calE c) d r := by
  obtain ⟨r, hr, _⟩ := exists_first (B := calE c) d (c.offset + c.size - d + 1).toNat
    ⟨c.offset + c.size, h2, by omega, calE_last h⟩
  exact ⟨r, hr⟩

theorem preceding_exists {c : BoundedCal} (h : CalOK c) {d : Int}
    (h1 : c.offset - 1 ≤ d) : ∃ r, LastOnOrBefore (calE c) d r := by
  obtain ⟨r, hr, _⟩ := exists_last (B := calE c) d (d - (c.offset - 1) + 1).toNat
    ⟨c.offset - 1, h1, by omega, calE_first h⟩
  exact ⟨r, hr⟩

/-- PRECEDING table entry. -/
theorem preceding_iff {c : BoundedCal} (h : CalOK c) {d : Int} (h1 : c.offset - 1 ≤ d)
    (h2 : d ≤ c.offset + c.size) (r : Int) :
    c.precedingEntry (d - c.offset + 1) = .ok r ↔ LastOnOrBefore (calE c) d r := by
  have hsz := h.size
  unfold BoundedCal.precedingEntry
  rw [cumul_gather h h1 h2]
  by_cases hE : calE c d
  · rw [(table_gather h h1 h2 1).2 (Or.inl ⟨hE, rfl⟩)]
    rw [bind_ok, bind_ok, ordinals_gather h]
    constructor
    · rintro ⟨hEr, hr⟩
      have hrd : r = d := by
        by_contra hne
        rcases Int.lt_or_gt_of_ne hne with hl | hl
        · have := calR_lt h (Int.le_refl r) hl hEr; omega
        · have := calR_lt h (Int.le_refl d) hl hE; omega
      subst hrd
      exact ⟨Int.le_refl r, hE, fun x a b => by omega⟩
    · intro hl
      have : r = d := last_unique hl ⟨Int.le_refl d, hE, fun x a b => by omega⟩
      subst this
      exact ⟨hE, by omega⟩
  · rw [(table_gather h h1 h2 0).2 (Or.inr ⟨hE, rfl⟩)]
    rw [bind_ok, bind_ok, ordinals_gather h]
    have key : ∀ s, LastOnOrBefore (calE c) d s → (calR c s : Int) = calR c d - (1 - 0) := by
      rintro s ⟨a, b, e⟩
      have hne : s ≠ d := by rintro rfl; exact hE b
      have hf : FirstOnOrAfter (calE c) (s + 1) d → True := fun _ => trivial
      have h3 : calR c (s + 1) = calR c s + 1 := by
        unfold calR
        have := b.1
        rw [show (s + 1 - c.offset + 1).toNat = (s - c.offset + 1).toNat + 1 by omega, rank_succ,
          if_pos ((calP_index h b.1 b.2.1).2 b)]
      have h4 : calR c (s + 1) = calR c d := by
        apply rank_eq_of_none _ (by omega)
        intro x hx1 hx2
        have := b.1
        have hq := calP_index h (o := c.offset - 1 + x) (by omega) (by omega)
        rw [show (c.offset - 1 + (x : Int) - c.offset + 1).toNat = x by omega] at hq
        cases hp : calP c x
        · rfl
        · exact absurd (hq.1 hp) (e _ (by omega) (by omega))
      omega
    constructor
    · rintro ⟨hEr, hr⟩
      obtain ⟨s, hs⟩ := preceding_exists h h1
      have hk := key s hs
      have : r = s := by
        by_contra hne
        rcases Int.lt_or_gt_of_ne hne with hl | hl
        · have := calR_lt h (Int.le_refl r) hl hEr; omega
        · have := calR_lt h (Int.le_refl s) hl hs.2.1; omega
      rw [this]; exact hs
    · intro hl; exact ⟨hl.2.1, key r hl⟩

end Lemmas
