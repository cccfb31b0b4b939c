import Verif.Lemmas.SameMonth

/-! Rolling, adding and counting with the table based calendar. -/

namespace Lemmas
open Model Spec

def inb (c : BoundedCal) (o : Int) : Prop := c.offset ≤ o ∧ o < c.offset + c.size

/-- Business days within the calendar. -/
def calBB (c : BoundedCal) (o : Int) : Prop := inb c o ∧ calB c o

theorem assertInBounds_ok (c : BoundedCal) (o : Int) (h : inb c o) :
    c.assertInBounds o = .ok () := by
  unfold BoundedCal.assertInBounds; rw [if_neg (by have := h.1; omega), if_neg (by have := h.2; omega)]

theorem assertInBounds_error (c : BoundedCal) (o : Int) (h : ¬ inb c o) :
    c.assertInBounds o = .error "Went out of calendar boundaries!" := by
  unfold BoundedCal.assertInBounds inb at *
  split
  · rfl
  · rw [if_pos (by omega)]

theorem gatherTable_in {c : BoundedCal} (t : List Int) (i : Int) (h1 : 0 ≤ i) (h2 : i < c.size + 2) :
    c.gatherTable t i = gather t i := by
  unfold BoundedCal.gatherTable; rw [if_neg (by omega), if_neg (by omega)]

theorem gatherTable_out {c : BoundedCal} (t : List Int) (i : Int) (h : ¬ (0 ≤ i ∧ i < c.size + 2)) :
    c.gatherTable t i = .error "Went out of calendar boundaries!" := by
  unfold BoundedCal.gatherTable
  split
  · rfl
  · rw [if_pos (by omega)]

theorem bind_ok_iff {α β : Type} (x : Except String α) (f : α → Except String β) (b : β) :
    (x >>= f) = .ok b ↔ ∃ a, x = .ok a ∧ f a = .ok b := by
  cases x with
  | error e =>
    rw [bind_error]
    constructor
    · intro h; cases h
    · rintro ⟨a, h, _⟩; cases h
  | ok a =>
    rw [bind_ok]
    constructor
    · intro h; exact ⟨a, rfl, h⟩
    · rintro ⟨a', h, h'⟩; cases h; exact h'

theorem assertInBounds_ok_iff (c : BoundedCal) (o : Int) (u : Unit) :
    c.assertInBounds o = .ok u ↔ inb c o := by
  by_cases h : inb c o
  · simp [h, assertInBounds_ok c o h]
  · rw [assertInBounds_error c o h]; simp [h]

theorem roll_ok_iff (c : BoundedCal) (t t' : DateT) (conv : BusinessDayConvention)
    (hc : conv ≠ .NONE) :
    c.roll t conv = .ok t' ↔ c.offset - 1 ≤ t.ordinal ∧ t.ordinal ≤ c.offset + c.size ∧
      ∃ r, c.rolledEntry conv (t.ordinal - c.offset + 1) = .ok r ∧ inb c r ∧ t' = repr (dateOf r) := by
  have key : c.roll t conv = (do
    let i := t.ordinal - c.offset + 1
    if ¬ (0 ≤ i) then throw "Went out of calendar boundaries!"
    if ¬ (i < c.size + 2) then throw "Went out of calendar boundaries!"
    let r ← c.rolledEntry conv i
    c.assertInBounds r
    fromOrdinals r (validate := false)) := by
    unfold BoundedCal.roll
    cases conv <;> first | contradiction | rfl
  rw [key]
  by_cases h1 : 0 ≤ t.ordinal - c.offset + 1
  · by_cases h2 : t.ordinal - c.offset + 1 < c.size + 2
    · simp only [h1, h2, not_true_eq_false, if_false]
      rw [bind_ok_iff]
      constructor
      · rintro ⟨r, hr, hh⟩
        rw [bind_ok_iff] at hh
        obtain ⟨u, hu, hh⟩ := hh
        rw [assertInBounds_ok_iff] at hu
        rw [fromOrdinals_unchecked] at hh
        cases hh
        exact ⟨by omega, by omega, r, hr, hu, rfl⟩
      · rintro ⟨_, _, r, hr, hu, rfl⟩
        refine ⟨r, hr, ?_⟩
        rw [bind_ok_iff]
        exact ⟨(), (assertInBounds_ok_iff _ _ _).2 hu, fromOrdinals_unchecked r⟩
    · simp only [h1, h2, not_true_eq_false, if_false, not_false_eq_true, if_true]
      constructor
      · intro h; cases h
      · rintro ⟨_, h, _⟩; omega
  · simp only [h1, not_false_eq_true, if_true]
    constructor
    · intro h; cases h
    · rintro ⟨h, _⟩; omega

theorem calE_of_inb {c : BoundedCal} {x : Int} (h : inb c x) : calE c x ↔ calBB c x := by
  unfold calE calBB inb at *
  constructor
  · rintro ⟨_, _, x | x | x⟩
    · omega
    · omega
    · exact ⟨h, x⟩
  · rintro ⟨_, hb⟩; exact ⟨by omega, by omega, Or.inr (Or.inr hb)⟩

theorem not_inb_sentinel {c : BoundedCal} {x : Int} (h : ¬ inb c x) (h1 : c.offset - 1 ≤ x)
    (h2 : x ≤ c.offset + c.size) : calE c x := by
  unfold inb at h
  exact ⟨h1, h2, by omega⟩

theorem first_E_iff {c : BoundedCal} {d r : Int} (h1 : c.offset - 1 ≤ d)
    (h2 : d ≤ c.offset + c.size) :
    (FirstOnOrAfter (calE c) d r ∧ inb c r) ↔ (inb c d ∧ FirstOnOrAfter (calBB c) d r) := by
  constructor
  · rintro ⟨⟨a, b, e⟩, hr⟩
    have hd : inb c d := by
      by_contra hd
      have hE := not_inb_sentinel hd h1 h2
      rcases Int.lt_or_eq_of_le a with hl | rfl
      · exact e d (Int.le_refl d) hl hE
      · exact hd hr
    refine ⟨hd, a, (calE_of_inb hr).1 b, fun x hx1 hx2 hx => e x hx1 hx2 ((calE_of_inb hx.1).2 hx)⟩
  · rintro ⟨hd, a, b, e⟩
    refine ⟨⟨a, (calE_of_inb b.1).2 b, fun x hx1 hx2 hx => e x hx1 hx2 ((calE_of_inb ?_).1 hx)⟩, b.1⟩
    have := b.1.2; have := hd.1
    exact ⟨by omega, by omega⟩

theorem last_E_iff {c : BoundedCal} {d r : Int} (h1 : c.offset - 1 ≤ d)
    (h2 : d ≤ c.offset + c.size) :
    (LastOnOrBefore (calE c) d r ∧ inb c r) ↔ (inb c d ∧ LastOnOrBefore (calBB c) d r) := by
  constructor
  · rintro ⟨⟨a, b, e⟩, hr⟩
    have hd : inb c d := by
      by_contra hd
      have hE := not_inb_sentinel hd h1 h2
      rcases Int.lt_or_eq_of_le a with hl | rfl
      · exact e d hl (Int.le_refl d) hE
      · exact hd hr
    refine ⟨hd, a, (calE_of_inb hr).1 b, fun x hx1 hx2 hx => e x hx1 hx2 ((calE_of_inb hx.1).2 hx)⟩
  · rintro ⟨hd, a, b, e⟩
    refine ⟨⟨a, (calE_of_inb b.1).2 b, fun x hx1 hx2 hx => e x hx1 hx2 ((calE_of_inb ?_).1 hx)⟩, b.1⟩
    have := b.1.1; have := hd.2
    exact ⟨by omega, by omega⟩

theorem roll_following {c : BoundedCal} (h : CalOK c) (t t' : DateT) :
    c.roll t .FOLLOWING = .ok t' ↔ inb c t.ordinal ∧
      ∃ r, FirstOnOrAfter (calBB c) t.ordinal r ∧ t' = repr (dateOf r) := by
  rw [roll_ok_iff _ _ _ _ (by decide)]
  constructor
  · rintro ⟨h1, h2, r, hr, hi, rfl⟩
    have hr' : c.followingEntry (t.ordinal - c.offset + 1) = .ok r := hr
    rw [following_iff h h1 h2] at hr'
    obtain ⟨a, b⟩ := (first_E_iff h1 h2).1 ⟨hr', hi⟩
    exact ⟨a, r, b, rfl⟩
  · rintro ⟨hi, r, hf, rfl⟩
    have h1 : c.offset - 1 ≤ t.ordinal := by have := hi.1; omega
    have h2 : t.ordinal ≤ c.offset + c.size := by have := hi.2; omega
    obtain ⟨a, b⟩ := (first_E_iff h1 h2).2 ⟨hi, hf⟩
    exact ⟨h1, h2, r, (following_iff h h1 h2 r).2 a, b, rfl⟩

theorem roll_preceding {c : BoundedCal} (h : CalOK c) (t t' : DateT) :
    c.roll t .PRECEDING = .ok t' ↔ inb c t.ordinal ∧
      ∃ r, LastOnOrBefore (calBB c) t.ordinal r ∧ t' = repr (dateOf r) := by
  rw [roll_ok_iff _ _ _ _ (by decide)]
  constructor
  · rintro ⟨h1, h2, r, hr, hi, rfl⟩
    have hr' : c.precedingEntry (t.ordinal - c.offset + 1) = .ok r := hr
    rw [preceding_iff h h1 h2] at hr'
    obtain ⟨a, b⟩ := (last_E_iff h1 h2).1 ⟨hr', hi⟩
    exact ⟨a, r, b, rfl⟩
  · rintro ⟨hi, r, hf, rfl⟩
    have h1 : c.offset - 1 ≤ t.ordinal := by have := hi.1; omega
    have h2 : t.ordinal ≤ c.offset + c.size := by have := hi.2; omega
    obtain ⟨a, b⟩ := (last_E_iff h1 h2).2 ⟨hi, hf⟩
    exact ⟨h1, h2, r, (preceding_iff h h1 h2 r).2 a, b, rfl⟩

theorem repr_month (o : Int) : (repr (dateOf o)).month = (dateOf o).month := rfl

/-- Entry of the MODIFIED_FOLLOWING table. -/
theorem modFollowing_entry {c : BoundedCal} (h : CalOK c) (h0 : 1 < c.offset) {d f p : Int}
    (h1 : c.offset - 1 ≤ d) (h2 : d ≤ c.offset + c.size) (hf : FirstOnOrAfter (calE c) d f)
    (hp : LastOnOrBefore (calE c) d p) :
    c.rolledEntry .MODIFIED_FOLLOWING (d - c.offset + 1) =
      .ok (if (dateOf f).month = (dateOf d).month then f else p) := by
  have := hf.2.1.1
  have := hp.2.1.1
  show (fromOrdinals (c.offset - 1) >>= fun _ => _) = _
  rw [fromOrdinals_pos _ (by omega), bind_ok, (following_iff h h1 h2 f).2 hf, bind_ok,
    (preceding_iff h h1 h2 p).2 hp, bind_ok, fromOrdinals_pos f (by omega), bind_ok,
    fromOrdinals_pos p (by omega), bind_ok,
    show c.offset - 1 + (d - c.offset + 1) = d by omega, fromOrdinals_pos d (by omega), bind_ok]
  rfl

theorem modPreceding_entry {c : BoundedCal} (h : CalOK c) (h0 : 1 < c.offset) {d f p : Int}
    (h1 : c.offset - 1 ≤ d) (h2 : d ≤ c.offset + c.size) (hf : FirstOnOrAfter (calE c) d f)
    (hp : LastOnOrBefore (calE c) d p) :
    c.rolledEntry .MODIFIED_PRECEDING (d - c.offset + 1) =
      .ok (if (dateOf p).month = (dateOf d).month then p else f) := by
  have := hf.2.1.1
  have := hp.2.1.1
  show (fromOrdinals (c.offset - 1) >>= fun _ => _) = _
  rw [fromOrdinals_pos _ (by omega), bind_ok, (following_iff h h1 h2 f).2 hf, bind_ok,
    (preceding_iff h h1 h2 p).2 hp, bind_ok, fromOrdinals_pos f (by omega), bind_ok,
    fromOrdinals_pos p (by omega), bind_ok,
    show c.offset - 1 + (d - c.offset + 1) = d by omega, fromOrdinals_pos d (by omega), bind_ok]
  rfl

/-- In every window of 300 days of the calendar there is a business day. -/
def NoLongGap (c : BoundedCal) : Prop :=
  ∀ a, c.offset ≤ a → a + 300 ≤ c.offset + c.size → ∃ x, a ≤ x ∧ x < a + 300 ∧ calB c x

theorem gap_first {c : BoundedCal} (hg : NoLongGap c) {d f : Int} (hd : inb c d)
    (hf : FirstOnOrAfter (calE c) d f) : f - d ≤ 300 := by
  by_cases h : d + 300 ≤ c.offset + c.size
  · obtain ⟨x, a, b, e⟩ := hg d hd.1 h
    by_contra hlt
    refine hf.2.2 x a (by omega) ?_
    have := hd.1
    exact ⟨by omega, by omega, Or.inr (Or.inr e)⟩
  · have := hf.2.1.2.1; omega

theorem gap_last {c : BoundedCal} (hg : NoLongGap c) {d p : Int} (hd : inb c d)
    (hp : LastOnOrBefore (calE c) d p) : d - p ≤ 300 := by
  by_cases h : c.offset ≤ d - 299
  · obtain ⟨x, a, b, e⟩ := hg (d - 299) h (by have := hd.2; omega)
    by_contra hlt
    refine hp.2.2 x (by omega) (by omega) ?_
    have := hd.2
    exact ⟨by omega, by omega, Or.inr (Or.inr e)⟩
  · have := hp.2.1.1; omega

theorem roll_modFollowing {c : BoundedCal} (h : CalOK c) (h0 : 1 < c.offset) (hg : NoLongGap c)
    {y : Int} (hend : c.offset + c.size = (⟨y, 1, 1⟩ : YMD).number) (t t' : DateT) :
    c.roll t .MODIFIED_FOLLOWING = .ok t' ↔ inb c t.ordinal ∧
      ∃ r, ModifiedFollowing (calBB c) t.ordinal r ∧ t' = repr (dateOf r) := by
  rw [roll_ok_iff _ _ _ _ (by decide)]
  generalize t.ordinal = d
  constructor
  · rintro ⟨h1, h2, r, hr, hi, rfl⟩
    obtain ⟨f, hf⟩ := following_exists h h2
    obtain ⟨p, hp⟩ := preceding_exists h h1
    rw [modFollowing_entry h h0 h1 h2 hf hp] at hr
    have hr' : (if (dateOf f).month = (dateOf d).month then f else p) = r := by cases hr; rfl
    split at hr'
    · rename_i hm
      subst hr'
      obtain ⟨a, b⟩ := (first_E_iff h1 h2).1 ⟨hf, hi⟩
      refine ⟨a, f, Or.inl ⟨b, ?_⟩, rfl⟩
      have := gap_first hg a hf
      exact sameMonth_symm ((month_iff_sameMonth hf.1 (by omega)).1 hm.symm)
    · rename_i hm
      subst hr'
      obtain ⟨a, b⟩ := (last_E_iff h1 h2).1 ⟨hp, hi⟩
      refine ⟨a, p, Or.inr ⟨fun x hx hs => hm ?_, b⟩, rfl⟩
      have hx' := ((first_E_iff h1 h2).2 ⟨a, hx⟩).1
      rw [first_unique hf hx']
      exact ((sameMonth_iff _ _).1 hs).2
  · rintro ⟨hi, r, hm, rfl⟩
    have h1 : c.offset - 1 ≤ d := by have := hi.1; omega
    have h2 : d ≤ c.offset + c.size := by have := hi.2; omega
    obtain ⟨f, hf⟩ := following_exists h h2
    obtain ⟨p, hp⟩ := preceding_exists h h1
    have hgf := gap_first hg hi hf
    have hsm := month_iff_sameMonth hf.1 (by omega)
    rcases hm with ⟨hF, hs⟩ | ⟨hn, hL⟩
    · have hF' := (first_E_iff h1 h2).2 ⟨hi, hF⟩
      have e := first_unique hf hF'.1
      subst e
      refine ⟨h1, h2, f, ?_, hF'.2, rfl⟩
      rw [modFollowing_entry h h0 h1 h2 hf hp, if_pos (hsm.2 (sameMonth_symm hs)).symm]
    · have hL' := (last_E_iff h1 h2).2 ⟨hi, hL⟩
      have e := last_unique hp hL'.1
      subst e
      refine ⟨h1, h2, p, ?_, hL'.2, rfl⟩
      rw [modFollowing_entry h h0 h1 h2 hf hp, if_neg]
      intro hm
      have hs := hsm.1 hm.symm
      by_cases hif : inb c f
      · exact hn f ((first_E_iff h1 h2).1 ⟨hf, hif⟩).2 (sameMonth_symm hs)
      · have := hf.1; have := hf.2.1.2.1; have := hi.1; have := hi.2
        have : f = c.offset + c.size := by unfold inb at hif; omega
        rw [this, hend] at hs
        exact not_sameMonth_first (by decide) (by decide) (by omega) hs

theorem roll_modPreceding {c : BoundedCal} (h : CalOK c) (h0 : 1 < c.offset) (hg : NoLongGap c)
    {y : Int} (hst : c.offset = (⟨y, 1, 1⟩ : YMD).number) (t t' : DateT) :
    c.roll t .MODIFIED_PRECEDING = .ok t' ↔ inb c t.ordinal ∧
      ∃ r, ModifiedPreceding (calBB c) t.ordinal r ∧ t' = repr (dateOf r) := by
  rw [roll_ok_iff _ _ _ _ (by decide)]
  generalize t.ordinal = d
  constructor
  · rintro ⟨h1, h2, r, hr, hi, rfl⟩
    obtain ⟨f, hf⟩ := following_exists h h2
    obtain ⟨p, hp⟩ := preceding_exists h h1
    rw [modPreceding_entry h h0 h1 h2 hf hp] at hr
    have hr' : (if (dateOf p).month = (dateOf d).month then p else f) = r := by cases hr; rfl
    split at hr'
    · rename_i hm
      subst hr'
      obtain ⟨a, b⟩ := (last_E_iff h1 h2).1 ⟨hp, hi⟩
      refine ⟨a, p, Or.inl ⟨b, ?_⟩, rfl⟩
      have := gap_last hg a hp
      exact (month_iff_sameMonth hp.1 (by omega)).1 hm
    · rename_i hm
      subst hr'
      obtain ⟨a, b⟩ := (first_E_iff h1 h2).1 ⟨hf, hi⟩
      refine ⟨a, f, Or.inr ⟨fun x hx hs => hm ?_, b⟩, rfl⟩
      have hx' := ((last_E_iff h1 h2).2 ⟨a, hx⟩).1
      rw [last_unique hp hx']
      exact ((sameMonth_iff _ _).1 hs).2
  · rintro ⟨hi, r, hm, rfl⟩
    have h1 : c.offset - 1 ≤ d := by have := hi.1; omega
    have h2 : d ≤ c.offset + c.size := by have := hi.2; omega
    obtain ⟨f, hf⟩ := following_exists h h2
    obtain ⟨p, hp⟩ := preceding_exists h h1
    have hgp := gap_last hg hi hp
    have hsm := month_iff_sameMonth hp.1 (by omega)
    rcases hm with ⟨hF, hs⟩ | ⟨hn, hL⟩
    · have hF' := (last_E_iff h1 h2).2 ⟨hi, hF⟩
      have e := last_unique hp hF'.1
      subst e
      refine ⟨h1, h2, p, ?_, hF'.2, rfl⟩
      rw [modPreceding_entry h h0 h1 h2 hf hp, if_pos (hsm.2 hs)]
    · have hL' := (first_E_iff h1 h2).2 ⟨hi, hL⟩
      have e := first_unique hf hL'.1
      subst e
      refine ⟨h1, h2, f, ?_, hL'.2, rfl⟩
      rw [modPreceding_entry h h0 h1 h2 hf hp, if_neg]
      intro hm
      have hs := hsm.1 hm
      by_cases hip : inb c p
      · exact hn p ((last_E_iff h1 h2).1 ⟨hp, hip⟩).2 hs
      · have := hp.1; have := hp.2.1.1; have := hi.1; have := hi.2
        have : p = c.offset - 1 := by unfold inb at hip; omega
        -- `p` is the day before a first of January, `d` is on or after it
        obtain ⟨e1, e2⟩ := (sameMonth_iff _ _).1 hs
        have hv : (⟨y, 1, 1⟩ : YMD).Valid := by
          refine ⟨Int.le_refl 1, by simp only; omega, Int.le_refl 1, ?_⟩
          have := (monthLength_pos y 1).1; simp only; omega
        have b1 := (before_iff (dateOf p) _ (dateOf_valid p) hv).2
          (by rw [dateOf_number, ← hst]; omega)
        have b2 : ¬ (dateOf d).Before ⟨y, 1, 1⟩ := fun hb => by
          have := (before_iff _ _ (dateOf_valid d) hv).1 hb
          rw [dateOf_number, ← hst] at this; omega
        have := (dateOf_valid p).1
        have := (dateOf_valid p).2.2.1
        unfold YMD.Before at b1 b2
        simp only at b1 b2
        omega

theorem isBusinessDay_in {c : BoundedCal} (h : CalOK c) (t : DateT) (hi : inb c t.ordinal) :
    c.isBusinessDay t = .ok (decide (calB c t.ordinal)) := by
  have h1 : c.offset - 1 ≤ t.ordinal := by have := hi.1; omega
  have h2 : t.ordinal ≤ c.offset + c.size := by have := hi.2; omega
  unfold BoundedCal.isBusinessDay
  rw [gatherTable_in _ _ (by omega) (by omega)]
  by_cases hb : calB c t.ordinal
  · rw [(table_gather h h1 h2 1).2 (Or.inl ⟨(calE_of_inb hi).2 ⟨hi, hb⟩, rfl⟩), bind_ok,
      assertInBounds_ok _ _ hi, bind_ok]
    simp [hb]; rfl
  · rw [(table_gather h h1 h2 0).2 (Or.inr ⟨fun e => hb ((calE_of_inb hi).1 e).2, rfl⟩), bind_ok,
      assertInBounds_ok _ _ hi, bind_ok]
    simp [hb]; rfl

theorem error_of_not_ok {α : Type} (x : Except String α) (h : ∀ a, x ≠ .ok a) : ∃ e, x = .error e := by
  cases x with
  | error e => exact ⟨e, rfl⟩
  | ok a => exact absurd rfl (h a)

theorem isBusinessDay_out {c : BoundedCal} (t : DateT) (hi : ¬ inb c t.ordinal) :
    ∃ e, c.isBusinessDay t = .error e := by
  apply error_of_not_ok
  intro a ha
  unfold BoundedCal.isBusinessDay at ha
  rw [bind_ok_iff] at ha
  obtain ⟨v, _, ha⟩ := ha
  rw [bind_ok_iff] at ha
  obtain ⟨u, hu, _⟩ := ha
  exact hi ((assertInBounds_ok_iff _ _ _).1 hu)

theorem businessDaysBetween_in {c : BoundedCal} (h : CalOK c) (a b : DateT)
    (ha : inb c a.ordinal) (hb : inb c b.ordinal) :
    c.businessDaysBetween a b = .ok (countIn (calB c) a.ordinal b.ordinal : Int) := by
  have := ha.1; have := ha.2; have := hb.1; have := hb.2
  unfold BoundedCal.businessDaysBetween
  rw [assertInBounds_ok _ _ ha, bind_ok, assertInBounds_ok _ _ hb, bind_ok,
    gatherTable_in _ _ (by omega) (by omega), gatherTable_in _ _ (by omega) (by omega),
    cumul_gather h (by omega) (by omega), bind_ok, cumul_gather h (by omega) (by omega), bind_ok]
  congr 1
  by_cases hab : a.ordinal ≤ b.ordinal
  · rw [countIn_calR h ha.1 (by omega) hab]
    have := calR_mono (c := c) hab
    omega
  · rw [countIn_eq_zero _ (by omega)]
    have := calR_mono (c := c) (show b.ordinal ≤ a.ordinal by omega)
    omega

theorem addBusinessDays_core {c : BoundedCal} (h : CalOK c) {d : Int} (hd : inb c d) (n : Int)
    (t' : DateT) :
    ((do
      let cum ← c.gatherTable c.cumulBusDaysTable (d - c.offset + 1)
      let target := cum + n
      let o ← c.gatherTable c.busDayOrdinalsTable target
      c.assertInBounds o
      fromOrdinals o (validate := false)) : Except String DateT) = .ok t' ↔
    ∃ r, inb c r ∧ calB c r ∧ (calR c r : Int) = calR c d + n ∧ t' = repr (dateOf r) := by
  have hd1 := hd.1; have hd2 := hd.2
  rw [gatherTable_in _ _ (by omega) (by omega), cumul_gather h (by omega) (by omega), bind_ok]
  simp only
  rw [bind_ok_iff]
  constructor
  · rintro ⟨o, ho, hh⟩
    rw [bind_ok_iff] at hh
    obtain ⟨u, hu, hh⟩ := hh
    rw [assertInBounds_ok_iff] at hu
    rw [fromOrdinals_unchecked] at hh
    cases hh
    by_cases hk : 0 ≤ (calR c d : Int) + n ∧ (calR c d : Int) + n < c.size + 2
    · rw [gatherTable_in _ _ hk.1 hk.2, ordinals_gather h] at ho
      exact ⟨o, hu, ((calE_of_inb hu).1 ho.1).2, ho.2, rfl⟩
    · rw [gatherTable_out _ _ hk] at ho; cases ho
  · rintro ⟨r, hr, hb, he, rfl⟩
    refine ⟨r, ?_, ?_⟩
    · have hle : calR c r ≤ (r - c.offset + 1).toNat := by
        unfold calR rank
        refine Nat.le_trans (List.length_filter_le _ _) ?_
        rw [List.length_range]
        exact Nat.le_refl _
      have := hr.1; have := hr.2
      rw [gatherTable_in _ _ (by omega) (by omega), ordinals_gather h]
      exact ⟨(calE_of_inb hr).2 ⟨hr, hb⟩, he⟩
    · rw [bind_ok_iff]
      exact ⟨(), (assertInBounds_ok_iff _ _ _).2 hr, fromOrdinals_unchecked r⟩

theorem businessDaysAfter_iff {c : BoundedCal} (h : CalOK c) {d r n : Int} (hd : inb c d)
    (hdB : calB c d) (hr : inb c r) (hb : calB c r) :
    BusinessDaysAfter (calB c) d n r ↔ (calR c r : Int) = calR c d + n := by
  have := hd.1; have := hd.2; have := hr.1; have := hr.2
  constructor
  · rintro ⟨_, h1, h2⟩
    rcases Int.le_total 0 n with hn | hn
    · obtain ⟨a, b⟩ := h1 hn
      rw [countIn_calR h (by omega) (by omega) a] at b; omega
    · obtain ⟨a, b⟩ := h2 hn
      rw [countIn_calR h (by omega) (by omega) a] at b; omega
  · intro he
    refine ⟨hb, fun hn => ?_, fun hn => ?_⟩
    · have a : d ≤ r := by
        by_contra hlt
        have := calR_lt h (Int.le_refl r) (show r < d by omega) ((calE_of_inb hr).2 ⟨hr, hb⟩)
        omega
      exact ⟨a, by rw [countIn_calR h (by omega) (by omega) a]; omega⟩
    · have a : r ≤ d := by
        by_contra hlt
        have := calR_lt h (Int.le_refl d) (show d < r by omega) ((calE_of_inb hd).2 ⟨hd, hdB⟩)
        omega
      exact ⟨a, by rw [countIn_calR h (by omega) (by omega) a]; omega⟩

end Lemmas
