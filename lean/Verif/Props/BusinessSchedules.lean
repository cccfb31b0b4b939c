import Verif.Lemmas.BusinessSchedule
import Verif.Props.Schedules

/-!
# Property theorems C16: business day schedules
-/

namespace Props
open Model Spec

theorem opsOK_bounded {c : BoundedCal} {s e : Int} (h : CalendarFor c s e) :
    Lemmas.CalOpsOK c.ops (IsBusinessDay c.mask c.holidays) (jan1 s) := by
  constructor
  · intro t t' _ hr
    obtain ⟨hi, d, hd, hF⟩ := (C10_bounded_following h t t').1 hr
    have e1 : t'.ordinal = d.number := hd.2.2.2.2
    exact ⟨by rw [e1]; exact (repr_of_valid hd.1).2 hd, by rw [e1]; exact bb_first hi hF⟩
  · intro t t' hr _
    obtain ⟨hi, d, hd, hF⟩ := (C10_bounded_preceding h t t').1 hr
    have e1 : t'.ordinal = d.number := hd.2.2.2.2
    exact ⟨by rw [e1]; exact (repr_of_valid hd.1).2 hd, by rw [e1]; exact bb_last hi hF⟩
  · intro a b n _ hn
    by_cases hab : InYears s e a.ordinal ∧ InYears s e b.ordinal
    · have := (C13_bounded_between h a b).1 hab
      have hn' : c.businessDaysBetween a b = .ok n := hn
      rw [this] at hn'
      exact (Except.ok.inj hn').symm
    · obtain ⟨msg, hm⟩ := (C13_bounded_between h a b).2 hab
      have hn' : c.businessDaysBetween a b = .ok n := hn
      rw [hm] at hn'; cases hn'
  · intro t n t' _ _ hr
    obtain ⟨d, hd, ⟨_, hde⟩, f, hf, hfi, ha⟩ := (C12_bounded_add_business_days h t t' n .NONE).1 hr
    rw [if_pos rfl] at hde
    have e1 : t'.ordinal = f.number := hf.2.2.2.2
    exact ⟨by rw [e1]; exact (repr_of_valid hf.1).2 hf, fun _ => by rw [e1, hde]; exact ha⟩
  · intro t n t' f _ _ hr _ hf'
    obtain ⟨d, hd, ⟨_, hde⟩, g, hf, hfi, ha⟩ := (C12_bounded_add_business_days h t t' n .NONE).1 hr
    rw [if_pos rfl] at hde
    have e1 : t'.ordinal = g.number := hf.2.2.2.2
    rw [e1]
    rw [hde] at hf'
    exact Lemmas.after_unique ha hf'

theorem opsOK_unbounded {c : UnboundedCal} {mask : List Nat} {hols : List Int}
    (h : UCalendarFor c mask hols) : Lemmas.CalOpsOK c.ops (IsBusinessDay mask hols) 8 := by
  obtain ⟨F, G, B, _, U⟩ := h.ok
  have hadd : ∀ (t : DateT) (n : Int) (t' : DateT), B t.ordinal → c.addBusinessDays t n .NONE = .ok t' →
      t' = Lemmas.repr (Lemmas.dateOf (G (F t.ordinal + n))) := by
    intro t n t' hB hr
    unfold UnboundedCal.addBusinessDays at hr
    simp only [U.to, hB, decide_true, UnboundedCal.applyRoll] at hr
    rw [if_neg (by simp), Lemmas.bind_ok, U.from, Lemmas.bind_ok] at hr
    by_cases h0 : 0 < G (F t.ordinal + n)
    · rw [Lemmas.fromOrdinals_pos _ h0] at hr
      exact (Except.ok.inj hr).symm
    · have := Lemmas.fromOrdinals_nonpos _ h0 _ hr; cases this
  have hord : ∀ x, (Lemmas.repr (Lemmas.dateOf x)).ordinal = x := fun x => Lemmas.dateOf_number x
  constructor
  · intro t t' h8 hr
    obtain ⟨r, hF, he⟩ := Lemmas.unb_following U t h8
    have hr' : c.roll t .FOLLOWING = .ok t' := hr
    rw [he] at hr'
    rw [← Except.ok.inj hr', hord]
    exact ⟨rfl, hF⟩
  · intro t t' hr h8
    obtain ⟨k, hk, h0, rfl⟩ := Lemmas.unb_roll_ok U t t' .PRECEDING (by decide) hr
    have hk' : k = F t.ordinal := (Except.ok.inj hk).symm
    subst hk'
    rw [hord] at h8 ⊢
    exact ⟨rfl, (Lemmas.last_congr (fun x h1 _ => U.agree x (by omega))).1 (U.space.last t.ordinal)⟩
  · intro a b n h8 hn
    rw [← C13_unbounded_between h a b h8]
    exact (Except.ok.inj hn).symm
  · intro t n t' h8 hB hr
    have hBB := (U.agree _ h8).2 hB
    have he := hadd t n t' hBB hr
    have ho : t'.ordinal = G (F t.ordinal + n) := by rw [he, hord]
    refine ⟨by rw [ho]; exact he, fun hn => ?_⟩
    obtain ⟨p, q, r⟩ := U.space.after (n := n) hBB
    rw [ho] at hn ⊢
    have hge : 8 ≤ G (F t.ordinal + n) := by
      rcases hn with h | h
      · exact h
      · have := (q h).1; omega
    refine ⟨(U.agree _ hge).1 p, fun h => ?_, fun h => ?_⟩
    · obtain ⟨x, y⟩ := q h
      exact ⟨x, by rw [Lemmas.countIn_congr (fun x h1 _ => (U.agree x (by omega)).symm)]; exact y⟩
    · obtain ⟨x, y⟩ := r h
      exact ⟨x, by rw [Lemmas.countIn_congr (fun x h1 _ => (U.agree x (by omega)).symm)]; exact y⟩
  · intro t n t' f h8 hB hr hf ha
    have := Lemmas.unb_after U h8 hf hB ha
    rw [hadd t n t' ((U.agree _ h8).2 hB) hr, hord, this]

/-- `rows.map f` is the batch of business day schedules of `rows`: every row of the result holds valid
dates, namely all days of `B` (there is one) from the start to the end date of the row, in order, filled
up to the common length with its last date (forward) or its first date (backward).  The common length is
the length of the longest row. -/
def BusinessSchedules (B : Int → Prop) [DecidablePred B] (backward : Bool) (rows : List (DateT × DateT))
    (f : DateT × DateT → List DateT) : Prop :=
  ∃ len : Nat, (∀ r ∈ rows, (∀ t ∈ f r, ∃ d, Represents t d) ∧
      daysFromTo B r.1.ordinal r.2.ordinal ≠ [] ∧
      (daysFromTo B r.1.ordinal r.2.ordinal).length ≤ len ∧
      (f r).map DateT.ordinal = if backward then padBefore (daysFromTo B r.1.ordinal r.2.ordinal) len
        else padAfter (daysFromTo B r.1.ordinal r.2.ordinal) len) ∧
    ∃ r ∈ rows, (daysFromTo B r.1.ordinal r.2.ordinal).length = len

theorem schedules_of_ops {cal : CalendarOps} {B : Int → Prop} [DecidablePred B] {lo : Int}
    (U : Lemmas.CalOpsOK cal B lo) (rows : List (DateT × DateT))
    (hrows : ∀ r ∈ rows, lo ≤ r.1.ordinal) (hne : rows ≠ []) (backward : Bool) (res : List (List DateT))
    (h : genBusinessDays cal rows backward = .ok res) :
    ∃ f, res = rows.map f ∧ BusinessSchedules B backward rows f := by
  obtain ⟨f, len, h1, h2, h3⟩ := Lemmas.genBusinessDays_spec U rows hrows hne backward res h
  refine ⟨f, h1, len, fun r hr => ?_, h3⟩
  obtain ⟨a, b⟩ := h2 r hr
  refine ⟨fun t ht => ⟨_, (represents_iff t _).2 ⟨Lemmas.dateOf_valid _, a t ht⟩⟩, b⟩

/-- C16 for the unbounded calendar: a business day schedule that is returned is right. -/
theorem C16_unbounded {c : UnboundedCal} {mask : List Nat} {hols : List Int}
    (h : UCalendarFor c mask hols) (rows : List (DateT × DateT)) (hrows : ∀ r ∈ rows, 8 ≤ r.1.ordinal)
    (hne : rows ≠ []) (backward : Bool) (res : List (List DateT))
    (hr : genBusinessDays c.ops rows backward = .ok res) :
    ∃ f, res = rows.map f ∧ BusinessSchedules (IsBusinessDay mask hols) backward rows f :=
  schedules_of_ops (opsOK_unbounded h) rows hrows hne backward res hr

/-- C16 for the bounded calendar: a business day schedule that is returned is right. -/
theorem C16_bounded {c : BoundedCal} {s e : Int} (h : CalendarFor c s e)
    (rows : List (DateT × DateT)) (hne : rows ≠ []) (backward : Bool) (res : List (List DateT))
    (hr : genBusinessDays c.ops rows backward = .ok res) :
    ∃ f, res = rows.map f ∧ BusinessSchedules (IsBusinessDay c.mask c.holidays) backward rows f := by
  refine schedules_of_ops (opsOK_bounded h) rows ?_ hne backward res hr
  intro r hrm
  unfold genBusinessDays at hr
  rw [Lemmas.bind_ok_iff] at hr
  obtain ⟨rows', hr', _⟩ := hr
  obtain ⟨g, rfl, hg⟩ := Lemmas.mapM_inv _ _ _ hr'
  have := hg r hrm
  rw [Lemmas.bind_ok_iff] at this
  obtain ⟨a, h1, _⟩ := this
  exact ((C10_bounded_following h r.1 a).1 h1).1.1

/-- A business day schedule exists as soon as the rolled dates are in order and the business days can be
added. -/
theorem genBusinessDays_ok (cal : CalendarOps) (rows : List (DateT × DateT)) (backward : Bool)
    (g : DateT × DateT → DateT × DateT) (ln : DateT × DateT → Nat)
    (h1 : ∀ r ∈ rows, cal.roll r.1 .FOLLOWING = .ok (g r).1 ∧ cal.roll r.2 .PRECEDING = .ok (g r).2 ∧
      (g r).1.ordinal ≤ (g r).2.ordinal ∧
      cal.businessDaysBetween (g r).1 (g r).2 = .ok (ln (g r) : Int))
    (h2 : ∀ r ∈ rows, ∀ r' ∈ rows, ∀ k : Nat, k ≤ ln (g r') →
      ∃ t, (if backward then cal.addBusinessDays (g r).2 (-(k : Int)) .NONE
        else cal.addBusinessDays (g r).1 (k : Int) .NONE) = .ok t) :
    ∃ res, genBusinessDays cal rows backward = .ok res := by
  have e1 : rows.mapM (fun r => do
      let a ← cal.roll r.1 .FOLLOWING
      let b ← cal.roll r.2 .PRECEDING
      return (a, b)) = .ok (rows.map g) := by
    apply Lemmas.mapM_ok
    intro r hr
    rw [(h1 r hr).1, Lemmas.bind_ok, (h1 r hr).2.1, Lemmas.bind_ok]
    rfl
  have e2 : (rows.map g).mapM (fun r => cal.businessDaysBetween r.1 r.2) =
      .ok ((rows.map g).map (fun q => (ln q : Int))) := by
    apply Lemmas.mapM_ok
    intro q hq
    obtain ⟨r, hr, rfl⟩ := List.mem_map.1 hq
    exact (h1 r hr).2.2.2
  unfold genBusinessDays
  rw [e1, Lemmas.bind_ok, if_neg]
  · rw [e2, Lemmas.bind_ok]
    simp only
    have hK : ∀ r ∈ rows, ∃ r' ∈ rows,
        ((((rows.map g).map (fun q => (ln q : Int))).max?).getD 0).natAbs = ln (g r') := by
      intro r hr
      cases hm : ((rows.map g).map (fun q => (ln q : Int))).max? with
      | none => rw [List.max?_eq_none_iff] at hm; simp at hm; subst hm; cases hr
      | some m =>
        rw [List.max?_eq_some_iff] at hm
        obtain ⟨a, _⟩ := hm
        simp only [List.mem_map, exists_exists_and_eq_and] at a
        obtain ⟨r', hr', rfl⟩ := a
        exact ⟨r', hr', by simp⟩
    generalize ((((rows.map g).map (fun q => (ln q : Int))).max?).getD 0).natAbs = K at hK ⊢
    have hall : ∀ {f : DateT × DateT → Except String (List DateT)} (_ : ∀ r ∈ rows, ∃ l, f (g r) = .ok l),
        ∃ res, (rows.map g).mapM f = .ok res := by
      intro f hf
      have hex : ∀ q, ∃ l, q ∈ rows.map g → f q = .ok l := by
        intro q
        by_cases hq : q ∈ rows.map g
        · obtain ⟨r, hr, rfl⟩ := List.mem_map.1 hq
          obtain ⟨l, hl⟩ := hf r hr
          exact ⟨l, fun _ => hl⟩
        · exact ⟨[], fun h => absurd h hq⟩
      obtain ⟨w, hw⟩ := Classical.skolem.1 hex
      exact ⟨_, Lemmas.mapM_ok _ w _ hw⟩
    have hrow : ∀ {f : Nat → Except String DateT} {N : Nat} (m : List DateT → List DateT)
        (_ : ∀ k < N, ∃ t, f k = .ok t), ∃ l, (do
          let s ← (List.range N).mapM f
          return m s : Except String (List DateT)) = .ok l := by
      intro f N m hf
      have hex : ∀ k : Nat, ∃ t, k ∈ List.range N → f k = .ok t := by
        intro k
        by_cases hk : k < N
        · obtain ⟨t, ht⟩ := hf k hk; exact ⟨t, fun _ => ht⟩
        · exact ⟨default, fun h => absurd (List.mem_range.1 h) hk⟩
      obtain ⟨w, hw⟩ := Classical.skolem.1 hex
      rw [Lemmas.mapM_ok _ w _ hw, Lemmas.bind_ok]
      exact ⟨_, rfl⟩
    cases backward with
    | true =>
      simp only [if_true] at h2 ⊢
      apply hall
      intro r hr
      apply hrow
      intro k hk
      obtain ⟨r', hr', e⟩ := hK r hr
      obtain ⟨t, ht⟩ := h2 r hr r' hr' (K - k) (by omega)
      refine ⟨t, ?_⟩
      rw [← ht]
      congr 1
      omega
    | false =>
      simp only [Bool.false_eq_true, if_false] at h2 ⊢
      apply hall
      intro r hr
      apply hrow
      intro k hk
      obtain ⟨r', hr', e⟩ := hK r hr
      exact h2 r hr r' hr' k (by omega)
  · simp only [List.all_eq_true, List.mem_map, forall_exists_index, and_imp,
      decide_eq_true_eq, Classical.not_not]
    rintro q r hr rfl
    exact (h1 r hr).2.2.1

/-- C16: forward schedules of the unbounded calendar exist if every row contains a business day. -/
theorem C16_unbounded_forward_total {c : UnboundedCal} {mask : List Nat} {hols : List Int}
    (h : UCalendarFor c mask hols) (rows : List (DateT × DateT)) (hrows : ∀ r ∈ rows, 8 ≤ r.1.ordinal)
    (hB : ∀ r ∈ rows, ∃ x, r.1.ordinal ≤ x ∧ x ≤ r.2.ordinal ∧ IsBusinessDay mask hols x) :
    ∃ res, genBusinessDays c.ops rows false = .ok res := by
  have hex : ∀ r : DateT × DateT, ∃ q : DateT × DateT, r ∈ rows → (c.roll r.1 .FOLLOWING = .ok q.1 ∧
      c.roll r.2 .PRECEDING = .ok q.2 ∧ q.1.ordinal ≤ q.2.ordinal ∧ 8 ≤ q.1.ordinal ∧
      IsBusinessDay mask hols q.1.ordinal) := by
    intro r
    by_cases hr : r ∈ rows
    · obtain ⟨x, x1, x2, x3⟩ := hB r hr
      have h8 := hrows r hr
      obtain ⟨a, d, ha, hd, hF⟩ := C11_following h r.1 h8
      have ea : a.ordinal = d.number := hd.2.2.2.2
      obtain ⟨F, G, B, _, U⟩ := h.ok
      have hl := U.space.last r.2.ordinal
      have hge : r.1.ordinal ≤ G (F r.2.ordinal) := by
        by_contra hlt
        exact hl.2.2 x (by omega) x2 ((U.agree x (by omega)).2 x3)
      have hl' : LastOnOrBefore (IsBusinessDay mask hols) r.2.ordinal (G (F r.2.ordinal)) :=
        (Lemmas.last_congr (fun x h1 _ => U.agree x (by omega))).1 hl
      have hx1 : d.number ≤ x := by
        by_contra hlt; exact hF.2.2 x x1 (by omega) x3
      have hx2 : x ≤ G (F r.2.ordinal) := by
        by_contra hlt; exact hl'.2.2 x (by omega) x2 x3
      have := hF.1
      refine ⟨(a, _), fun _ => ⟨ha, Lemmas.unb_preceding U r.2 (by omega) hl', ?_, ?_, ?_⟩⟩
      · show a.ordinal ≤ (Lemmas.repr (Lemmas.dateOf _)).ordinal
        have : (Lemmas.repr (Lemmas.dateOf (G (F r.2.ordinal)))).ordinal = _ := Lemmas.dateOf_number _
        omega
      · show 8 ≤ a.ordinal; omega
      · show IsBusinessDay mask hols a.ordinal; rw [ea]; exact hF.2.1
    · exact ⟨r, fun h => absurd h hr⟩
  obtain ⟨g, hg⟩ := Classical.skolem.1 hex
  refine genBusinessDays_ok c.ops rows false g
    (fun q => countIn (IsBusinessDay mask hols) q.1.ordinal q.2.ordinal) ?_ ?_
  · intro r hr
    obtain ⟨h1, h2, h3, h4, h5⟩ := hg r hr
    refine ⟨h1, h2, h3, ?_⟩
    show Except.ok (c.businessDaysBetween _ _) = _
    rw [C13_unbounded_between h _ _ h4]
  · intro r hr _ _ k _
    obtain ⟨h1, h2, h3, h4, h5⟩ := hg r hr
    obtain ⟨f, hf, hf8, hfa⟩ := C12_unbounded_target_exists h _ h4 h5 k (by omega)
    obtain ⟨t', ht', _⟩ := C12_unbounded_add_business_days h (g r).1 k .NONE _ h4
      ⟨h5, by rw [if_pos rfl]⟩ f hf hf8 hfa
    exact ⟨t', ht'⟩

/-- C16: a single schedule of the bounded calendar (forward or backward) exists if its dates are in the
years of the calendar and contain a business day.  For a batch this is not so
(`C16_bounded_batch_fails`). -/
theorem C16_bounded_single_total {c : BoundedCal} {s e : Int} (h : CalendarFor c s e)
    (a b : DateT) (ha : InYears s e a.ordinal) (hb : InYears s e b.ordinal)
    (hB : ∃ x, a.ordinal ≤ x ∧ x ≤ b.ordinal ∧ IsBusinessDay c.mask c.holidays x) (backward : Bool) :
    ∃ res, genBusinessDays c.ops [(a, b)] backward = .ok res := by
  obtain ⟨x, x1, x2, x3⟩ := hB
  have hxI : InYears s e x := ⟨by have := ha.1; omega, by have := hb.2; omega⟩
  have hF : ∃ f, FirstOnOrAfter (BusinessDay c s e) a.ordinal f ∧ f ≤ x := by
    have hp : ∃ n : Nat, BusinessDay c s e (a.ordinal + n) :=
      ⟨(x - a.ordinal).toNat, by rw [show a.ordinal + ((x - a.ordinal).toNat : Int) = x by omega]; exact ⟨hxI, x3⟩⟩
    classical
    obtain ⟨n, hn, hmin⟩ := Lemmas.exists_least _ hp
    refine ⟨a.ordinal + n, ⟨by omega, hn, fun y y1 y2 hy => ?_⟩, ?_⟩
    · exact hmin (y - a.ordinal).toNat (by omega) (by rw [show a.ordinal + ((y - a.ordinal).toNat : Int) = y by omega]; exact hy)
    · by_contra hlt
      exact hmin (x - a.ordinal).toNat (by omega) (by rw [show a.ordinal + ((x - a.ordinal).toNat : Int) = x by omega]; exact ⟨hxI, x3⟩)
  have hL : ∃ f, LastOnOrBefore (BusinessDay c s e) b.ordinal f ∧ x ≤ f := by
    have hp : ∃ n : Nat, BusinessDay c s e (b.ordinal - n) :=
      ⟨(b.ordinal - x).toNat, by rw [show b.ordinal - ((b.ordinal - x).toNat : Int) = x by omega]; exact ⟨hxI, x3⟩⟩
    classical
    obtain ⟨n, hn, hmin⟩ := Lemmas.exists_least _ hp
    refine ⟨b.ordinal - n, ⟨by omega, hn, fun y y1 y2 hy => ?_⟩, ?_⟩
    · exact hmin (b.ordinal - y).toNat (by omega) (by rw [show b.ordinal - ((b.ordinal - y).toNat : Int) = y by omega]; exact hy)
    · by_contra hlt
      exact hmin (b.ordinal - x).toNat (by omega) (by rw [show b.ordinal - ((b.ordinal - x).toNat : Int) = x by omega]; exact ⟨hxI, x3⟩)
  obtain ⟨f, hf, hfx⟩ := hF
  obtain ⟨l, hl, hlx⟩ := hL
  have hord : ∀ x, (Lemmas.repr (Lemmas.dateOf x)).ordinal = x := fun x => Lemmas.dateOf_number x
  have hrep : ∀ x, Represents (Lemmas.repr (Lemmas.dateOf x)) (Lemmas.dateOf x) := fun x =>
    (represents_iff _ _).2 ⟨Lemmas.dateOf_valid _, rfl⟩
  have hnum : ∀ x, (Lemmas.dateOf x).number = x := fun x => Lemmas.dateOf_number x
  refine genBusinessDays_ok c.ops _ backward
    (fun _ => (Lemmas.repr (Lemmas.dateOf f), Lemmas.repr (Lemmas.dateOf l)))
    (fun q => countIn (IsBusinessDay c.mask c.holidays) q.1.ordinal q.2.ordinal) ?_ ?_
  · intro r hr
    have : r = (a, b) := by simpa using hr
    subst this
    refine ⟨(C10_bounded_following h a _).2 ⟨ha, _, hrep f, by rw [hnum]; exact hf⟩,
      (C10_bounded_preceding h b _).2 ⟨hb, _, hrep l, by rw [hnum]; exact hl⟩, ?_, ?_⟩
    · simp only [hord]; omega
    · exact (C13_bounded_between h _ _).1 ⟨by rw [hord]; exact hf.2.1.1, by rw [hord]; exact hl.2.1.1⟩
  · intro r hr _ _ k hk
    simp only [hord] at hk
    -- the days from `f` to `l` are the targets
    have hlen := Lemmas.daysFromTo_length (B := IsBusinessDay c.mask c.holidays) (show f ≤ l by omega) hl.2.1.2
    cases backward with
    | false =>
      simp only [Bool.false_eq_true, if_false]
      have hlt : k < (daysFromTo (IsBusinessDay c.mask c.holidays) f l).length := by omega
      have hy := List.getElem?_eq_getElem hlt
      generalize (daysFromTo (IsBusinessDay c.mask c.holidays) f l)[k] = y at hy
      rw [Lemmas.daysFromTo_getElem?] at hy
      obtain ⟨y1, y2, y3, y4⟩ := hy
      refine ⟨Lemmas.repr (Lemmas.dateOf y), (C12_bounded_add_business_days h _ _ _ _).2
        ⟨f, hf.2.1.1, ⟨hf.2.1.2, by rw [if_pos rfl, hord]⟩, _, hrep y, ?_, ?_⟩⟩
      · rw [hnum]; exact ⟨by have := hf.2.1.1.1; omega, by have := hl.2.1.1.2; omega⟩
      · rw [hnum]
        refine ⟨y3, fun _ => ⟨y1, by omega⟩, fun hk0 => ?_⟩
        have : y ≤ f := by
          by_contra hgt
          have hm := Lemmas.countIn_mono (B := IsBusinessDay c.mask c.holidays) (a := f) (show f + (1 : Int) ≤ y by omega)
          rw [Lemmas.countIn_succ _ (Int.le_refl _), if_pos hf.2.1.2] at hm
          omega
        exact ⟨this, by rw [Lemmas.countIn_eq_zero _ (by omega)]; omega⟩
    | true =>
      simp only [if_true]
      have hlt : countIn (IsBusinessDay c.mask c.holidays) f l - k <
        (daysFromTo (IsBusinessDay c.mask c.holidays) f l).length := by omega
      have hy := List.getElem?_eq_getElem hlt
      generalize (daysFromTo (IsBusinessDay c.mask c.holidays) f l)[countIn (IsBusinessDay c.mask c.holidays) f l - k] = y at hy
      rw [Lemmas.daysFromTo_getElem?] at hy
      obtain ⟨y1, y2, y3, y4⟩ := hy
      have hsum := Lemmas.countIn_add (B := IsBusinessDay c.mask c.holidays) y1 y2
      refine ⟨Lemmas.repr (Lemmas.dateOf y), (C12_bounded_add_business_days h _ _ _ _).2
        ⟨l, hl.2.1.1, ⟨hl.2.1.2, by rw [if_pos rfl, hord]⟩, _, hrep y, ?_, ?_⟩⟩
      · rw [hnum]; exact ⟨by have := hf.2.1.1.1; omega, by have := hl.2.1.1.2; omega⟩
      · rw [hnum]
        refine ⟨y3, fun hk0 => ?_, fun _ => ⟨y2, by omega⟩⟩
        have : l ≤ y := by
          by_contra hgt
          have hm := Lemmas.countIn_mono (B := IsBusinessDay c.mask c.holidays) (a := y) (show y + (1 : Int) ≤ l by omega)
          rw [Lemmas.countIn_succ _ (Int.le_refl _), if_pos y3] at hm
          omega
        exact ⟨this, by rw [Lemmas.countIn_eq_zero _ (by omega)]; omega⟩

/-- C16 (deviation found in the code): in a batch the shorter rows are extended to the length of the
longest row before they are cut at their end date, so a row near the end of the bounded calendar makes
the whole call fail although all its dates are inside the calendar and each row alone works. -/
theorem C16_bounded_batch_fails :
    let r1 : DateT × DateT := (⟨737552, 2020, 5, 7⟩, ⟨737582, 2020, 6, 6⟩)
    let r2 : DateT × DateT := (⟨738151, 2021, 12, 27⟩, ⟨738153, 2021, 12, 29⟩)
    (genBusinessDays cal2020.ops [r1] false).toOption.isSome ∧
    (genBusinessDays cal2020.ops [r2] false).toOption.isSome ∧
    (genBusinessDays cal2020.ops [r1, r2] false).toOption = none := by
  decide +kernel

example : (genBusinessDays ucal2020.ops [(⟨737783, 2020, 12, 24⟩, ⟨737797, 2021, 1, 7⟩),
      (⟨737785, 2020, 12, 26⟩, ⟨737788, 2020, 12, 29⟩)] true).toOption.map
      (List.map (List.map DateT.ordinal)) =
    some [[737783, 737787, 737788, 737789, 737790, 737794, 737795, 737796, 737797],
      [737787, 737787, 737787, 737787, 737787, 737787, 737787, 737787, 737788]] := by decide +kernel

end Props
