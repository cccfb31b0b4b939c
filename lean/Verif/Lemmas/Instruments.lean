import Mathlib.Algebra.BigOperators.Intervals
import Verif.Model.Instruments
import Verif.Spec.Instruments
import Verif.Lemmas.CubicSpline
import Verif.Props.Daycounts
import Verif.Props.Schedules

/-!
# Cashflow streams: flattened lists and padded schedules
-/

namespace Lemmas
open Model Model.Instruments Spec

section lists
variable {α β γ δ : Type}

theorem zipWith_flatMap (f : β → γ → δ) (xs : List α) (g : α → List β) (h : α → List γ)
    (hl : ∀ x ∈ xs, (g x).length = (h x).length) :
    List.zipWith f (xs.flatMap g) (xs.flatMap h) = xs.flatMap (fun x => List.zipWith f (g x) (h x)) := by
  induction xs with
  | nil => rfl
  | cons x xs ih =>
    rw [List.flatMap_cons, List.flatMap_cons, List.zipWith_append (hl x List.mem_cons_self),
      ih (fun y hy => hl y (List.mem_cons_of_mem _ hy)), List.flatMap_cons]

theorem repeatEach_map (xs : List α) (f : α → β) (n : Nat) :
    repeatEach (xs.map f) n = xs.flatMap (fun x => (List.range n).map (fun _ => f x)) := by
  unfold repeatEach
  rw [List.flatMap_map]
  congr 1
  funext x
  simp [List.map_const']

theorem map_flatMap' (xs : List α) (g : α → List β) (f : β → γ) :
    (xs.flatMap g).map f = xs.flatMap (fun x => (g x).map f) := by
  rw [List.map_flatMap]

variable {K : Type} [Field K]

theorem rowSums_flatMap (xs : List α) (g : α → List K) (n : Nat) (h : ∀ x ∈ xs, (g x).length = n) :
    rowSums xs.length n (xs.flatMap g) = xs.map (fun x => (g x).sum) := by
  induction xs with
  | nil => rfl
  | cons x xs ih =>
    have hx := h x List.mem_cons_self
    have ih := ih (fun y hy => h y (List.mem_cons_of_mem _ hy))
    unfold rowSums at ih ⊢
    rw [List.length_cons, List.range_succ_eq_map, List.map_cons, List.map_map, List.flatMap_cons, List.map_cons, ← ih]
    congr 1
    · rw [Nat.zero_mul, List.drop_zero, ← hx, List.take_left]
    · apply List.map_congr_left
      intro i _
      simp only [Function.comp_apply]
      rw [show (i.succ) * n = (g x).length + i * n by rw [hx, Nat.succ_mul]; omega, ← List.drop_drop, List.drop_left]

theorem segment_aux (xs : List α) (g : α → List K) (n : Nat) (h : ∀ x ∈ xs, (g x).length = n) (o i : Nat) :
    ((((xs.flatMap g).zip ((List.range' o xs.length).flatMap (List.replicate n))).filter (fun x => x.2 = i)).map
      (fun x => x.1)).sum = if o ≤ i then ((xs[i - o]?).map (fun x => (g x).sum)).getD 0 else 0 := by
  induction xs generalizing o with
  | nil => simp
  | cons x xs ih =>
    have hx := h x List.mem_cons_self
    have ih := ih (fun y hy => h y (List.mem_cons_of_mem _ hy)) (o + 1)
    rw [List.length_cons, List.range'_succ, List.flatMap_cons, List.flatMap_cons,
      List.zip_append (by rw [hx, List.length_replicate]), List.filter_append, List.map_append, List.sum_append, ih]
    have hz : (g x).zip (List.replicate n o) = (g x).map (fun a => (a, o)) := by
      rw [← hx, List.zip_eq_zipWith]
      clear hx ih h
      induction g x with
      | nil => rfl
      | cons a l ih' => simp [List.replicate_succ, ih']
    rw [hz]
    by_cases ho : o = i
    · subst ho
      rw [List.filter_eq_self.2 (by simp), List.map_map]
      simp [Function.comp_def]
    · rw [List.filter_eq_nil_iff.2 (by simp [ho])]
      by_cases hlt : o < i
      · rw [if_pos (by omega), if_pos (by omega), show i - o = (i - (o + 1)) + 1 by omega]
        simp
      · rw [if_neg (by omega), if_neg (by omega)]; simp

theorem segmentSum_flatMap (xs : List α) (g : α → List K) (n : Nat) (h : ∀ x ∈ xs, (g x).length = n) :
    segmentSum xs.length (xs.flatMap g) (repeatEach (List.range xs.length) n) = xs.map (fun x => (g x).sum) := by
  unfold segmentSum repeatEach
  apply List.ext_getElem?
  intro i
  rw [List.getElem?_map, List.getElem?_map]
  by_cases hi : i < xs.length
  · rw [List.getElem?_range hi, Option.map_some]
    have := segment_aux xs g n h 0 i
    rw [← List.range_eq_range'] at this
    rw [this, if_pos (Nat.zero_le _), Nat.sub_zero, List.getElem?_eq_getElem hi]
    rfl
  · rw [List.getElem?_eq_none (by simpa using hi), List.getElem?_eq_none (by omega)]; rfl

theorem sum_mapRange' (f : Nat → K) (n : Nat) : ((List.range n).map f).sum = ∑ j ∈ Finset.range n, f j := by
  induction n with
  | zero => rfl
  | succ n ih => rw [List.range_succ, List.map_append, List.sum_append, ih, Finset.sum_range_succ]; simp

/-- Terms outside a window vanish. -/
theorem sum_window' (f : Nat → K) (n o k : Nat) (h : o + k ≤ n) (h1 : ∀ i, i < o → f i = 0)
    (h2 : ∀ i, o + k ≤ i → i < n → f i = 0) :
    ∑ j ∈ Finset.range n, f j = ∑ j ∈ Finset.range k, f (o + j) := by
  obtain ⟨r, rfl⟩ := Nat.exists_eq_add_of_le h
  rw [Finset.sum_range_add, Finset.sum_range_add, Finset.sum_eq_zero (s := Finset.range o)
    (fun i hi => h1 i (Finset.mem_range.1 hi)), Finset.sum_eq_zero (s := Finset.range r)
    (fun i hi => h2 _ (by omega) (by have := Finset.mem_range.1 hi; omega))]
  simp

end lists

/-! ## Schedules -/

open Props

theorem forward_dates (p : PeriodType) (rows : List ScheduleRow) (hrows : ∀ r ∈ rows, ∃ d e, ValidRow r d e)
    (hne : ∃ r ∈ rows, r.start.ordinal < r.stop.ordinal) :
    ∃ (n : Nat) (k : ScheduleRow → Nat) (y : ScheduleRow → Nat → YMD),
      genPeriodicSchedule p rows none false false =
        .ok (rows.map (fun r => (List.range (n + 1)).map (fun i => repr (y r i)))) ∧
      ∀ r ∈ rows, k r ≤ n ∧ (∀ i, (y r i).Valid ∧ 0 < (y r i).number) ∧
        (∀ i, k r ≤ i → y r i = dateOf r.stop.ordinal) ∧
        ∀ d e, ValidRow r d e → ForwardCoupons p r.quantity d e (k r) (y r) := by
  have hOK : ∀ r ∈ rows, RowOK r := fun r hr => by
    obtain ⟨d, e, h⟩ := hrows r hr; exact h.ok.1
  have hpos : ∀ r ∈ rows, 0 < r.start.ordinal := fun r hr => by
    obtain ⟨d, e, h⟩ := hrows r hr; exact h.ok.2.1
  obtain ⟨k, hthr, _, hgen⟩ := gen_forward (p := p) hOK hpos
  obtain ⟨r0, hr0, hlt⟩ := hne
  obtain ⟨a, ha, hmax⟩ := exists_max_threshold rows k (List.ne_nil_of_mem hr0)
  have hk0 : 0 < k r0 := by
    rw [hthr r0 hr0]
    unfold fwdD
    rw [Int.natCast_zero, Int.mul_zero, shiftD_zero _ _ (dateOf_valid _), dateOf_number]
    exact hlt
  have hka : 0 < k a := Nat.lt_of_lt_of_le hk0 (hmax r0 hr0)
  refine ⟨k a, k, fun r i => if i < k r then fwdD p r i else dateOf r.stop.ordinal, ?_, ?_⟩
  · rw [hgen a ha hmax hka]
    congr 1
    apply List.map_congr_left
    intro r hr
    apply List.map_congr_left
    intro i _
    beta_reduce
    by_cases hi : i < k r
    · rw [if_pos hi, if_pos hi]
    · rw [if_neg hi, if_neg hi]; exact (hOK r hr).stop
  · intro r hr
    have hval : ∀ i, (fwdD p r i).Valid := fun i => shiftD_valid _ _ _ (dateOf_valid _)
    have hle := (hOK r hr).le
    have hp0 := hpos r hr
    refine ⟨hmax r hr, fun i => ?_, fun i hi => if_neg (by omega), fun d e hv => ⟨?_, ?_, ?_⟩⟩
    · beta_reduce
      by_cases hi : i < k r
      · rw [if_pos hi]
        refine ⟨hval i, ?_⟩
        have := fwd_mono (p := p) (hOK r hr) (Nat.zero_le i)
        have h0 : (fwdD p r 0).number = r.start.ordinal := by
          unfold fwdD
          rw [Int.natCast_zero, Int.mul_zero, shiftD_zero _ _ (dateOf_valid _), dateOf_number]
        omega
      · rw [if_neg hi]
        exact ⟨dateOf_valid _, by rw [dateOf_number]; omega⟩
    · intro i hi
      obtain ⟨_, _, hd, he⟩ := hv.ok
      have e2 : r.stop.ordinal = e.number := hv.stop.2.2.2.2
      beta_reduce
      rw [if_pos hi]
      refine ⟨?_, ?_⟩
      · unfold fwdD
        rw [hd]
        exact shiftD_spec _ _ _ hv.start.1
      · rw [before_iff _ _ (hval i) hv.stop.1, ← e2]
        exact (hthr r hr i).1 hi
    · beta_reduce
      rw [if_neg (Nat.lt_irrefl _)]; exact hv.ok.2.2.2
    · intro f hf hb
      obtain ⟨_, _, hd, he⟩ := hv.ok
      have e2 : r.stop.ordinal = e.number := hv.stop.2.2.2.2
      have hsp : ShiftedBy p (r.quantity * ((k r : Nat) : Int)) d (fwdD p r (k r)) := by
        unfold fwdD
        rw [hd]
        exact shiftD_spec _ _ _ hv.start.1
      have := shiftedBy_unique hf hsp
      subst this
      rw [before_iff _ _ (hval _) hv.stop.1, ← e2] at hb
      have := (hthr r hr (k r)).2 hb
      omega

theorem backward_dates (p : PeriodType) (rows : List ScheduleRow) (hrows : ∀ r ∈ rows, ∃ d e, ValidRow r d e)
    (hne : ∃ r ∈ rows, r.start.ordinal < r.stop.ordinal) {res : List (List DateT)}
    (hres : genPeriodicSchedule p rows none true false = .ok res) :
    ∃ (n : Nat) (k : ScheduleRow → Nat) (y : ScheduleRow → Nat → YMD),
      res = rows.map (fun r => (List.range (n + 1)).map (fun i => repr (y r i))) ∧
      ∀ r ∈ rows, k r ≤ n ∧ (∀ i, (y r i).Valid ∧ 0 < (y r i).number) ∧
        (∀ i, i ≤ n - k r → y r i = dateOf r.start.ordinal) ∧
        ∀ d e, ValidRow r d e → BackwardCoupons p r.quantity d e (k r) (fun i => y r (n - k r + i)) := by
  have hOK : ∀ r ∈ rows, RowOK r := fun r hr => by
    obtain ⟨d, e, h⟩ := hrows r hr; exact h.ok.1
  have hpos : ∀ r ∈ rows, 0 < r.start.ordinal := fun r hr => by
    obtain ⟨d, e, h⟩ := hrows r hr; exact h.ok.2.1
  obtain ⟨k, hthr, _, hgen⟩ := gen_backward (p := p) hOK hres
  obtain ⟨r0, hr0, hlt⟩ := hne
  obtain ⟨a, ha, hmax⟩ := exists_max_threshold rows k (List.ne_nil_of_mem hr0)
  have hk0 : 0 < k r0 := by
    rw [hthr r0 hr0]
    unfold bwdD
    rw [Int.natCast_zero, Int.mul_zero, Int.neg_zero, shiftD_zero _ _ (dateOf_valid _), dateOf_number]
    exact hlt
  have hka : 0 < k a := Nat.lt_of_lt_of_le hk0 (hmax r0 hr0)
  refine ⟨k a, k, fun r i => if k a - i < k r then bwdD p r (k a - i) else dateOf r.start.ordinal, ?_, ?_⟩
  · rw [hgen a ha hmax hka]
    apply List.map_congr_left
    intro r hr
    apply List.map_congr_left
    intro i _
    beta_reduce
    by_cases hi : k a - i < k r
    · rw [if_pos hi, if_pos hi]
    · rw [if_neg hi, if_neg hi]; exact (hOK r hr).start
  · intro r hr
    have hm := hmax r hr
    have hval : ∀ i, (bwdD p r i).Valid := fun i => shiftD_valid _ _ _ (dateOf_valid _)
    have hp0 := hpos r hr
    refine ⟨hm, fun i => ?_, fun i hi => if_neg (by omega), fun d e hv => ⟨?_, ?_, ?_⟩⟩
    · beta_reduce
      by_cases hi : k a - i < k r
      · rw [if_pos hi]
        exact ⟨hval _, by have := (hthr r hr _).1 hi; omega⟩
      · rw [if_neg hi]
        exact ⟨dateOf_valid _, by rw [dateOf_number]; omega⟩
    · intro i hi
      obtain ⟨_, _, hd, he⟩ := hv.ok
      have e1 : r.start.ordinal = d.number := hv.start.2.2.2.2
      beta_reduce
      rw [show k a - (k a - k r + (k r - i)) = i by omega, if_pos hi]
      refine ⟨?_, ?_⟩
      · unfold bwdD
        rw [he]
        exact shiftD_spec _ _ _ hv.stop.1
      · rw [before_iff _ _ hv.start.1 (hval i), ← e1]
        exact (hthr r hr i).1 hi
    · beta_reduce
      rw [if_neg (by omega)]; exact hv.ok.2.2.1
    · intro f hf hb
      obtain ⟨_, _, hd, he⟩ := hv.ok
      have e1 : r.start.ordinal = d.number := hv.start.2.2.2.2
      have hsp : ShiftedBy p (-(r.quantity * ((k r : Nat) : Int))) e (bwdD p r (k r)) := by
        unfold bwdD
        rw [he]
        exact shiftD_spec _ _ _ hv.stop.1
      have := shiftedBy_unique hf hsp
      subst this
      rw [before_iff _ _ hv.start.1 (hval _), ← e1] at hb
      have := (hthr r hr (k r)).2 hb
      omega


/-- Which of the optional dates are supplied. -/
inductive StubKind
  | none
  | first
  | last

/-- The specification of the irregular coupon. -/
def StubKind.stub (kind : StubKind) (f : YMD) : Stub :=
  match kind with
  | .none => .none
  | .first => .first f
  | .last => .last f

/-- The part of the stream covered by the periodic schedule. -/
def StubKind.inner (kind : StubKind) (r : StreamRow) : ScheduleRow :=
  match kind with
  | .none => ⟨r.start, r.stop, r.quantity⟩
  | .first => ⟨r.first, r.stop, r.quantity⟩
  | .last => ⟨r.start, r.penultimate, r.quantity⟩

/-- The arguments `first_coupon_date is not None` and `penultimate_coupon_date is not None`; with a first coupon date the
second one is ignored. -/
def StubKind.flags (kind : StubKind) (hasFirst hasPenultimate : Bool) : Prop :=
  match kind with
  | .none => hasFirst = false ∧ hasPenultimate = false
  | .first => hasFirst = true
  | .last => hasFirst = false ∧ hasPenultimate = true

/-- A valid stream from `d` to `e` with irregular coupon at `f`. -/
structure StreamOK (kind : StubKind) (r : StreamRow) (d e f : YMD) : Prop where
  start : Represents r.start d
  stop : Represents r.stop e
  year : 1 ≤ d.year
  quantity : 0 < r.quantity
  inner : match kind with
    | .none => ¬ e.Before d
    | .first => Represents r.first f ∧ 1 ≤ f.year ∧ ¬ e.Before f
    | .last => Represents r.penultimate f ∧ ¬ f.Before d ∧ ¬ e.Before f

/-- Is coupon number `i` of `n` a regular one? -/
def StubKind.regular (kind : StubKind) (n i : Nat) : Bool :=
  match kind with
  | .none => true
  | .first => i != 0
  | .last => i + 1 != n

/-- The schedule of a batch: padded at the end, or at the start if the last coupon is irregular. -/
theorem stream_dates (p : PeriodType) (kind : StubKind) (hasFirst hasPenultimate : Bool)
    (hflags : kind.flags hasFirst hasPenultimate) (rows : List StreamRow)
    (hrows : ∀ r ∈ rows, ∃ d e f, StreamOK kind r d e f)
    (hne : ∃ r ∈ rows, (kind.inner r).start.ordinal < (kind.inner r).stop.ordinal)
    {schedule : List (List DateT × List Bool)} (hs : generateSchedule p hasFirst hasPenultimate rows = .ok schedule) :
    ∃ (n : Nat) (o k : StreamRow → Nat) (y : StreamRow → Nat → YMD),
      schedule = rows.map (fun r => ((List.range (n + 1)).map (fun i => repr (y r i)),
        (List.range n).map (kind.regular n))) ∧
      ∀ r ∈ rows, o r + k r ≤ n ∧ (∀ i, i ≤ n → (y r i).Valid ∧ 0 < (y r i).number) ∧
        (∀ i, i < o r → y r i = y r (i + 1)) ∧ (∀ i, o r + k r ≤ i → i < n → y r i = y r (i + 1)) ∧
        (match kind with | .none => True | .first => o r = 0 | .last => o r + k r = n) ∧
        ∀ d e f, StreamOK kind r d e f →
          CouponDates p r.quantity (kind.stub f) d e (k r) (fun i => y r (o r + i)) := by
  have hrows' : ∀ q ∈ rows.map kind.inner, ∃ d e, ValidRow q d e := by
    intro q hq
    obtain ⟨r, hr, rfl⟩ := List.mem_map.1 hq
    obtain ⟨d, e, f, h⟩ := hrows r hr
    have hin := h.inner
    cases kind
    · exact ⟨d, e, h.start, h.stop, h.year, hin, h.quantity⟩
    · exact ⟨f, e, hin.1, h.stop, hin.2.1, hin.2.2, h.quantity⟩
    · exact ⟨d, f, h.start, hin.1, h.year, hin.2.1, h.quantity⟩
  have hne' : ∃ q ∈ rows.map kind.inner, q.start.ordinal < q.stop.ordinal := by
    obtain ⟨r, hr, h⟩ := hne
    exact ⟨_, List.mem_map.2 ⟨r, hr, rfl⟩, h⟩
  unfold generateSchedule at hs
  cases kind with
  | none =>
    obtain ⟨rfl, rfl⟩ := hflags
    obtain ⟨n, k, y, hgen, hprop⟩ := forward_dates p _ hrows' hne'
    simp only [Bool.not_false, Bool.and_self, if_true] at hs
    have hg : genPeriodicSchedule p (rows.map (fun r => ⟨r.start, r.stop, r.quantity⟩)) Option.none false false = _ := hgen
    rw [hg, bind_ok] at hs
    simp only [pure, Except.pure, Except.ok.injEq] at hs
    refine ⟨n, fun _ => 0, fun r => k (StubKind.none.inner r), fun r => y (StubKind.none.inner r), ?_, ?_⟩
    · rw [← hs, List.map_map, List.map_map]
      apply List.map_congr_left
      intro r _
      simp only [Function.comp_apply, List.length_map, List.length_range, Nat.add_sub_cancel]
      congr 1
      rw [show StubKind.none.regular n = fun _ => true from rfl]
      simp [List.map_const']
    · intro r hr
      obtain ⟨h1, h2, h3, h4⟩ := hprop _ (List.mem_map.2 ⟨r, hr, rfl⟩)
      beta_reduce
      refine ⟨by omega, fun i _ => h2 i, fun i hi => absurd hi (Nat.not_lt_zero _),
        fun i hi _ => by rw [h3 i (by omega), h3 (i + 1) (by omega)], trivial, fun d e f h => ?_⟩
      have := h4 d e ⟨h.start, h.stop, h.year, h.inner, h.quantity⟩
      simp only [Nat.zero_add]
      exact this
  | first =>
    have hf1 : hasFirst = true := hflags
    subst hf1
    obtain ⟨n, k, y, hgen, hprop⟩ := forward_dates p _ hrows' hne'
    simp only [Bool.not_true, Bool.false_and, Bool.false_eq_true, if_false, if_true] at hs
    have hg : genPeriodicSchedule p (rows.map (fun r => ⟨r.first, r.stop, r.quantity⟩)) Option.none false false = _ := hgen
    rw [hg, bind_ok] at hs
    simp only [pure, Except.pure, Except.ok.injEq] at hs
    refine ⟨n + 1, fun _ => 0, fun r => k (StubKind.first.inner r) + 1,
      fun r i => if i = 0 then dateOf r.start.ordinal else y (StubKind.first.inner r) (i - 1), ?_, ?_⟩
    · rw [← hs, List.map_map, List.zipWith_map_right, List.zipWith_self]
      apply List.map_congr_left
      intro r hr
      obtain ⟨d, e, f, h⟩ := hrows r hr
      have e1 : r.start = repr (dateOf r.start.ordinal) := by
        have := (represents_iff _ _).1 h.start
        have hd := dateOf_of_number d h.start.1
        have e1 : r.start.ordinal = d.number := h.start.2.2.2.2
        rw [e1, hd]; exact this.2
      simp only [Function.comp_apply, List.length_map, List.length_range, Nat.add_sub_cancel, StubKind.regular]
      congr 1
      · rw [List.range_succ_eq_map (n := n + 1), List.map_cons, List.map_map, if_pos rfl, ← e1]
        congr 1
      · rw [List.range_succ_eq_map (n := n), List.map_cons, List.map_map]
        rw [show StubKind.first.regular (n + 1) 0 = false from rfl,
          show StubKind.first.regular (n + 1) ∘ Nat.succ = fun _ => true from rfl]
        simp [List.map_const']
    · intro r hr
      obtain ⟨h1, h2, h3, h4⟩ := hprop _ (List.mem_map.2 ⟨r, hr, rfl⟩)
      beta_reduce
      refine ⟨by omega, fun i _ => ?_, fun i hi => absurd hi (Nat.not_lt_zero _), fun i hi _ => ?_, rfl, fun d e f h => ?_⟩
      · by_cases hi : i = 0
        · simp only [hi, if_true]
          obtain ⟨d, e, f, h⟩ := hrows r hr
          have e1 : r.start.ordinal = d.number := h.start.2.2.2.2
          refine ⟨dateOf_valid _, ?_⟩
          rw [dateOf_number, e1]
          exact (number_pos_iff d h.start.1).2 h.year
        · simp only [if_neg hi]; exact h2 _
      · beta_reduce
        rw [if_neg (show ¬ i = 0 by omega), if_neg (Nat.succ_ne_zero i), h3 _ (by omega), h3 _ (by omega)]
      · have := h4 f e ⟨h.inner.1, h.stop, h.inner.2.1, h.inner.2.2, h.quantity⟩
        have e1 : r.start.ordinal = d.number := h.start.2.2.2.2
        refine ⟨?_, _, rfl, ?_⟩
        · simp only [Nat.add_zero, if_true]
          rw [e1, dateOf_of_number d h.start.1]
        · simp only [Nat.zero_add, Nat.succ_ne_zero, if_false, Nat.add_sub_cancel]
          exact this
  | last =>
    obtain ⟨rfl, rfl⟩ := hflags
    simp only [Bool.not_false, Bool.not_true, Bool.true_and, Bool.false_eq_true, if_false] at hs
    rw [bind_ok_iff] at hs
    obtain ⟨res, hres, hs⟩ := hs
    obtain ⟨n, k, y, hgen, hprop⟩ := backward_dates p _ hrows' hne' hres
    simp only [pure, Except.pure, Except.ok.injEq] at hs
    refine ⟨n + 1, fun r => n - k (StubKind.last.inner r), fun r => k (StubKind.last.inner r) + 1,
      fun r i => if i = n + 1 then dateOf r.stop.ordinal else y (StubKind.last.inner r) i, ?_, ?_⟩
    · rw [← hs, hgen, List.map_map, List.zipWith_map_right, List.zipWith_self]
      apply List.map_congr_left
      intro r hr
      obtain ⟨d, e, f, h⟩ := hrows r hr
      have e1 : r.stop = repr (dateOf r.stop.ordinal) := by
        have := (represents_iff _ _).1 h.stop
        have hd := dateOf_of_number e h.stop.1
        have e1 : r.stop.ordinal = e.number := h.stop.2.2.2.2
        rw [e1, hd]; exact this.2
      simp only [Function.comp_apply, List.length_map, List.length_range, Nat.add_sub_cancel, StubKind.regular]
      congr 1
      · rw [List.range_succ (n := n + 1), List.map_append, List.map_singleton, if_pos rfl, ← e1]
        congr 1
        apply List.map_congr_left
        intro i hi
        rw [if_neg (by have := List.mem_range.1 hi; omega)]
      · rw [List.range_succ (n := n), List.map_append, List.map_singleton]
        rw [show StubKind.last.regular (n + 1) n = false by simp [StubKind.regular]]
        congr 1
        apply List.ext_getElem?
        intro i
        simp only [List.getElem?_replicate, List.getElem?_map]
        by_cases hi : i < n
        · rw [if_pos hi, List.getElem?_range hi]
          simp only [Option.map_some, Option.some.injEq]
          have : StubKind.last.regular (n + 1) i = true := by simp [StubKind.regular]; omega
          rw [this]
        · rw [if_neg hi, List.getElem?_eq_none (by simpa using hi)]; rfl
    · intro r hr
      obtain ⟨h1, h2, h3, h4⟩ := hprop _ (List.mem_map.2 ⟨r, hr, rfl⟩)
      beta_reduce
      refine ⟨by omega, fun i _ => ?_, fun i hi => ?_, fun i hi hi' => absurd hi' (by omega), by show _ + (_ + 1) = _; omega, fun d e f h => ?_⟩
      · by_cases hi : i = n + 1
        · simp only [hi, if_true]
          obtain ⟨d, e, f, h⟩ := hrows r hr
          have e1 : r.start.ordinal = d.number := h.start.2.2.2.2
          have e2 : r.stop.ordinal = e.number := h.stop.2.2.2.2
          have e3 := (number_pos_iff d h.start.1).2 h.year
          have a1 := mt (before_iff f d h.inner.1.1 h.start.1).2 h.inner.2.1
          have a2 := mt (before_iff e f h.stop.1 h.inner.1.1).2 h.inner.2.2
          refine ⟨dateOf_valid _, ?_⟩
          rw [dateOf_number]
          omega
        · simp only [if_neg hi]; exact h2 _
      · beta_reduce
        rw [if_neg (show ¬ i = n + 1 by omega), if_neg (show ¬ i + 1 = n + 1 by omega), h3 _ (by omega), h3 _ (by omega)]
      · have := h4 d f ⟨h.start, h.inner.1, h.year, h.inner.2.1, h.quantity⟩
        have e1 : r.stop.ordinal = e.number := h.stop.2.2.2.2
        refine ⟨?_, _, rfl, ?_⟩
        · beta_reduce
          rw [if_pos (by omega), e1, dateOf_of_number e h.stop.1]
        · obtain ⟨g1, g2, g3⟩ := this
          refine ⟨fun i hi => ?_, ?_, g3⟩
          · beta_reduce
            rw [if_neg (by omega)]; exact g1 i hi
          · beta_reduce
            rw [if_neg (by omega)]; exact g2

end Lemmas
