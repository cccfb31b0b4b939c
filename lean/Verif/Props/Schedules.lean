import Verif.Lemmas.Schedules
import Verif.Props.UnboundedCalendar

/-!
# Property theorems C15, C16: schedules
-/

namespace Props
open Model Spec

/-! ## C15 -/

/-- A row of the input: valid dates `d` (start, year 1 or later) and `e` (end), `e` not before `d`, and
a positive tenor. -/
structure ValidRow (r : ScheduleRow) (d e : YMD) : Prop where
  start : Represents r.start d
  stop : Represents r.stop e
  year : 1 ≤ d.year
  order : ¬ e.Before d
  quantity : 0 < r.quantity

/-- `row` is the forward schedule from `d` to `e` with tenor `q` units `u`: for some `k` it lists
`d + 0·q, d + 1·q, ..., d + (k-1)·q`, all before `e`, followed by at least one `e` (the first one is the
end date, the others padding), and `d + k·q` is no longer before `e` (so nothing is missed). -/
def ForwardSchedule (u : PeriodType) (q : Int) (d e : YMD) (row : List DateT) : Prop :=
  ∃ k, k < row.length ∧
    (∀ i (h : i < row.length), if i < k
      then ∃ f, Represents row[i] f ∧ ShiftedBy u (q * (i : Int)) d f ∧ f.Before e
      else Represents row[i] e) ∧
    (∀ f, ShiftedBy u (q * (k : Int)) d f → ¬ f.Before e)

/-- The backward schedule, read from its last entry: `e, e - q, ..., e - (k-1)·q`, all after `d`, then at
least one `d`, and `e - k·q` is no longer after `d`. -/
def BackwardSchedule (u : PeriodType) (q : Int) (d e : YMD) (row : List DateT) : Prop :=
  ∃ k, k < row.length ∧
    (∀ i (h : i < row.length), if i < k
      then ∃ f, Represents row[row.length - 1 - i] f ∧ ShiftedBy u (-(q * (i : Int))) e f ∧ d.Before f
      else Represents row[row.length - 1 - i] d) ∧
    (∀ f, ShiftedBy u (-(q * (k : Int))) e f → ¬ d.Before f)

theorem ValidRow.ok {r : ScheduleRow} {d e : YMD} (h : ValidRow r d e) :
    Lemmas.RowOK r ∧ 0 < r.start.ordinal ∧ Lemmas.dateOf r.start.ordinal = d ∧
      Lemmas.dateOf r.stop.ordinal = e := by
  have e1 : r.start.ordinal = d.number := h.start.2.2.2.2
  have e2 : r.stop.ordinal = e.number := h.stop.2.2.2.2
  have hd := Lemmas.dateOf_of_number d h.start.1
  have he := Lemmas.dateOf_of_number e h.stop.1
  refine ⟨⟨?_, ?_, ?_, h.quantity⟩, ?_, by rw [e1, hd], by rw [e2, he]⟩
  · rw [e1, hd]; exact ((represents_iff _ _).1 h.start).2
  · rw [e2, he]; exact ((represents_iff _ _).1 h.stop).2
  · have := mt (Lemmas.before_iff e d h.stop.1 h.start.1).2 h.order; omega
  · rw [e1]; exact (Lemmas.number_pos_iff d h.start.1).2 h.year

/-- C15: forward schedules.  Every row is the forward schedule of its input row; all rows have the same
length `len`, and `len` is not too large: some row is not padded. -/
theorem C15_forward (p : PeriodType) (rows : List ScheduleRow)
    (hrows : ∀ r ∈ rows, ∃ d e, ValidRow r d e)
    (hne : ∃ r ∈ rows, r.start.ordinal < r.stop.ordinal) :
    ∃ (f : ScheduleRow → List DateT) (len : Nat),
      genPeriodicSchedule p rows none false false = .ok (rows.map f) ∧
      (∀ r ∈ rows, ∀ d e, ValidRow r d e →
        (f r).length = len ∧ ForwardSchedule p r.quantity d e (f r)) ∧
      (∃ r ∈ rows, ∀ i (h : i < (f r).length), i + 1 < len → (f r)[i].ordinal < r.stop.ordinal) := by
  have hOK : ∀ r ∈ rows, Lemmas.RowOK r := fun r hr => by
    obtain ⟨d, e, h⟩ := hrows r hr; exact h.ok.1
  have hpos : ∀ r ∈ rows, 0 < r.start.ordinal := fun r hr => by
    obtain ⟨d, e, h⟩ := hrows r hr; exact h.ok.2.1
  obtain ⟨k, hthr, _, hgen⟩ := Lemmas.gen_forward (p := p) hOK hpos
  obtain ⟨r0, hr0, hlt⟩ := hne
  obtain ⟨a, ha, hmax⟩ := Lemmas.exists_max_threshold rows k (List.ne_nil_of_mem hr0)
  have hk0 : 0 < k r0 := by
    rw [hthr r0 hr0]
    unfold Lemmas.fwdD
    rw [Int.natCast_zero, Int.mul_zero, Lemmas.shiftD_zero _ _ (Lemmas.dateOf_valid _), Lemmas.dateOf_number]
    exact hlt
  have hka : 0 < k a := Nat.lt_of_lt_of_le hk0 (hmax r0 hr0)
  refine ⟨_, k a + 1, hgen a ha hmax hka, ?_, a, ha, ?_⟩
  · intro r hr d e hv
    obtain ⟨_, _, hd, he⟩ := hv.ok
    have e2 : r.stop.ordinal = e.number := hv.stop.2.2.2.2
    have hval : ∀ i, (Lemmas.fwdD p r i).Valid := fun i => Lemmas.shiftD_valid _ _ _ (Lemmas.dateOf_valid _)
    have hsp : ∀ i : Nat, ShiftedBy p (r.quantity * (i : Int)) d (Lemmas.fwdD p r i) := by
      intro i
      unfold Lemmas.fwdD
      rw [hd]
      exact Lemmas.shiftD_spec _ _ _ hv.start.1
    refine ⟨by simp, k r, by have := hmax r hr; simp; omega, ?_, ?_⟩
    · intro i hi
      simp only [List.length_map, List.length_range] at hi
      rw [List.getElem_map, List.getElem_range]
      by_cases hik : i < k r
      · rw [if_pos hik, if_pos hik]
        refine ⟨Lemmas.fwdD p r i, (represents_iff _ _).2 ⟨hval i, rfl⟩, hsp i, ?_⟩
        rw [Lemmas.before_iff _ _ (hval i) hv.stop.1, ← e2]
        exact (hthr r hr i).1 hik
      · rw [if_neg hik, if_neg hik]; exact hv.stop
    · intro f hf hb
      have := Lemmas.shiftedBy_unique hf (hsp (k r))
      subst this
      rw [Lemmas.before_iff _ _ (hval _) hv.stop.1, ← e2] at hb
      have := (hthr r hr (k r)).2 hb
      omega
  · intro i hi hlen
    simp only [List.length_map, List.length_range] at hi
    rw [List.getElem_map, List.getElem_range, if_pos (by omega)]
    exact (hthr a ha i).1 (by omega)

/-- C15: backward schedules, mirrored.  (Going back from another row's end by as many periods as the
longest row needs may leave year 1, then the call fails; see `C15_backward_total`.) -/
theorem C15_backward (p : PeriodType) (rows : List ScheduleRow)
    (hrows : ∀ r ∈ rows, ∃ d e, ValidRow r d e)
    (hne : ∃ r ∈ rows, r.start.ordinal < r.stop.ordinal) (res : List (List DateT))
    (hres : genPeriodicSchedule p rows none true false = .ok res) :
    ∃ (f : ScheduleRow → List DateT) (len : Nat), res = rows.map f ∧
      (∀ r ∈ rows, ∀ d e, ValidRow r d e →
        (f r).length = len ∧ BackwardSchedule p r.quantity d e (f r)) ∧
      (∃ r ∈ rows, ∀ i (h : i < (f r).length), 0 < i → r.start.ordinal < (f r)[i].ordinal) := by
  have hOK : ∀ r ∈ rows, Lemmas.RowOK r := fun r hr => by
    obtain ⟨d, e, h⟩ := hrows r hr; exact h.ok.1
  obtain ⟨k, hthr, _, hgen⟩ := Lemmas.gen_backward (p := p) hOK hres
  obtain ⟨r0, hr0, hlt⟩ := hne
  obtain ⟨a, ha, hmax⟩ := Lemmas.exists_max_threshold rows k (List.ne_nil_of_mem hr0)
  have hk0 : 0 < k r0 := by
    rw [hthr r0 hr0]
    unfold Lemmas.bwdD
    rw [Int.natCast_zero, Int.mul_zero, Int.neg_zero, Lemmas.shiftD_zero _ _ (Lemmas.dateOf_valid _), Lemmas.dateOf_number]
    exact hlt
  have hka : 0 < k a := Nat.lt_of_lt_of_le hk0 (hmax r0 hr0)
  refine ⟨_, k a + 1, hgen a ha hmax hka, ?_, a, ha, ?_⟩
  · intro r hr d e hv
    obtain ⟨_, _, hd, he⟩ := hv.ok
    have e1 : r.start.ordinal = d.number := hv.start.2.2.2.2
    have hval : ∀ i, (Lemmas.bwdD p r i).Valid := fun i => Lemmas.shiftD_valid _ _ _ (Lemmas.dateOf_valid _)
    have hsp : ∀ i : Nat, ShiftedBy p (-(r.quantity * (i : Int))) e (Lemmas.bwdD p r i) := by
      intro i
      unfold Lemmas.bwdD
      rw [he]
      exact Lemmas.shiftD_spec _ _ _ hv.stop.1
    refine ⟨by simp, k r, by have := hmax r hr; simp; omega, ?_, ?_⟩
    · intro i hi
      simp only [List.length_map, List.length_range] at hi
      rw [List.getElem_map, List.getElem_range]
      simp only [List.length_map, List.length_range]
      rw [show k a - (k a + 1 - 1 - i) = i by omega]
      by_cases hik : i < k r
      · rw [if_pos hik, if_pos hik]
        refine ⟨Lemmas.bwdD p r i, (represents_iff _ _).2 ⟨hval i, rfl⟩, hsp i, ?_⟩
        rw [Lemmas.before_iff _ _ hv.start.1 (hval i), ← e1]
        exact (hthr r hr i).1 hik
      · rw [if_neg hik, if_neg hik]; exact hv.start
    · intro f hf hb
      have := Lemmas.shiftedBy_unique hf (hsp (k r))
      subst this
      rw [Lemmas.before_iff _ _ hv.start.1 (hval _), ← e1] at hb
      have := (hthr r hr (k r)).2 hb
      omega
  · intro i hi h0
    simp only [List.length_map, List.length_range] at hi
    rw [List.getElem_map, List.getElem_range, if_pos (by omega)]
    exact (hthr a ha _).1 (by omega)

/-- C15: backward schedules exist for month and year tenors, and for a single row. -/
theorem C15_backward_total (p : PeriodType) (rows : List ScheduleRow)
    (hrows : ∀ r ∈ rows, ∃ d e, ValidRow r d e)
    (h : p = .MONTH ∨ p = .YEAR ∨ rows.length = 1) :
    ∃ res, genPeriodicSchedule p rows none true false = .ok res := by
  have hOK : ∀ r ∈ rows, Lemmas.RowOK r := fun r hr => by
    obtain ⟨d, e, h⟩ := hrows r hr; exact h.ok.1
  apply Lemmas.gen_backward_ok hOK
  rcases h with h | h | h
  · exact Or.inl h
  · exact Or.inr (Or.inl h)
  · cases p
    case MONTH => exact Or.inl rfl
    case YEAR => exact Or.inr (Or.inl rfl)
    all_goals
      refine Or.inr (Or.inr fun r hr i hi => ?_)
      obtain ⟨r', rfl⟩ := List.length_eq_one_iff.1 h
      have : r = r' := by simpa using hr
      subst this
      obtain ⟨d, e, hv⟩ := hrows r hr
      have hpos := hv.ok.2.1
      simp only [scheduleLenUpperBound, List.map_cons, List.map_nil, List.max?_singleton, Option.getD_some,
        minDaysInPeriod] at hi
      have hlt := Lemmas.ceilDiv_lt _ _ _ (by have := hv.quantity; omega) hi
      simp only [Lemmas.bwdD, Lemmas.shiftD, Lemmas.dateOf_number]
      rw [Int.mul_comm] at hlt
      first
        | (rw [Int.mul_one] at hlt; omega)
        | (rw [Int.mul_assoc, Int.mul_comm 7, ← Int.mul_assoc] at hlt; omega)

/-- C15: a forward schedule starts with the start date, ends with the end date, and is sorted (strictly
until the padding). -/
theorem C15_forward_shape {u : PeriodType} {q : Int} {d e : YMD} {row : List DateT} (hd : d.Valid)
    (hq : 0 < q) (ho : ¬ e.Before d) (h : ForwardSchedule u q d e row) :
    (∃ h0 : 0 < row.length, Represents row[0] d ∧ Represents row[row.length - 1] e) ∧
    ∀ i j (hi : i < j) (hj : j < row.length), row[i].ordinal ≤ row[j].ordinal ∧
      (row[i].ordinal = row[j].ordinal → Represents row[i] e) := by
  obtain ⟨k, hk, hrow, hlast⟩ := h
  have h0 : 0 < row.length := by omega
  have hend : Represents row[row.length - 1] e := by
    have := hrow (row.length - 1) (by omega)
    rwa [if_neg (by omega)] at this
  refine ⟨⟨h0, ?_, hend⟩, ?_⟩
  · have hz := hrow 0 h0
    by_cases hk0 : 0 < k
    · rw [if_pos hk0] at hz
      obtain ⟨f, hf, hs, _⟩ := hz
      have hs' : ShiftedBy u (q * ((0 : Nat) : Int)) d d := by
        rw [Int.natCast_zero, Int.mul_zero]
        have := Lemmas.shiftD_spec u 0 d hd
        rwa [Lemmas.shiftD_zero u d hd] at this
      rw [Lemmas.shiftedBy_unique hs hs'] at hf
      exact hf
    · rw [if_neg hk0] at hz
      have hz' : k = 0 := by omega
      subst hz'
      have hs' : ShiftedBy u (q * ((0 : Nat) : Int)) d d := by
        rw [Int.natCast_zero, Int.mul_zero]
        have := Lemmas.shiftD_spec u 0 d hd
        rwa [Lemmas.shiftD_zero u d hd] at this
      have h1 := hlast d hs'
      rw [Lemmas.before_iff _ _ hd hend.1] at h1
      rw [Lemmas.before_iff _ _ hend.1 hd] at ho
      rw [Lemmas.number_inj d e hd hend.1 (by omega)]
      exact hz
  · intro i j hij hj
    have hi := hrow i (by omega)
    have hj' := hrow j hj
    by_cases h1 : i < k
    · rw [if_pos h1] at hi
      obtain ⟨f, hf, hs, hb⟩ := hi
      have ef : row[i].ordinal = f.number := hf.2.2.2.2
      by_cases h2 : j < k
      · rw [if_pos h2] at hj'
        obtain ⟨g, hg, hs', _⟩ := hj'
        have eg : row[j].ordinal = g.number := hg.2.2.2.2
        rw [Lemmas.shiftedBy_unique hs (Lemmas.shiftD_spec u _ d hd)] at ef
        rw [Lemmas.shiftedBy_unique hs' (Lemmas.shiftD_spec u _ d hd)] at eg
        have := Lemmas.shiftD_mono u (m := q * (i : Int)) (n := q * (j : Int))
          (Int.mul_lt_mul_of_pos_left (by omega) hq) d hd
        exact ⟨by omega, fun hh => by omega⟩
      · rw [if_neg h2] at hj'
        have eg : row[j].ordinal = e.number := hj'.2.2.2.2
        rw [Lemmas.before_iff _ _ hf.1 hj'.1] at hb
        exact ⟨by omega, fun hh => by omega⟩
    · rw [if_neg h1] at hi
      rw [if_neg (by omega)] at hj'
      have ef : row[i].ordinal = e.number := hi.2.2.2.2
      have eg : row[j].ordinal = e.number := hj'.2.2.2.2
      exact ⟨by omega, fun _ => hi⟩

/-- C15: a backward schedule starts with the start date and ends with the end date, and is sorted. -/
theorem C15_backward_shape {u : PeriodType} {q : Int} {d e : YMD} {row : List DateT} (he : e.Valid)
    (hq : 0 < q) (ho : ¬ e.Before d) (h : BackwardSchedule u q d e row) :
    (∃ h0 : 0 < row.length, Represents row[0] d ∧ Represents row[row.length - 1] e) ∧
    ∀ i j (hi : i < j) (hj : j < row.length), row[i].ordinal ≤ row[j].ordinal ∧
      (row[i].ordinal = row[j].ordinal → Represents row[i] d) := by
  obtain ⟨k, hk, hrow, hlast⟩ := h
  have h0 : 0 < row.length := by omega
  have hstart : Represents row[0] d := by
    have := hrow (row.length - 1) (by omega)
    rw [if_neg (by omega)] at this
    have e0 : row.length - 1 - (row.length - 1) = 0 := by omega
    simp only [e0] at this
    exact this
  have hs0 : ShiftedBy u (-(q * ((0 : Nat) : Int))) e e := by
    rw [Int.natCast_zero, Int.mul_zero, Int.neg_zero]
    have := Lemmas.shiftD_spec u 0 e he
    rwa [Lemmas.shiftD_zero u e he] at this
  refine ⟨⟨h0, hstart, ?_⟩, ?_⟩
  · have hz := hrow 0 h0
    by_cases hk0 : 0 < k
    · rw [if_pos hk0] at hz
      obtain ⟨f, hf, hs, _⟩ := hz
      rw [Lemmas.shiftedBy_unique hs hs0] at hf
      exact hf
    · rw [if_neg hk0] at hz
      have hz' : k = 0 := by omega
      subst hz'
      have h1 := hlast e hs0
      rw [Lemmas.before_iff _ _ hstart.1 he] at h1
      rw [Lemmas.before_iff _ _ he hstart.1] at ho
      rw [← Lemmas.number_inj d e hstart.1 he (by omega)]
      exact hz
  · intro i j hij hj
    have hi := hrow (row.length - 1 - i) (by omega)
    have hj' := hrow (row.length - 1 - j) (by omega)
    have ei : row.length - 1 - (row.length - 1 - i) = i := by omega
    have ej : row.length - 1 - (row.length - 1 - j) = j := by omega
    simp only [ei] at hi
    simp only [ej] at hj'
    by_cases h1 : row.length - 1 - j < k
    · rw [if_pos h1] at hj'
      obtain ⟨f, hf, hs, hb⟩ := hj'
      have ef : row[j].ordinal = f.number := hf.2.2.2.2
      by_cases h2 : row.length - 1 - i < k
      · rw [if_pos h2] at hi
        obtain ⟨g, hg, hs', _⟩ := hi
        have eg : row[i].ordinal = g.number := hg.2.2.2.2
        rw [Lemmas.shiftedBy_unique hs (Lemmas.shiftD_spec u _ e he)] at ef
        rw [Lemmas.shiftedBy_unique hs' (Lemmas.shiftD_spec u _ e he)] at eg
        have := Lemmas.shiftD_mono u (m := -(q * ((row.length - 1 - i : Nat) : Int)))
          (n := -(q * ((row.length - 1 - j : Nat) : Int)))
          (by have := Int.mul_lt_mul_of_pos_left (show ((row.length - 1 - j : Nat) : Int) < (row.length - 1 - i : Nat) by omega) hq
              omega) e he
        exact ⟨by omega, fun hh => by omega⟩
      · rw [if_neg h2] at hi
        have eg : row[i].ordinal = d.number := hi.2.2.2.2
        rw [Lemmas.before_iff _ _ hi.1 hf.1] at hb
        exact ⟨by omega, fun hh => by omega⟩
    · rw [if_neg h1] at hj'
      rw [if_neg (by omega)] at hi
      have ef : row[i].ordinal = d.number := hi.2.2.2.2
      have eg : row[j].ordinal = d.number := hj'.2.2.2.2
      exact ⟨by omega, fun _ => hi⟩

/-- C15 (deviation found in the code): when start and end agree in every row the schedules are empty:
neither start nor end date is included. -/
theorem C15_degenerate_schedule_is_empty (p : PeriodType) (rows : List ScheduleRow)
    (hrows : ∀ r ∈ rows, ∃ d e, ValidRow r d e) (h : ∀ r ∈ rows, r.start.ordinal = r.stop.ordinal) :
    genPeriodicSchedule p rows none false false = .ok (rows.map (fun _ => [])) := by
  have hOK : ∀ r ∈ rows, Lemmas.RowOK r := fun r hr => by
    obtain ⟨d, e, h⟩ := hrows r hr; exact h.ok.1
  have hpos : ∀ r ∈ rows, 0 < r.start.ordinal := fun r hr => by
    obtain ⟨d, e, h⟩ := hrows r hr; exact h.ok.2.1
  obtain ⟨k, hthr, hgen, _⟩ := Lemmas.gen_forward (p := p) hOK hpos
  apply hgen
  intro r hr
  have h1 := mt (hthr r hr 0).1 (by
    unfold Lemmas.fwdD
    rw [Int.natCast_zero, Int.mul_zero, Lemmas.shiftD_zero _ _ (Lemmas.dateOf_valid _), Lemmas.dateOf_number,
      h r hr]
    omega)
  omega

/-- C15: rolling is applied to every date of the schedule. -/
theorem C15_roll (p : PeriodType) (rows : List ScheduleRow) (cal : CalendarOps)
    (conv : BusinessDayConvention) (b eom : Bool) :
    genPeriodicSchedule p rows (some (cal, conv)) b eom =
      (genPeriodicSchedule p rows none b eom).bind
        (fun s => s.mapM (fun l => l.mapM (fun t => cal.roll t conv))) := by
  unfold genPeriodicSchedule
  by_cases h1 : (eom && (p == .DAY || p == .WEEK)) = true
  · rw [if_pos h1, if_pos h1]; rfl
  rw [if_neg h1, if_neg h1]
  by_cases h2 : ¬ (rows.all (fun r => decide (r.start.ordinal ≤ r.stop.ordinal))) = true
  · rw [if_pos h2, if_pos h2]; rfl
  rw [if_neg h2, if_neg h2]
  by_cases h3 : ¬ (rows.all (fun r => decide (0 < r.quantity))) = true
  · rw [if_pos h3, if_pos h3]; rfl
  rw [if_neg h3, if_neg h3]
  simp only
  generalize (if b = true then _ else _ : Except String (List (List DateT))) = x
  cases x with
  | error e => rfl
  | ok s =>
    simp only [Lemmas.bind_ok]
    generalize (if eom = true then _ else _ : Except String (List (List DateT))) = y
    cases y <;> rfl

/-- The last day of the month of a date. -/
def monthEnd (x : YMD) : YMD := ⟨x.year, x.month, monthLength x.year x.month⟩

theorem toEndOfMonth_eq {t : DateT} {x : YMD} (h : Represents t x) :
    t.toEndOfMonth = .ok (Lemmas.repr (monthEnd x)) ∧ (monthEnd x).Valid := by
  obtain ⟨hv, hy, hm, hd, ho⟩ := h
  obtain ⟨h1, h2, h3, h4⟩ := hv
  have hv' : (monthEnd x).Valid := by
    refine ⟨h1, h2, ?_, ?_⟩
    · show 1 ≤ monthLength x.year x.month; omega
    · exact Int.le_refl _
  refine ⟨?_, hv'⟩
  unfold DateT.toEndOfMonth
  rw [Lemmas.numDaysInMonth_eq _ _ (by omega) (by omega), hy, hm]
  exact Lemmas.fromYearMonthDay_valid_unchecked _ hv'

/-- C15: the end-of-month option.  It is rejected for day and week tenors.  For month and year tenors
every date of a row is moved to the end of its month if the anchor of the row (the start date of a
forward, the end date of a backward schedule) is the last day of its month, and nothing is changed
otherwise. -/
theorem C15_end_of_month (p : PeriodType) (rows : List ScheduleRow) (b : Bool)
    (hrows : ∀ r ∈ rows, ∃ d e, ValidRow r d e) :
    ((p = .DAY ∨ p = .WEEK) → ∃ msg, genPeriodicSchedule p rows none b true = .error msg) ∧
    ((p = .MONTH ∨ p = .YEAR) → ∀ f : ScheduleRow → List DateT,
      genPeriodicSchedule p rows none b false = .ok (rows.map f) →
      (∀ r ∈ rows, ∀ t ∈ f r, ∃ x, Represents t x) →
      ∃ g : ScheduleRow → List DateT, genPeriodicSchedule p rows none b true = .ok (rows.map g) ∧
        ∀ r ∈ rows, ∀ d e, ValidRow r d e →
          if (if b then e else d) = monthEnd (if b then e else d) then
            (g r).length = (f r).length ∧
              ∀ i (hi : i < (f r).length) (hi' : i < (g r).length) x, Represents (f r)[i] x →
                Represents (g r)[i] (monthEnd x)
          else g r = f r) := by
  constructor
  · intro h
    unfold genPeriodicSchedule
    rw [if_pos (by rcases h with rfl | rfl <;> rfl)]
    exact ⟨_, rfl⟩
  · intro hp f hf hvalid
    have hex : ∀ t : DateT, ∃ t', (∃ x, Represents t x) → t.toEndOfMonth = .ok t' ∧
        ∀ x, Represents t x → Represents t' (monthEnd x) := by
      intro t
      by_cases hx : ∃ x, Represents t x
      · obtain ⟨x, hx⟩ := hx
        obtain ⟨h1, h2⟩ := toEndOfMonth_eq hx
        refine ⟨_, fun _ => ⟨h1, fun y hy => ?_⟩⟩
        obtain ⟨h3, h4⟩ := toEndOfMonth_eq hy
        rw [h1] at h3
        rw [Except.ok.inj h3]
        exact (represents_iff _ _).2 ⟨h4, rfl⟩
      · exact ⟨t, fun h => absurd h hx⟩
    obtain ⟨m, hm⟩ := Classical.skolem.1 hex
    have hsplit : genPeriodicSchedule p rows none b true =
        (genPeriodicSchedule p rows none b false).bind
          (fun s => (rows.zip s).mapM (fun q => endOfMonthRow b q.1 q.2)) := by
      have hne : ¬ ((true && (p == .DAY || p == .WEEK)) = true) := by
        rcases hp with rfl | rfl <;> simp +decide
      unfold genPeriodicSchedule
      rw [if_neg hne, if_neg (show ¬ ((false && (p == .DAY || p == .WEEK)) = true) by simp)]
      by_cases h2 : ¬ (rows.all (fun r => decide (r.start.ordinal ≤ r.stop.ordinal))) = true
      · rw [if_pos h2, if_pos h2]; rfl
      rw [if_neg h2, if_neg h2]
      by_cases h3 : ¬ (rows.all (fun r => decide (0 < r.quantity))) = true
      · rw [if_pos h3, if_pos h3]; rfl
      rw [if_neg h3, if_neg h3]
      simp only
      generalize (if b = true then _ else _ : Except String (List (List DateT))) = x
      cases x with
      | error e => rfl
      | ok s =>
        simp only [Lemmas.bind_ok, if_true, Bool.false_eq_true, if_false]
        show _ = (rows.zip s).mapM _
        cases (rows.zip s).mapM (fun q => endOfMonthRow b q.1 q.2) <;> rfl
    have hanch : ∀ r ∈ rows, ∃ v : Bool, (if b then r.stop else r.start).isEndOfMonth = .ok v ∧
        ∀ d e, ValidRow r d e → (v = true ↔
          (if b then e else d) = monthEnd (if b then e else d)) := by
      intro r hr
      obtain ⟨d, e, hv⟩ := hrows r hr
      have hR : Represents (if b then r.stop else r.start) (if b then e else d) := by
        cases b
        · exact hv.start
        · exact hv.stop
      obtain ⟨hv1, hy, hm, hd, ho⟩ := hR
      obtain ⟨h1, h2, h3, h4⟩ := hv1
      unfold DateT.isEndOfMonth
      rw [Lemmas.numDaysInMonth_eq _ _ (by omega) (by omega)]
      refine ⟨_, rfl, fun d' e' hv' => ?_⟩
      have e1 : d' = d := by rw [← hv'.ok.2.2.1, hv.ok.2.2.1]
      have e2 : e' = e := by rw [← hv'.ok.2.2.2, hv.ok.2.2.2]
      rw [e1, e2, beq_iff_eq, hy, hm, hd]
      unfold monthEnd
      constructor
      · intro h; rw [← h]
      · intro h; exact congrArg YMD.day h
    have hex2 : ∀ r : ScheduleRow, ∃ v : Bool, r ∈ rows →
        (if b then r.stop else r.start).isEndOfMonth = .ok v ∧
        ∀ d e, ValidRow r d e → (v = true ↔
          (if b then e else d) = monthEnd (if b then e else d)) := by
      intro r
      by_cases hr : r ∈ rows
      · obtain ⟨v, hv⟩ := hanch r hr; exact ⟨v, fun _ => hv⟩
      · exact ⟨true, fun h => absurd h hr⟩
    obtain ⟨v, hv⟩ := Classical.skolem.1 hex2
    refine ⟨fun r => if v r then (f r).map m else f r, ?_, ?_⟩
    · rw [hsplit, hf]
      show (rows.zip (rows.map f)).mapM _ = _
      rw [Lemmas.zip_map_self, Lemmas.mapM_ok _ (fun q => if v q.1 then q.2.map m else q.2), List.map_map]
      · rfl
      · intro q hq
        obtain ⟨r, hr, rfl⟩ := List.mem_map.1 hq
        unfold endOfMonthRow
        simp only
        rw [(hv r hr).1, Lemmas.bind_ok,
          Lemmas.mapM_ok _ m (f r) (fun t ht => (hm t (hvalid r hr t ht)).1), Lemmas.bind_ok]
        rfl
    · intro r hr d e hvr
      have hiff := (hv r hr).2 d e hvr
      by_cases hc : v r = true
      · rw [if_pos (hiff.1 hc)]
        simp only [hc, if_true]
        refine ⟨by simp, fun i hi hi' x hx => ?_⟩
        rw [List.getElem_map]
        exact (hm _ ⟨x, hx⟩).2 x hx
      · rw [if_neg (fun hh => hc (hiff.2 hh))]
        simp only [hc]; rfl

/-! Examples: 2020-01-31 to 2020-06-15 monthly, in a batch with a shorter row. -/

def row1 : ScheduleRow := ⟨⟨737455, 2020, 1, 31⟩, ⟨737591, 2020, 6, 15⟩, 1⟩
def row2 : ScheduleRow := ⟨⟨737470, 2020, 2, 15⟩, ⟨737541, 2020, 4, 26⟩, 2⟩

example : ValidRow row1 ⟨2020, 1, 31⟩ ⟨2020, 6, 15⟩ ∧ ValidRow row2 ⟨2020, 2, 15⟩ ⟨2020, 4, 26⟩ :=
  ⟨⟨⟨by decide, rfl, rfl, rfl, by decide⟩, ⟨by decide, rfl, rfl, rfl, by decide⟩, by decide, by unfold YMD.Before; decide, by decide⟩,
   ⟨⟨by decide, rfl, rfl, rfl, by decide⟩, ⟨by decide, rfl, rfl, rfl, by decide⟩, by decide, by unfold YMD.Before; decide, by decide⟩⟩

example : (genPeriodicSchedule .MONTH [row1, row2] none false false).toOption.map
      (List.map (List.map (fun t => (t.month, t.day)))) =
    some [[(1, 31), (2, 29), (3, 31), (4, 30), (5, 31), (6, 15)],
          [(2, 15), (4, 15), (4, 26), (4, 26), (4, 26), (4, 26)]] := by decide +kernel

example : (genPeriodicSchedule .MONTH [row1, row2] none true false).toOption.map
      (List.map (List.map (fun t => (t.month, t.day)))) =
    some [[(1, 31), (2, 15), (3, 15), (4, 15), (5, 15), (6, 15)],
          [(2, 15), (2, 15), (2, 15), (2, 15), (2, 26), (4, 26)]] := by decide +kernel

example : (genPeriodicSchedule .MONTH [row1, row2] (some (ucal2020.ops, .MODIFIED_FOLLOWING))
      false true).toOption.map (List.map (List.map (fun t => (t.month, t.day)))) =
    some [[(1, 31), (2, 28), (3, 31), (4, 30), (5, 29), (6, 30)],
          [(2, 17), (4, 15), (4, 27), (4, 27), (4, 27), (4, 27)]] := by decide +kernel

end Props
