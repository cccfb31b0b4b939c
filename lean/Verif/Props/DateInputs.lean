import Verif.Model.DateInputs
import Verif.Props.Dates
import Verif.Props.BoundedCalendar
import Verif.Lemmas.Schedules
import Verif.Lemmas.AndersenLake
import Mathlib.MeasureTheory.Measure.Lebesgue.Basic

/-! # C130 Conversion of inputs to dates, random dates -/

namespace Spec

/-- The array holds exactly these dates, as a vector. -/
def DatesOf (t : Model.DateArray) (ds : List YMD) : Prop := t.1 = [ds.length] ∧ List.Forall₂ Props.Represents t.2 ds

/-- A date of year 1 or later. -/
def RealDate (d : YMD) : Prop := d.Valid ∧ 1 ≤ d.year

end Spec

namespace Lemmas
open Model Spec

theorem mapM_ok_iff {α β : Type} (f : α → Except String β) (l : List α) :
    (∃ r, l.mapM f = .ok r) ↔ ∀ x ∈ l, ∃ b, f x = .ok b := by
  constructor
  · rintro ⟨r, hr⟩ x hx
    obtain ⟨h1, h2⟩ := mapM_except_ok f l r hr
    obtain ⟨i, hi, rfl⟩ := List.getElem_of_mem hx
    exact ⟨r[i]'(by omega), h2 i _ _ (List.getElem?_eq_getElem hi) (List.getElem?_eq_getElem (by omega))⟩
  · exact mapM_except_total f l

theorem forall₂_repr (ds : List YMD) (h : ∀ d ∈ ds, d.Valid) : List.Forall₂ Props.Represents (ds.map repr) ds := by
  induction ds with
  | nil => exact .nil
  | cons d ds ih =>
    exact .cons ((Props.represents_iff _ _).2 ⟨h d List.mem_cons_self, rfl⟩) (ih fun x hx => h x (List.mem_cons_of_mem _ hx))

theorem mapM_map_ok {α β γ : Type} (g : α → β) (f : β → Except String γ) (r : α → γ) (l : List α) (h : ∀ x ∈ l, f (g x) = .ok (r x)) :
    (l.map g).mapM f = .ok (l.map r) := by
  rw [List.mapM_map]
  exact mapM_ok (f ∘ g) r l h

theorem zip_three {α : Type} (ds : List α) (y m d : α → Int) :
    (ds.map y).zip ((ds.map m).zip (ds.map d)) = ds.map (fun x => (y x, m x, d x)) := by
  induction ds with
  | nil => rfl
  | cons d ds ih => simp only [List.map_cons, List.zip_cons_cons, ih]

theorem yearMonthDayArray_map {α : Type} (shape : List Nat) (ds : List α) (y m d : α → Int) (validate : Bool) (r : α → DateT)
    (h : ∀ x ∈ ds, fromYearMonthDay (y x) (m x) (d x) validate = .ok (r x)) :
    yearMonthDayArray shape (ds.map y) (ds.map m) (ds.map d) validate = .ok (shape, ds.map r) := by
  unfold yearMonthDayArray
  rw [zip_three, mapM_map_ok (fun x => (y x, m x, d x)) _ r ds h]
  rfl

theorem ordinalsArray_map (shape : List Nat) (ds : List YMD) (h : ∀ d ∈ ds, d.Valid) (validate : Bool) (hv : validate = true → ∀ d ∈ ds, 1 ≤ d.year) :
    ordinalsArray shape (ds.map (·.number)) validate = .ok (shape, ds.map repr) := by
  unfold ordinalsArray
  rw [mapM_ok _ (fun o => repr (dateOf o))]
  · rw [bind_ok]
    show Except.ok _ = _
    rw [List.map_map]
    congr 2
    apply List.map_congr_left
    intro d hd
    show repr (dateOf d.number) = repr d
    rw [number_inj (dateOf d.number) d (dateOf_valid _) (h d hd) (dateOf_number _)]
  · intro o ho
    obtain ⟨d, hd, rfl⟩ := List.mem_map.1 ho
    cases validate
    · exact fromOrdinals_unchecked _
    · exact fromOrdinals_pos _ ((number_pos_iff _ (h d hd)).2 (hv rfl d hd))

end Lemmas

namespace Props
open Model Spec Lemmas MeasureTheory

/-- C130: a sequence of dates, a sequence of tuples, an array of days since 1970, a tensor of ordinals and three tensors of years,
months and days are all converted to the same dates. -/
theorem C130_formats (ds : List YMD) (hne : ds ≠ []) (h : ∀ d ∈ ds, RealDate d) :
    ∃ t, DatesOf t ds ∧
      convertToDateTensor (.sequence (ds.map fun d => .date ⟨d.year, d.month, d.day⟩)) = .ok t ∧
      convertToDateTensor (.sequence (ds.map fun d => .sequence [d.year, d.month, d.day])) = .ok t ∧
      convertToDateTensor (.npArray [ds.length] (ds.map fun d => d.number - (⟨1970, 1, 1⟩ : YMD).number)) = .ok t ∧
      convertToDateTensor (.tensor [ds.length] (ds.map fun d => d.number)) = .ok t ∧
      convertToDateTensor (.sequence [.tensor [ds.length] (ds.map fun d => d.year), .tensor [ds.length] (ds.map fun d => d.month),
        .tensor [ds.length] (ds.map fun d => d.day)]) = .ok t ∧
      convertToDateTensor (.dateTensor t) = .ok t := by
  have hval : ∀ d ∈ ds, d.Valid := fun d hd => (h d hd).1
  refine ⟨([ds.length], ds.map repr), ⟨rfl, forall₂_repr ds hval⟩, ?_, ?_, ?_, ?_, ?_, rfl⟩
  · obtain ⟨d, l, rfl⟩ := List.exists_cons_of_ne_nil hne
    show fromDatetimes ((d :: l).map fun d => .date ⟨d.year, d.month, d.day⟩) = _
    unfold fromDatetimes
    rw [mapM_map_ok (fun d : YMD => DateItem.date ⟨d.year, d.month, d.day⟩) DateItem.attributes (fun d : YMD => (⟨d.year, d.month, d.day⟩ : PyDate)) _ (fun x _ => rfl), bind_ok, List.map_map, List.map_map,
      List.map_map, List.length_map]
    exact yearMonthDayArray_map _ (d :: l) (fun d => d.year) (fun d => d.month) (fun d => d.day) false repr
      fun x hx => fromYearMonthDay_valid_unchecked x (hval x hx)
  · obtain ⟨d, l, rfl⟩ := List.exists_cons_of_ne_nil hne
    show fromTuples ((d :: l).map fun d => .sequence [d.year, d.month, d.day]) true = _
    unfold fromTuples
    rw [mapM_map_ok (fun d : YMD => DateItem.sequence [d.year, d.month, d.day]) DateItem.firstThree (fun d : YMD => (⟨d.year, d.month, d.day⟩ : PyDate)) _ (fun x _ => rfl), bind_ok, List.map_map, List.map_map,
      List.map_map, List.length_map]
    exact yearMonthDayArray_map _ (d :: l) (fun d => d.year) (fun d => d.month) (fun d => d.day) true repr
      fun x hx => fromYearMonthDay_ok _ _ _ (h x hx).2 (hval x hx)
  · have e : (ds.map fun d => d.number - (⟨1970, 1, 1⟩ : YMD).number).map (· + ordinalOf1_1_1970) = ds.map (·.number) := by
      rw [List.map_map]
      apply List.map_congr_left
      intro d _
      have : (⟨1970, 1, 1⟩ : YMD).number = 719163 := by decide
      show d.number - (⟨1970, 1, 1⟩ : YMD).number + 719163 = d.number
      omega
    show ordinalsArray _ _ false = _
    rw [e]
    exact ordinalsArray_map _ ds hval false (fun h => by cases h)
  · exact ordinalsArray_map _ ds hval true (fun _ d hd => (h d hd).2)
  · show fromThree _ _ _ = _
    unfold fromThree
    simp only [DateItem.asTensor, bind_ok, ne_eq, not_true_eq_false, or_self, if_false]
    exact yearMonthDayArray_map _ ds (fun d => d.year) (fun d => d.month) (fun d => d.day) true repr
      fun x hx => fromYearMonthDay_ok _ _ _ (h x hx).2 (hval x hx)

/-- C130: a single date. -/
theorem C130_single (d : YMD) (h : d.Valid) : ∃ t, convertToDateTensor (.date ⟨d.year, d.month, d.day⟩) = .ok ([], [t]) ∧ Represents t d := by
  refine ⟨repr d, ?_, (represents_iff _ _).2 ⟨h, rfl⟩⟩
  exact yearMonthDayArray_map [] [d] (fun d => d.year) (fun d => d.month) (fun d => d.day) false repr
    fun x hx => by rw [List.mem_singleton.1 hx]; exact fromYearMonthDay_valid_unchecked d h

/-- C130: a sequence of tuples is accepted if and only if each begins with year, month and day of a date of year 1 or later. -/
theorem C130_tuples (ts : List (List Int)) (hne : ts ≠ []) :
    (∃ t, convertToDateTensor (.sequence (ts.map .sequence)) = .ok t) ↔
      ∀ l ∈ ts, ∃ y m d rest, l = y :: m :: d :: rest ∧ RealDate ⟨y, m, d⟩ := by
  obtain ⟨a, l, rfl⟩ := List.exists_cons_of_ne_nil hne
  show (∃ t, fromTuples ((a :: l).map .sequence) true = .ok t) ↔ _
  generalize a :: l = ts at *
  have hfst : ∀ l : List Int, (∃ b, DateItem.firstThree (.sequence l) = .ok b) ↔ ∃ y m d rest, l = y :: m :: d :: rest := by
    intro l
    match l with
    | [] => simp [DateItem.firstThree]
    | [_] => simp [DateItem.firstThree]
    | [_, _] => simp [DateItem.firstThree]
    | y :: m :: d :: rest => simp [DateItem.firstThree]
  have hiff := mapM_ok_iff DateItem.firstThree (ts.map .sequence)
  constructor
  · rintro ⟨t, ht⟩
    unfold fromTuples at ht
    rw [bind_ok_iff] at ht
    obtain ⟨ps, hps, ht⟩ := ht
    obtain ⟨_, hget⟩ := mapM_except_ok _ _ _ hps
    unfold yearMonthDayArray at ht
    rw [bind_ok_iff] at ht
    obtain ⟨r, hr, -⟩ := ht
    rw [zip_three] at hr
    have hall := (mapM_ok_iff _ _).1 ⟨r, hr⟩
    intro l hl
    obtain ⟨y, m, d, rest, rfl⟩ := (hfst l).1 (hiff.1 ⟨ps, hps⟩ _ (List.mem_map.2 ⟨l, hl, rfl⟩))
    refine ⟨y, m, d, rest, rfl, ?_⟩
    obtain ⟨i, hi, hil⟩ := List.getElem_of_mem hl
    have hlen := (mapM_except_ok _ _ _ hps).1
    rw [List.length_map] at hlen
    have hp := hget i (.sequence (y :: m :: d :: rest)) (ps[i]'(by omega)) (by rw [List.getElem?_map, List.getElem?_eq_getElem hi, hil]; rfl)
      (List.getElem?_eq_getElem _)
    have hp : ps[i]'(by omega) = ⟨y, m, d⟩ := by
      simp only [DateItem.firstThree, Except.ok.injEq] at hp
      exact hp.symm
    have := hall (y, m, d) (List.mem_map.2 ⟨⟨y, m, d⟩, hp ▸ List.getElem_mem _, rfl⟩)
    have := ((C07_from_year_month_day y m d).1).1 this
    exact ⟨this.2, this.1⟩
  · intro hall
    have hps := hiff.2 (by
      intro x hx
      obtain ⟨l, hl, rfl⟩ := List.mem_map.1 hx
      obtain ⟨y, m, d, rest, e, _⟩ := hall l hl
      exact (hfst l).2 ⟨y, m, d, rest, e⟩)
    obtain ⟨ps, hps⟩ := hps
    unfold fromTuples
    rw [hps, bind_ok]
    refine ⟨_, yearMonthDayArray_map _ ps (fun d => d.year) (fun d => d.month) (fun d => d.day) true (fun d => repr ⟨d.year, d.month, d.day⟩) ?_⟩
    intro p hp
    obtain ⟨hlen, hget⟩ := mapM_except_ok _ _ _ hps
    obtain ⟨i, hi, rfl⟩ := List.getElem_of_mem hp
    have hi' : i < ts.length := by rw [List.length_map] at hlen; omega
    have hp := hget i (.sequence ts[i]) ps[i] (by rw [List.getElem?_map, List.getElem?_eq_getElem hi']; rfl) (List.getElem?_eq_getElem _)
    obtain ⟨y, m, d, rest, e, hv, hy⟩ := hall ts[i] (List.getElem_mem _)
    rw [e] at hp
    simp only [DateItem.firstThree, Except.ok.injEq] at hp
    rw [← hp]
    exact fromYearMonthDay_ok _ _ _ hy hv

/-- C130: a tensor of ordinals of any shape is accepted if and only if all are positive, and keeps its shape. -/
theorem C130_ordinals (shape : List Nat) (values : List Int) :
    ((∃ t, convertToDateTensor (.tensor shape values) = .ok t) ↔ ∀ o ∈ values, 1 ≤ o) ∧
    ∀ t, convertToDateTensor (.tensor shape values) = .ok t → t.1 = shape ∧ t.2.map (·.ordinal) = values ∧ ∀ x ∈ t.2, ∃ d, Represents x d := by
  have hbind : ∀ t, convertToDateTensor (.tensor shape values) = .ok t ↔ t.1 = shape ∧ values.mapM (fun o => fromOrdinals o true) = .ok t.2 := by
    intro t
    show ordinalsArray shape values true = .ok t ↔ _
    unfold ordinalsArray
    rw [bind_ok_iff]
    constructor
    · rintro ⟨r, hr, e⟩
      cases e
      exact ⟨rfl, hr⟩
    · rintro ⟨rfl, hr⟩
      exact ⟨_, hr, rfl⟩
  constructor
  · rw [show (∃ t, convertToDateTensor (.tensor shape values) = .ok t) ↔ ∃ r, values.mapM (fun o => fromOrdinals o true) = .ok r from
      ⟨fun ⟨t, ht⟩ => ⟨t.2, ((hbind t).1 ht).2⟩, fun ⟨r, hr⟩ => ⟨(shape, r), (hbind _).2 ⟨rfl, hr⟩⟩⟩, mapM_ok_iff]
    exact ⟨fun h o ho => ((C07_from_ordinals o).1).1 (h o ho), fun h o ho => ((C07_from_ordinals o).1).2 (h o ho)⟩
  · intro t ht
    obtain ⟨h1, h2⟩ := (hbind t).1 ht
    obtain ⟨hlen, hget⟩ := mapM_except_ok _ _ _ h2
    refine ⟨h1, ?_, ?_⟩
    · apply List.ext_getElem (by simpa using hlen)
      intro i hi hi'
      rw [List.length_map] at hi
      rw [List.getElem_map]
      exact ((C07_from_ordinals _).2 _ (hget i values[i] t.2[i] (List.getElem?_eq_getElem _) (List.getElem?_eq_getElem _))).1
    · intro x hx
      obtain ⟨i, hi, rfl⟩ := List.getElem_of_mem hx
      obtain ⟨_, d, hd, _⟩ := (C07_from_ordinals _).2 _ (hget i (values[i]'(by omega)) t.2[i] (List.getElem?_eq_getElem _) (List.getElem?_eq_getElem _))
      exact ⟨d, hd⟩

/-- C130: a sequence of numbers is read as ordinals, except that three numbers are read as year, month and day. -/
theorem C130_numbers (values : List Int) (hne : values ≠ []) :
    (values.length ≠ 3 → convertToDateTensor (.sequence (values.map (fun v => .tensor [] [v]))) = convertToDateTensor (.tensor [values.length] values)) ∧
    (∀ y m d, values = [y, m, d] → convertToDateTensor (.sequence (values.map (fun v => .tensor [] [v]))) =
      (fromYearMonthDay y m d).map (fun t => ([], [t]))) := by
  have hpack : packItems (values.map (fun v => .tensor [] [v])) = .ok ([values.length], values) := by
    unfold packItems
    rw [mapM_map_ok (fun v : Int => DateItem.tensor [] [v]) DateItem.asTensor (fun v : Int => (([], [v]) : List Nat × List Int)) _ (fun x _ => rfl), bind_ok]
    obtain ⟨a, l, rfl⟩ := List.exists_cons_of_ne_nil hne
    have hfl : ∀ l : List Int, (l.map (fun v => [v])).flatten = l := by
      intro l
      induction l with
      | nil => rfl
      | cons a l ih => simp [ih]
    simp [hfl, pure, Except.pure, Function.comp_def]
  constructor
  · intro h3
    have key : convertToDateTensor (.sequence (values.map (fun v => .tensor [] [v]))) = lastAttempt (packItems (values.map (fun v => .tensor [] [v]))) := by
      match values with
      | [] => exact absurd rfl hne
      | [a] => rfl
      | [a, b] => rfl
      | [_, _, _] => exact absurd rfl h3
      | a :: b :: c :: e :: l => rfl
    rw [key, hpack]
    rfl
  · rintro y m d rfl
    show fromThree _ _ _ = _
    unfold fromThree yearMonthDayArray
    simp only [DateItem.asTensor, bind_ok, ne_eq, not_true_eq_false, or_self, if_false, List.zip_cons_cons, List.zip_nil_left, List.mapM_cons,
      List.mapM_nil]
    cases fromYearMonthDay y m d with
    | error e => rfl
    | ok t => rfl

/-- Deviation: when nothing fits the documented `ValueError` is not raised; the handler itself fails with `TypeError`. -/
theorem C130_failure_deviates :
    convertToDateTensor .other = .error "TypeError" ∧
    ∀ l : List DateItem, (∀ x ∈ l, ∃ s v, x = .tensor s v) → l.length ≠ 3 → l ≠ [] → (∃ e, packItems l = .error e) →
      convertToDateTensor (.sequence l) = .error "TypeError" := by
  refine ⟨rfl, fun l hl h3 hne ⟨e, he⟩ => ?_⟩
  match l with
  | [] => exact absurd rfl hne
  | [a] =>
    obtain ⟨s, v, rfl⟩ := hl a (by simp)
    show lastAttempt (packItems _) = _
    rw [he]; rfl
  | [a, b] =>
    obtain ⟨s, v, rfl⟩ := hl a (by simp)
    show lastAttempt (packItems _) = _
    rw [he]; rfl
  | [_, _, _] => exact absurd rfl h3
  | a :: b :: c :: e :: l =>
    obtain ⟨s, v, rfl⟩ := hl a (by simp)
    show lastAttempt (packItems _) = _
    rw [he]; rfl

/-! ## Random dates -/

variable {K : Type} [Field K] [LinearOrder K] [IsStrictOrderedRing K] [FloorRing K]

/-- C130: the random date lies between the start (included) and the end (excluded), and is the start plus `k` days exactly if the uniform
number lies in the `k`-th of equally long pieces of the unit interval. -/
theorem C130_random (start stop : DateT) (s e : YMD) (hs : Represents start s) (he : Represents stop e) (hlt : s.number < e.number)
    (u : K) (h0 : 0 ≤ u) (h1 : u < 1) :
    ∃ t d, randomDate start stop u = .ok t ∧ Represents t d ∧ s.number ≤ d.number ∧ d.number < e.number ∧
      ∀ k : ℤ, d.number = s.number + k ↔ (k : K) / ((e.number - s.number : ℤ) : K) ≤ u ∧ u < ((k + 1 : ℤ) : K) / ((e.number - s.number : ℤ) : K) := by
  have hn : (0 : K) < ((e.number - s.number : ℤ) : K) := by exact_mod_cast sub_pos.2 hlt
  have hr : stop.ordinal - start.ordinal = e.number - s.number := by rw [hs.2.2.2.2, he.2.2.2.2]
  have hc : castInt (u * ((e.number - s.number : ℤ) : K)) = ⌊u * ((e.number - s.number : ℤ) : K)⌋ := by
    unfold castInt
    rw [if_pos (mul_nonneg h0 hn.le)]
  refine ⟨repr (dateOf (s.number + ⌊u * ((e.number - s.number : ℤ) : K)⌋)), dateOf (s.number + ⌊u * ((e.number - s.number : ℤ) : K)⌋), ?_, ?_, ?_⟩
  · unfold randomDate
    simp only [hr, hc]
    rw [hs.2.2.2.2]
    exact fromOrdinals_unchecked _
  · exact (represents_iff _ _).2 ⟨dateOf_valid _, rfl⟩
  · rw [dateOf_number]
    have hf0 : 0 ≤ ⌊u * ((e.number - s.number : ℤ) : K)⌋ := Int.floor_nonneg.2 (mul_nonneg h0 hn.le)
    have hf1 : ⌊u * ((e.number - s.number : ℤ) : K)⌋ < e.number - s.number := by
      rw [Int.floor_lt]
      nlinarith
    refine ⟨by omega, by omega, fun k => ?_⟩
    rw [add_right_inj, Int.floor_eq_iff, div_le_iff₀ hn, lt_div_iff₀ hn]
    push_cast
    exact Iff.rfl

/-- C130: with a uniform number the random date is each of the dates with the same probability. -/
theorem C130_random_uniform (start stop : DateT) (s e : YMD) (hs : Represents start s) (he : Represents stop e) (d : YMD) (hd : d.Valid)
    (hsd : s.number ≤ d.number) (hde : d.number < e.number) :
    volume {u : ℝ | 0 ≤ u ∧ u < 1 ∧ ∃ t, randomDate start stop u = .ok t ∧ Represents t d} = ENNReal.ofReal (1 / ((e.number - s.number : ℤ) : ℝ)) := by
  have hlt : s.number < e.number := by omega
  have hn : (0 : ℝ) < ((e.number - s.number : ℤ) : ℝ) := by exact_mod_cast sub_pos.2 hlt
  have hset : {u : ℝ | 0 ≤ u ∧ u < 1 ∧ ∃ t, randomDate start stop u = .ok t ∧ Represents t d} =
      Set.Ico (((d.number - s.number : ℤ) : ℝ) / ((e.number - s.number : ℤ) : ℝ)) (((d.number - s.number + 1 : ℤ) : ℝ) / ((e.number - s.number : ℤ) : ℝ)) := by
    ext u
    constructor
    · rintro ⟨h0, h1, t, ht, htd⟩
      obtain ⟨t', d', ht', hr, _, _, hk⟩ := C130_random start stop s e hs he hlt u h0 h1
      rw [ht] at ht'
      cases ht'
      have : d' = d := number_inj d' d hr.1 hd (hr.2.2.2.2.symm.trans htd.2.2.2.2)
      subst this
      exact (hk (d'.number - s.number)).1 (by omega)
    · rintro ⟨ha, hb⟩
      have h0 : 0 ≤ u := le_trans (div_nonneg (by exact_mod_cast sub_nonneg.2 hsd) hn.le) ha
      have h1 : u < 1 := by
        refine lt_of_lt_of_le hb ((div_le_one hn).2 ?_)
        exact_mod_cast (by omega : d.number - s.number + 1 ≤ e.number - s.number)
      obtain ⟨t', d', ht', hr, _, _, hk⟩ := C130_random start stop s e hs he hlt u h0 h1
      have e1 := (hk (d.number - s.number)).2 ⟨ha, hb⟩
      have : d' = d := number_inj d' d hr.1 hd (by omega)
      subst this
      exact ⟨h0, h1, t', ht', hr⟩
  rw [hset, Real.volume_Ico]
  congr 1
  rw [← sub_div]
  push_cast
  ring

/-- C130: `size` samples of a vector of dates form an array with `size` in front of its shape, all of them dates between start and end. -/
theorem C130_random_dates (starts stops : DateArray) (draws : List (List K)) (hlen : starts.2.length = stops.2.length)
    (hrows : ∀ row ∈ draws, row.length = starts.2.length ∧ ∀ u ∈ row, 0 ≤ u ∧ u < 1)
    (hdates : ∀ p ∈ starts.2.zip stops.2, ∃ s e, Represents p.1 s ∧ Represents p.2 e ∧ s.number < e.number) :
    ∃ rows : List (List DateT), randomDates starts stops draws = .ok (draws.length :: starts.1, rows.flatten) ∧ rows.length = draws.length ∧
      ∀ row ∈ rows, row.length = starts.2.length ∧ ∀ (j : Nat) (a b t : DateT), starts.2[j]? = some a → stops.2[j]? = some b → row[j]? = some t →
        (∃ d, Represents t d) ∧ a.ordinal ≤ t.ordinal ∧ t.ordinal < b.ordinal := by
  have hone : ∀ row ∈ draws, ∀ q ∈ (starts.2.zip stops.2).zip row, ∃ t, randomDate q.1.1 q.1.2 q.2 = .ok t ∧ (∃ d, Represents t d) ∧
      q.1.1.ordinal ≤ t.ordinal ∧ t.ordinal < q.1.2.ordinal := by
    intro row hrow q hq
    obtain ⟨s, e, hs, he, hlt⟩ := hdates q.1 (List.of_mem_zip hq).1
    obtain ⟨h0, h1⟩ := (hrows row hrow).2 q.2 (List.of_mem_zip hq).2
    obtain ⟨t, d, ht, hd, hl, hu, _⟩ := C130_random q.1.1 q.1.2 s e hs he hlt q.2 h0 h1
    exact ⟨t, ht, ⟨d, hd⟩, by rw [hs.2.2.2.2, hd.2.2.2.2]; exact hl, by rw [he.2.2.2.2, hd.2.2.2.2]; exact hu⟩
  obtain ⟨rows, hr⟩ := mapM_except_total (fun row => ((starts.2.zip stops.2).zip row).mapM (fun t => randomDate t.1.1 t.1.2 t.2)) draws
    (fun row hrow => mapM_except_total _ _ (fun q hq => (hone row hrow q hq).imp fun t ht => ht.1))
  obtain ⟨hl, hget⟩ := mapM_except_ok _ _ _ hr
  refine ⟨rows, ?_, hl, ?_⟩
  · unfold randomDates
    rw [hr]
    rfl
  · intro row hrow
    obtain ⟨i, hi, rfl⟩ := List.getElem_of_mem hrow
    have hi' : i < draws.length := by omega
    have hm := hget i draws[i] rows[i] (List.getElem?_eq_getElem _) (List.getElem?_eq_getElem _)
    obtain ⟨hl2, hget2⟩ := mapM_except_ok _ _ _ hm
    have hdl := (hrows draws[i] (List.getElem_mem _)).1
    rw [List.length_zip, List.length_zip] at hl2
    refine ⟨by omega, fun j a b t ha hb ht => ?_⟩
    have hj : j < draws[i].length := by
      have := (List.getElem?_eq_some_iff.1 ha).1
      omega
    have hz : ((starts.2.zip stops.2).zip draws[i])[j]? = some ((a, b), draws[i][j]) := by
      rw [List.getElem?_zip_eq_some, List.getElem?_zip_eq_some]
      exact ⟨⟨ha, hb⟩, List.getElem?_eq_getElem hj⟩
    obtain ⟨t', ht', h⟩ := hone draws[i] (List.getElem_mem _) _ (List.mem_of_getElem? hz)
    have := hget2 j _ t hz ht
    simp only at this ht'
    rw [this] at ht'
    cases ht'
    exact h

/-- Deviation: with start and end equal the excluded end is returned, and with the end before the start dates after the end up to the start. -/
theorem C130_random_reversed (start stop : DateT) (s e : YMD) (hs : Represents start s) (he : Represents stop e) (hlt : e.number ≤ s.number)
    (u : K) (h0 : 0 ≤ u) (h1 : u < 1) :
    ∃ t d, randomDate start stop u = .ok t ∧ Represents t d ∧ d.number ≤ s.number ∧ (e.number < d.number ∨ e.number = s.number) := by
  have hr : stop.ordinal - start.ordinal = e.number - s.number := by rw [hs.2.2.2.2, he.2.2.2.2]
  refine ⟨repr (dateOf (s.number + castInt (u * ((e.number - s.number : ℤ) : K)))), _, ?_, (represents_iff _ _).2 ⟨dateOf_valid _, rfl⟩, ?_⟩
  · unfold randomDate
    simp only [hr]
    rw [hs.2.2.2.2]
    exact fromOrdinals_unchecked _
  · rw [dateOf_number]
    have hn : ((e.number - s.number : ℤ) : K) ≤ 0 := by exact_mod_cast sub_nonpos.2 hlt
    have hle : u * ((e.number - s.number : ℤ) : K) ≤ 0 := mul_nonpos_of_nonneg_of_nonpos h0 hn
    have hc : castInt (u * ((e.number - s.number : ℤ) : K)) = ⌈u * ((e.number - s.number : ℤ) : K)⌉ := by
      unfold castInt
      split
      · rename_i hh
        rw [le_antisymm hle hh]; simp
      · rfl
    rw [hc]
    have hc0 : ⌈u * ((e.number - s.number : ℤ) : K)⌉ ≤ 0 := Int.ceil_le.2 (by exact_mod_cast hle)
    refine ⟨by omega, ?_⟩
    rcases hlt.eq_or_lt with h | h
    · exact Or.inr h
    · left
      have hneg : ((e.number - s.number : ℤ) : K) < 0 := by exact_mod_cast sub_neg.2 h
      have : e.number - s.number < ⌈u * ((e.number - s.number : ℤ) : K)⌉ := by
        rw [Int.lt_ceil]
        nlinarith
      omega

/-! ## Subtraction of periods -/

/-- C130: subtracting a period and rolling is rolling the date minus the period, with both calendars. -/
theorem C130_subtract (b : BoundedCal) (c : UnboundedCal) (t : DateT) (p : Period) (conv : BusinessDayConvention) :
    b.subtractPeriodAndRoll t p conv = (t.sub p).bind (fun t' => b.roll t' conv) ∧
    c.subtractPeriodAndRoll t p conv = (t.sub p).bind (fun t' => c.roll t' conv) := ⟨rfl, rfl⟩

/-- C130: subtracting months with FOLLOWING gives the first business day on or after the day with the same number, or the last one of the
month, that many months before. -/
theorem C130_subtract_months {c : BoundedCal} {s e : Int} (h : CalendarFor c s e) (t r : DateT) (d : YMD) (ht : Represents t d) (n : Int) :
    c.subtractPeriodAndRoll t ⟨n, .MONTH⟩ .FOLLOWING = .ok r ↔
      ∃ d' d'' : YMD, d'.Valid ∧ 12 * d'.year + d'.month = 12 * d.year + d.month - n ∧ d'.day = min d.day (monthLength d'.year d'.month) ∧
        InYears s e d'.number ∧ Represents r d'' ∧ FirstOnOrAfter (BusinessDay c s e) d'.number d''.number := by
  obtain ⟨t', d', h1, h2, h3, h4⟩ := C03_sub_months t d ht n
  rw [(C130_subtract c ⟨none, none⟩ t ⟨n, .MONTH⟩ .FOLLOWING).1, h1]
  show c.roll t' .FOLLOWING = .ok r ↔ _
  rw [C10_bounded_following h, h2.2.2.2.2]
  constructor
  · rintro ⟨hi, d'', hr, hf⟩
    exact ⟨d', d'', h2.1, h3, h4, hi, hr, hf⟩
  · rintro ⟨f, d'', hv, e1, e2, hi, hr, hf⟩
    have hfd : f = d' := by
      obtain ⟨y, m, dd⟩ := f
      obtain ⟨y', m', dd'⟩ := d'
      have a1 := hv.1; have a2 := hv.2.1
      have b1 := h2.1.1; have b2 := h2.1.2.1
      simp only at *
      have hy : y = y' := by omega
      subst hy
      have hm : m = m' := by omega
      subst hm
      rw [e2, h4]
    subst hfd
    exact ⟨hi, d'', hr, hf⟩

/-- Three formats of 2024-02-29 and 2023-03-01. -/
example : convertToDateTensor (.sequence [.sequence [2024, 2, 29], .sequence [2023, 3, 1]]) =
      .ok ([2], [⟨738945, 2024, 2, 29⟩, ⟨738580, 2023, 3, 1⟩]) ∧
    convertToDateTensor (.npArray [2] [19782, 19417]) = .ok ([2], [⟨738945, 2024, 2, 29⟩, ⟨738580, 2023, 3, 1⟩]) ∧
    convertToDateTensor (.sequence [.tensor [] [738945], .tensor [] [738580]]) = .ok ([2], [⟨738945, 2024, 2, 29⟩, ⟨738580, 2023, 3, 1⟩]) :=
  ⟨rfl, rfl, rfl⟩

/-- Three ordinals are refused or silently read as another date, four are read as ordinals. -/
example : convertToDateTensor (.sequence [.tensor [] [738945], .tensor [] [738946], .tensor [] [738947]]) = .error "Month must be <= 12" ∧
    convertToDateTensor (.sequence [.tensor [] [1], .tensor [] [2], .tensor [] [3]]) = .ok ([], [⟨34, 1, 2, 3⟩]) ∧
    convertToDateTensor (.sequence [.tensor [] [1], .tensor [] [2], .tensor [] [3], .tensor [] [4]]) =
      .ok ([4], [⟨1, 1, 1, 1⟩, ⟨2, 1, 1, 2⟩, ⟨3, 1, 1, 3⟩, ⟨4, 1, 1, 4⟩]) := ⟨rfl, rfl, rfl⟩

/-- Tensors of different shapes. -/
example : packItems [.tensor [2] [1, 2], .tensor [] [3]] = .error "ValueError" ∧
    convertToDateTensor (.sequence [.tensor [2] [1, 2], .tensor [] [3]]) = .error "TypeError" := ⟨rfl, rfl⟩

/-- Four tenths of the way from 2024-02-28 to 2024-03-02, a range of three days. -/
example : randomDate ⟨738944, 2024, 2, 28⟩ ⟨738947, 2024, 3, 2⟩ (4 / 10 : ℚ) = .ok ⟨738945, 2024, 2, 29⟩ ∧
    randomDate ⟨738947, 2024, 3, 2⟩ ⟨738944, 2024, 2, 28⟩ (4 / 10 : ℚ) = .ok ⟨738946, 2024, 3, 1⟩ := by
  decide +kernel

example : RealDate ⟨2024, 2, 29⟩ ∧ ¬ RealDate ⟨2023, 2, 29⟩ := by unfold RealDate; decide

end Props
