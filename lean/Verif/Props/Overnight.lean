import Mathlib.Algebra.BigOperators.Intervals
import Mathlib.Algebra.BigOperators.Field
import Verif.Props.Floating
import Verif.Props.UnboundedCalendar
import Verif.Spec.Overnight

/-!
# Property theorems C68: futures on overnight rates
-/

namespace Props
open Model Model.Instruments Spec Lemmas

/-- The day with number `x`. -/
def day (x : Int) : DateT := Lemmas.repr (dateOf x)

theorem day_ordinal (x : Int) : (day x).ordinal = x := dateOf_number x

theorem day_represents (x : Int) : Represents (day x) (dateOf x) := (represents_iff _ _).2 ⟨dateOf_valid x, rfl⟩

theorem day_add (x : Int) (h : 0 < x) : (day x).add ⟨1, .DAY⟩ = .ok (day (x + 1)) := by
  unfold day
  rw [add_eq_shiftD .DAY 1 (dateOf x) (dateOf_valid x) (Or.inr (Or.inr (by
    simp only [shiftD, dateOf_number]; omega)))]
  simp only [shiftD, dateOf_number]

/-- The daily schedule between two days. -/
theorem daily_schedule (a : Int) (n : Nat) (ha : 0 < a) (hn : 0 < n) :
    genPeriodicSchedule .DAY [⟨day a, day (a + n), 1⟩] none false false =
      .ok [(List.range (n + 1)).map (fun i : Nat => day (a + i))] := by
  set r : ScheduleRow := ⟨day a, day (a + n), 1⟩ with hr
  have hs : r.start.ordinal = a := day_ordinal a
  have he : r.stop.ordinal = a + n := day_ordinal _
  have hOK : ∀ q ∈ [r], RowOK q := by
    intro q hq
    rw [List.mem_singleton] at hq
    subst hq
    exact ⟨by rw [hs]; rfl, by rw [he]; rfl, by omega, by simp [hr]⟩
  obtain ⟨k, hthr, _, hgen⟩ := gen_forward (p := .DAY) hOK (by
    intro q hq
    rw [List.mem_singleton] at hq
    subst hq
    omega)
  have hf : ∀ i : Nat, fwdD .DAY r i = dateOf (a + i) := by
    intro i
    unfold fwdD shiftD
    rw [hs, dateOf_number]
    simp [hr]
  have hk : ∀ i, i < k r ↔ i < n := by
    intro i
    rw [hthr r List.mem_cons_self, hf, dateOf_number, he]
    omega
  have hkn : k r = n := by
    have h1 := hk n
    have h2 := hk (k r)
    omega
  rw [hgen r List.mem_cons_self (by intro q hq; rw [List.mem_singleton] at hq; subst hq; exact le_refl _) (by omega)]
  simp only [List.map_cons, List.map_nil, hkn]
  congr 2
  apply List.map_congr_left
  intro i hi
  have hi' := List.mem_range.1 hi
  by_cases h : i < n
  · rw [if_pos h, hf]; rfl
  · rw [if_neg h, show i = n by omega]

/-- The calendar rolls the days from `lo` to `hi` to the first business day on or after them. -/
def RollsForward (cal : CalendarOps) (B : Int → Prop) (lo hi : Int) : Prop :=
  ∀ x, lo ≤ x → x ≤ hi → ∃ r, FirstOnOrAfter B x r ∧ cal.roll (day x) .FOLLOWING = .ok (day r)

/-- C68: the default calendar, and every other calendar by formula, qualifies. -/
theorem C68_calendar {c : UnboundedCal} {mask : List Nat} {hols : List Int} (h : UCalendarFor c mask hols) (lo hi : Int)
    (hlo : 8 ≤ lo) : RollsForward c.ops (IsBusinessDay mask hols) lo hi := by
  intro x h1 _
  obtain ⟨t, d, h2, h3, h4⟩ := C11_following h (day x) (by rw [day_ordinal]; omega)
  rw [day_ordinal] at h4
  refine ⟨d.number, h4, ?_⟩
  show c.roll (day x) .FOLLOWING = _
  rw [h2, (represents_iff _ _).1 h3 |>.2, day, dateOf_of_number _ h3.1]

/-- The dates of the resets. -/
theorem overnight_dates (cal : CalendarOps) (B : Int → Prop) (a : Int) (n : Nat) (ha : 0 < a) (hn : 2 ≤ n)
    (hroll : RollsForward cal B (a + 1) (a + n)) :
    ∃ u : Nat → Int, u 0 = a ∧ u (n + 1) = a + n + 1 ∧ (∀ i : Nat, 1 ≤ i → i ≤ n → FirstOnOrAfter B (a + i) (u i)) ∧
      overnightDates cal (day a) (day (a + n)) = .ok ((List.range (n + 2)).map (fun i => day (u i))) := by
  have hex : ∀ i : Nat, ∃ r, 1 ≤ i → i ≤ n → FirstOnOrAfter B (a + i) r ∧ cal.roll (day (a + i)) .FOLLOWING = .ok (day r) := by
    intro i
    by_cases h : 1 ≤ i ∧ i ≤ n
    · obtain ⟨r, hr⟩ := hroll (a + i) (by omega) (by omega)
      exact ⟨r, fun _ _ => hr⟩
    · exact ⟨0, fun h1 h2 => absurd ⟨h1, h2⟩ h⟩
  choose w hw using hex
  refine ⟨fun i => if i = 0 then a else if i = n + 1 then a + n + 1 else w i, rfl, ?_, fun i h1 h2 => ?_, ?_⟩
  · beta_reduce
    rw [if_neg (by omega), if_pos rfl]
  · beta_reduce
    rw [if_neg (by omega), if_neg (by omega)]
    exact (hw i h1 h2).1
  · unfold overnightDates
    dsimp only
    obtain ⟨j, rfl⟩ : ∃ j, n = j + 1 := ⟨n - 1, by omega⟩
    have hs := daily_schedule (a + 1) j (by omega) (by omega)
    rw [show a + 1 + (j : Int) = a + ((j + 1 : Nat) : Int) by push_cast; ring] at hs
    have hg : genPeriodicSchedule .DAY [⟨day (a + 1), day (a + ((j + 1 : Nat) : Int)), 1⟩] (some (cal, .FOLLOWING)) false false =
        .ok [(List.range (j + 1)).map (fun i : Nat => day (w (i + 1)))] := by
      rw [C15_roll, hs]
      show List.mapM _ _ = _
      rw [List.mapM_cons, mapM_ok _ (fun t => day (w (t.ordinal - a).toNat)), bind_ok, List.mapM_nil]
      · rw [List.map_map]
        show Except.ok _ = _
        congr 2
        apply List.map_congr_left
        intro i _
        simp only [Function.comp_apply, day_ordinal]
        congr 2
        omega
      · intro t ht
        obtain ⟨i, hi, rfl⟩ := List.mem_map.1 ht
        have hi' := List.mem_range.1 hi
        have := (hw (i + 1) (by omega) (by omega)).2
        rw [show a + 1 + (i : Int) = a + ((i + 1 : Nat) : Int) by push_cast; ring, this, day_ordinal]
        congr 3
        omega
    rw [day_add a ha, bind_ok, hg, bind_ok, day_add _ (by omega), bind_ok]
    simp only [pure, Except.pure, List.headD_cons]
    congr 1
    rw [show j + 1 + 2 = (j + 2) + 1 from rfl, List.range_succ_eq_map (n := j + 2), List.map_cons, List.map_map,
      if_pos rfl, show j + 2 = (j + 1) + 1 from rfl, List.range_succ (n := j + 1), List.map_append]
    refine congrArg (day a :: ·) (congrArg₂ (· ++ ·) ?_ ?_)
    · apply List.map_congr_left
      intro i hi
      have hi' := List.mem_range.1 hi
      simp only [Function.comp_apply]
      rw [if_neg (by omega), if_neg (by omega)]
    · simp

theorem prod_mapRange' {K : Type} [Field K] (f : Nat → K) (n : Nat) :
    ((List.range n).map f).prod = ∏ j ∈ Finset.range n, f j := by
  induction n with
  | zero => rfl
  | succ n ih => rw [List.range_succ, List.map_append, List.prod_append, ih, Finset.prod_range_succ]; simp

section
variable {K : Type} [Field K] [LinearOrder K]

open Classical in
/-- C68: if the first and the last day of the reference period are business days, the future is priced at 100 times one minus
the settlement rate: the rate of every business day is compounded (or averaged) over the days up to the next business day. -/
theorem C68_settlement_partial (cal : CalendarOps) (B : Int → Prop) (a : Int) (n : Nat) (ha : 0 < a) (hn : 2 ≤ n)
    (hroll : RollsForward cal B (a + 1) (a + n)) (hBa : B a) (hBb : B (a + n)) (convention : DayCount) :
    ∃ next : Int → Int, (∀ i : Nat, i ≤ n → B (a + i) → AccruesTo B (a + n) (a + i) (next (a + i))) ∧
      (∑ i ∈ Finset.range (n + 1), if B (a + i) then next (a + i) - (a + i) else 0) = n + 1 ∧
      ∀ (m : Market K) (R D : YMD → K), Quotes m R D →
        overnightPrice cal convention true (day a) (day (a + n)) m = .ok (100 * (1 - compoundedRate B a n
          (fun x => simpleRate R (basisOf convention) (dateOf x) (dateOf (x + 1)))
          (fun x => yearFraction (basisOf convention) (dateOf x) (dateOf (next x))))) ∧
        overnightPrice cal convention false (day a) (day (a + n)) m = .ok (100 * (1 - averageRate B a n
          (fun x => simpleRate R (basisOf convention) (dateOf x) (dateOf (x + 1)))
          (fun x => yearFraction (basisOf convention) (dateOf x) (dateOf (next x))))) := by
  obtain ⟨u, hu0, hun, hu, hdates⟩ := overnight_dates cal B a n ha hn hroll
  have hpos : ∀ i, i ≤ n → 0 < u i := by
    intro i hi
    rcases Nat.eq_zero_or_pos i with rfl | h
    · omega
    · have := (hu i h hi).1; omega
  have hB : ∀ i : Nat, i ≤ n → B (a + i) → u i = a + i := by
    intro i hi h
    rcases Nat.eq_zero_or_pos i with rfl | h0
    · simp [hu0]
    · obtain ⟨h1, _, h3⟩ := hu i h0 hi
      by_contra hne
      exact h3 (a + i) (le_refl _) (by omega) h
  have hnB : ∀ i : Nat, i ≤ n → ¬ B (a + i) → u (i + 1) = u i := by
    intro i hi h
    have h0 : 1 ≤ i := by
      rcases Nat.eq_zero_or_pos i with rfl | h0
      · simp at h; exact absurd hBa h
      · exact h0
    have hin : i < n := by
      rcases Nat.lt_or_ge i n with h' | h'
      · exact h'
      · rw [show i = n by omega] at h; exact absurd hBb h
    obtain ⟨h1, h2, h3⟩ := hu i h0 hi
    obtain ⟨h1', h2', h3'⟩ := hu (i + 1) (by omega) (by omega)
    push_cast at h1' h3'
    by_contra hne
    rcases lt_or_gt_of_ne hne with hlt | hgt
    · exact h3 _ (by omega) hlt h2'
    · have : u i ≠ a + i := fun hh => h (hh ▸ h2)
      exact h3' _ (by omega) hgt h2
  refine ⟨fun x => u ((x - a).toNat + 1), fun i hi h => ?_, ?_, fun m R D hm => ?_⟩
  · beta_reduce
    rw [show (a + (i : Int) - a).toNat = i by omega]
    rcases Nat.lt_or_ge i n with h' | h'
    · obtain ⟨h1, h2, h3⟩ := hu (i + 1) (by omega) (by omega)
      push_cast at h1 h3
      have hle : u (i + 1) ≤ a + n := by
        by_contra hgt
        exact h3 (a + n) (by omega) (by omega) hBb
      exact ⟨by omega, Or.inl h2, fun z hz1 hz2 => ⟨h3 z (by omega) hz2, by omega⟩⟩
    · rw [show i = n by omega, hun]
      exact ⟨by omega, Or.inr rfl, fun z hz1 hz2 => by omega⟩
  · rw [Finset.sum_congr rfl (g := fun i : Nat => u (i + 1) - u i)]
    · rw [Finset.sum_range_sub, hun, hu0]
      ring
    · intro i hi
      have hi' := Finset.mem_range.1 hi
      beta_reduce
      by_cases h : B (a + i)
      · rw [if_pos h, hB i (by omega) h, show (a + (i : Int) - a).toNat = i by omega]
      · rw [if_neg h, hnB i (by omega) h, sub_self]
  · have hmap : ∀ t ∈ (List.range (n + 1)).map (fun i => day (u i)), t.add ⟨1, .DAY⟩ = .ok (day (t.ordinal + 1)) := by
      intro t ht
      obtain ⟨i, hi, rfl⟩ := List.mem_map.1 ht
      have := List.mem_range.1 hi
      rw [day_ordinal, day_add _ (hpos i (by omega))]
    have hR : ∀ x, m.reference (day x) = R (dateOf x) := fun x => (hm _ _ (day_represents x)).1
    have hyf : ∀ x y, daycountFraction K convention (day x) (day y) = yearFraction (basisOf convention) (dateOf x) (dateOf y) :=
      fun x y => daycount_eq _ _ _ (dateOf_valid _) (dateOf_valid _)
    have hτ : ∀ i ∈ Finset.range (n + 1), yearFraction (K := K) (basisOf convention) (dateOf (u i)) (dateOf (u (i + 1))) =
        if B (a + i) then yearFraction (basisOf convention) (dateOf (a + i)) (dateOf (u ((a + (i : Int) - a).toNat + 1)))
        else 0 := by
      intro i hi
      have hi' := Finset.mem_range.1 hi
      by_cases h : B (a + i)
      · rw [if_pos h, hB i (by omega) h, show (a + (i : Int) - a).toNat = i by omega]
      · rw [if_neg h, hnB i (by omega) h, yearFraction_self _ _ (dateOf_valid _)]
    have hterm : ∀ i ∈ Finset.range (n + 1),
        simpleRate R (basisOf convention) (dateOf (u i)) (dateOf (u i + 1)) *
          yearFraction (basisOf convention) (dateOf (u i)) (dateOf (u (i + 1))) =
        if B (a + i) then simpleRate R (basisOf convention) (dateOf (a + i)) (dateOf (a + i + 1)) *
          yearFraction (basisOf convention) (dateOf (a + i)) (dateOf (u ((a + (i : Int) - a).toNat + 1))) else 0 := by
      intro i hi
      have hi' := Finset.mem_range.1 hi
      rw [hτ i hi]
      by_cases h : B (a + i)
      · rw [if_pos h, if_pos h, hB i (by omega) h]
      · rw [if_neg h, if_neg h, mul_zero]
    constructor
    · unfold overnightPrice compoundedRate
      rw [hdates, bind_ok]
      dsimp only
      rw [dropLast_mapRange, mapM_ok _ _ _ hmap, bind_ok, List.map_map, ← List.drop_one, drop_mapRange, zipWith_mapRange,
        zipWith_mapRange, zipWith_mapRange, sum_mapRange', prod_mapRange']
      simp only [pure, Except.pure, if_true, Function.comp_apply, day_ordinal, hyf, forwardRate, hR]
      rw [Finset.sum_congr rfl hτ]
      congr 4
      refine congrArg (· - 1) (Finset.prod_congr rfl fun i hi => ?_)
      have := hterm i hi
      unfold simpleRate at this ⊢
      rw [this]
      by_cases h : B (a + i)
      · rw [if_pos h, if_pos h]
      · rw [if_neg h, if_neg h, add_zero]
    · unfold overnightPrice averageRate
      rw [hdates, bind_ok]
      dsimp only
      rw [dropLast_mapRange, mapM_ok _ _ _ hmap, bind_ok, List.map_map, ← List.drop_one, drop_mapRange, zipWith_mapRange,
        zipWith_mapRange, if_neg (by simp), zipWith_mapRange, sum_mapRange', sum_mapRange']
      simp only [pure, Except.pure, Function.comp_apply, day_ordinal, hyf, forwardRate, hR]
      rw [Finset.sum_congr rfl hτ]
      congr 4
      refine Finset.sum_congr rfl fun i hi => ?_
      have := hterm i hi
      unfold simpleRate at this ⊢
      exact this

end

/-- The number of days in a year, for the conventions that count actual days. -/
def yearDays : Basis → Nat
  | .actual365 => 365
  | _ => 360

section
variable {K : Type} [Field K] [LinearOrder K] [IsStrictOrderedRing K]

theorem yearFraction_actual (b : Basis) (hb : b ≠ .thirty360) (x y : Int) :
    yearFraction (K := K) b (dateOf x) (dateOf y) = ((y - x : Int) : K) / (yearDays b : K) := by
  cases b with
  | actual360 => simp [yearFraction, dateOf_number, yearDays]
  | actual365 => simp [yearFraction, dateOf_number, yearDays]
  | thirty360 => exact absurd rfl hb

theorem yearDays_pos (b : Basis) : (0 : K) < (yearDays b : K) := by
  cases b <;> simp [yearDays]

open Classical in
/-- The accrual periods make up the reference period. -/
theorem total_accrual (b : Basis) (hb : b ≠ .thirty360) (B : Int → Prop) (a : Int) (n : Nat) (next : Int → Int)
    (h : (∑ i ∈ Finset.range (n + 1), if B (a + i) then next (a + i) - (a + i) else 0) = (n : Int) + 1) :
    (∑ i ∈ Finset.range (n + 1), if B (a + i) then yearFraction (K := K) b (dateOf (a + i)) (dateOf (next (a + i))) else 0) =
      yearFraction b (dateOf a) (dateOf (a + n + 1)) := by
  rw [yearFraction_actual b hb, show a + (n : Int) + 1 - a = n + 1 by ring, ← h]
  push_cast
  rw [Finset.sum_div]
  apply Finset.sum_congr rfl
  intro i _
  by_cases hB : B (a + i)
  · rw [if_pos hB, if_pos hB, yearFraction_actual b hb]; push_cast; ring
  · rw [if_neg hB, if_neg hB]; simp

/-- C68: if all overnight rates of the curve agree, the future on their average is settled at this rate. -/
theorem C68_constant_rate (cal : CalendarOps) (B : Int → Prop) (a : Int) (n : Nat) (ha : 0 < a) (hn : 2 ≤ n)
    (hroll : RollsForward cal B (a + 1) (a + n)) (hBa : B a) (hBb : B (a + n)) (convention : DayCount)
    (hc : basisOf convention ≠ .thirty360) (m : Market K) (R D : YMD → K) (hm : Quotes m R D) (r : K)
    (hr : ∀ i : Nat, i ≤ n → simpleRate R (basisOf convention) (dateOf (a + i)) (dateOf (a + i + 1)) = r) :
    overnightPrice cal convention false (day a) (day (a + n)) m = .ok (100 * (1 - r)) := by
  classical
  obtain ⟨next, _, h2, h3⟩ := C68_settlement_partial (K := K) cal B a n ha hn hroll hBa hBb convention
  rw [(h3 m R D hm).2]
  have ht := total_accrual (K := K) (basisOf convention) hc B a n next (by convert h2)
  have hpos : (0 : K) < yearFraction (basisOf convention) (dateOf a) (dateOf (a + n + 1)) := by
    rw [yearFraction_actual _ hc]
    refine div_pos ?_ (yearDays_pos _)
    exact_mod_cast (by omega : (0 : Int) < a + n + 1 - a)
  congr 3
  unfold averageRate
  rw [Finset.sum_congr rfl (g := fun i : Nat => r * (if B (a + i) then
    yearFraction (K := K) (basisOf convention) (dateOf (a + i)) (dateOf (next (a + i))) else 0)), ← Finset.mul_sum]
  · rw [show (∑ i ∈ Finset.range (n + 1), if B (a + i) then
        yearFraction (K := K) (basisOf convention) (dateOf (a + i)) (dateOf (next (a + i))) else 0) =
        yearFraction (basisOf convention) (dateOf a) (dateOf (a + n + 1)) by convert ht]
    field_simp
  · intro i hi
    have hi' := Finset.mem_range.1 hi
    beta_reduce
    by_cases h : B (a + i)
    · rw [if_pos h, if_pos h, hr i (by omega)]
    · rw [if_neg h, if_neg h, mul_zero]

/-- C68: without holidays, compounding the overnight rates replicates the curve: the future is settled at the simple rate of the
whole reference period. -/
theorem C68_no_holidays (cal : CalendarOps) (B : Int → Prop) (a : Int) (n : Nat) (ha : 0 < a) (hn : 2 ≤ n)
    (hroll : RollsForward cal B (a + 1) (a + n)) (hB : ∀ x, a ≤ x → x ≤ a + n → B x) (convention : DayCount)
    (hc : basisOf convention ≠ .thirty360) (m : Market K) (R D : YMD → K) (hm : Quotes m R D)
    (hR : ∀ d, R d ≠ 0) :
    overnightPrice cal convention true (day a) (day (a + n)) m =
      .ok (100 * (1 - simpleRate R (basisOf convention) (dateOf a) (dateOf (a + n + 1)))) := by
  obtain ⟨next, h1, h2, h3⟩ := C68_settlement_partial (K := K) cal B a n ha hn hroll (hB _ (by omega) (by omega))
    (hB _ (by omega) (by omega)) convention
  rw [(h3 m R D hm).1]
  have ht := total_accrual (K := K) (basisOf convention) hc B a n next h2
  congr 3
  unfold compoundedRate simpleRate
  beta_reduce
  rw [ht]
  congr 2
  rw [Finset.prod_congr rfl (g := fun i : Nat => R (dateOf (a + i)) / R (dateOf (a + (i + 1 : Nat))))]
  · clear ht h1 h2 h3 hroll hn hB
    have : ∀ k : Nat, ∏ i ∈ Finset.range k, R (dateOf (a + i)) / R (dateOf (a + (i + 1 : Nat))) =
        R (dateOf a) / R (dateOf (a + k)) := by
      intro k
      induction k with
      | zero => simp [div_self (hR _)]
      | succ k ih =>
        rw [Finset.prod_range_succ, ih]
        have := hR (dateOf (a + k))
        field_simp
    rw [this, show a + ((n + 1 : Nat) : Int) = a + n + 1 by push_cast; ring]
  · intro i hi
    have hi' := Finset.mem_range.1 hi
    obtain ⟨g1, g2, g3⟩ := h1 i (by omega) (hB _ (by omega) (by omega))
    have hnx : next (a + i) = a + i + 1 := by
      by_contra hne
      rcases Nat.lt_or_ge i n with h' | h'
      · exact (g3 (a + i + 1) (by omega) (by omega)).1 (hB _ (by omega) (by omega))
      · exact (g3 (a + i + 1) (by omega) (by omega)).2 (by omega)
    have hτ : yearFraction (K := K) (basisOf convention) (dateOf (a + i)) (dateOf (a + i + 1)) ≠ 0 := by
      rw [yearFraction_actual _ hc]
      have := (yearDays_pos (K := K) (basisOf convention)).ne'
      refine div_ne_zero ?_ this
      exact_mod_cast (by omega : a + (i : Int) + 1 - (a + i) ≠ 0)
    rw [if_pos (hB _ (by omega) (by omega)), hnx, show a + ((i + 1 : Nat) : Int) = a + i + 1 by push_cast; ring]
    field_simp
    ring

theorem one_add_sum_le_prod (s : Finset Nat) (f : Nat → K) (hf : ∀ i ∈ s, 0 ≤ f i) : 1 + ∑ i ∈ s, f i ≤ ∏ i ∈ s, (1 + f i) := by
  classical
  induction s using Finset.induction_on with
  | empty => simp
  | insert j s hj ih =>
    rw [Finset.sum_insert hj, Finset.prod_insert hj]
    have h1 := ih (fun i hi => hf i (Finset.mem_insert_of_mem hi))
    have h2 := hf j (Finset.mem_insert_self _ _)
    have h3 : 0 ≤ ∑ i ∈ s, f i := Finset.sum_nonneg (fun i hi => hf i (Finset.mem_insert_of_mem hi))
    nlinarith [mul_nonneg h2 h3]

/-- C68: if no overnight rate is negative, the compounding future is not worth more than the averaging one. -/
theorem C68_compounding (cal : CalendarOps) (B : Int → Prop) (a : Int) (n : Nat) (ha : 0 < a) (hn : 2 ≤ n)
    (hroll : RollsForward cal B (a + 1) (a + n)) (hBa : B a) (hBb : B (a + n)) (convention : DayCount)
    (hc : basisOf convention ≠ .thirty360) (m : Market K) (R D : YMD → K) (hm : Quotes m R D)
    (hr : ∀ i : Nat, i ≤ n → 0 ≤ simpleRate R (basisOf convention) (dateOf (a + i)) (dateOf (a + i + 1))) :
    ∃ p q, overnightPrice cal convention true (day a) (day (a + n)) m = .ok p ∧
      overnightPrice cal convention false (day a) (day (a + n)) m = .ok q ∧ p ≤ q := by
  classical
  obtain ⟨next, h1, h2, h3⟩ := C68_settlement_partial (K := K) cal B a n ha hn hroll hBa hBb convention
  refine ⟨_, _, (h3 m R D hm).1, (h3 m R D hm).2, ?_⟩
  have hτ : ∀ i : Nat, i ≤ n → B (a + i) →
      0 ≤ yearFraction (K := K) (basisOf convention) (dateOf (a + i)) (dateOf (next (a + i))) := by
    intro i hi hB
    rw [yearFraction_actual _ hc]
    refine div_nonneg ?_ (yearDays_pos _).le
    have := (h1 i hi hB).1
    exact_mod_cast (by omega : 0 ≤ next (a + i) - (a + i))
  have hle : averageRate B a n (fun x => simpleRate R (basisOf convention) (dateOf x) (dateOf (x + 1)))
      (fun x => yearFraction (basisOf convention) (dateOf x) (dateOf (next x))) ≤
      compoundedRate B a n (fun x => simpleRate R (basisOf convention) (dateOf x) (dateOf (x + 1)))
      (fun x => yearFraction (basisOf convention) (dateOf x) (dateOf (next x))) := by
    unfold averageRate compoundedRate
    refine div_le_div_of_nonneg_right ?_ ?_
    · have := one_add_sum_le_prod (Finset.range (n + 1)) (fun i : Nat => if B (a + i) then
        simpleRate R (basisOf convention) (dateOf (a + i)) (dateOf (a + i + 1)) *
          yearFraction (basisOf convention) (dateOf (a + i)) (dateOf (next (a + i))) else 0) (by
        intro i hi
        have hi' := Finset.mem_range.1 hi
        by_cases h : B (a + i)
        · rw [if_pos h]; exact mul_nonneg (hr i (by omega)) (hτ i (by omega) h)
        · rw [if_neg h])
      beta_reduce at this
      rw [le_sub_iff_add_le, add_comm]
      refine le_trans (le_of_eq ?_) (le_trans this (le_of_eq ?_))
      · congr 1
      · apply Finset.prod_congr rfl
        intro i _
        by_cases h : B (a + i)
        · rw [if_pos h, if_pos h]
        · rw [if_neg h, if_neg h, add_zero]
    · apply Finset.sum_nonneg
      intro i hi
      have hi' := Finset.mem_range.1 hi
      by_cases h : B (a + i)
      · rw [if_pos h]; exact hτ i (by omega) h
      · rw [if_neg h]
  linarith

end

/-- C68: a reference period of two days has only one reset: the second day is dropped from the schedule, and the rate of the
first day accrues over both. -/
theorem C68_two_days_deviation (cal : CalendarOps) (a : Int) (ha : 0 < a) :
    overnightDates cal (day a) (day (a + 1)) = .ok [day a, day (a + 2)] := by
  unfold overnightDates
  dsimp only
  have hv : ValidRow ⟨day (a + 1), day (a + 1), 1⟩ (dateOf (a + 1)) (dateOf (a + 1)) :=
    ⟨day_represents _, day_represents _, (number_pos_iff _ (dateOf_valid _)).1 (by rw [dateOf_number]; omega),
      fun h => by have := (before_iff _ _ (dateOf_valid _) (dateOf_valid _)).1 h; omega, by simp⟩
  rw [day_add a ha, bind_ok, C15_roll, C15_degenerate_schedule_is_empty .DAY _ (by
    intro r hr
    rw [List.mem_singleton] at hr
    subst hr
    exact ⟨_, _, hv⟩) (by
    intro r hr
    rw [List.mem_singleton] at hr
    subst hr
    rfl), day_add _ (by omega)]
  show Except.ok _ = _
  rw [add_assoc]
  rfl

/-- C68: if the last day of the reference period is a holiday, the last reset is rolled past the end of the period: the rate of
Friday 3 January 2020 accrues up to Monday 6 January, and the rate of that Monday, which is outside the period, accrues over minus
one day. -/
theorem C68_holiday_at_end_deviation :
    (overnightDates ucal2020.ops (exDate 2020 1 2) (exDate 2020 1 4)).toOption =
      some [exDate 2020 1 2, exDate 2020 1 3, exDate 2020 1 6, exDate 2020 1 5] ∧
    daycountFraction ℚ .actual360 (exDate 2020 1 6) (exDate 2020 1 5) = -1 / 360 := by decide +kernel

/-- From Thursday 2 to Tuesday 7 January 2020 there are four resets, the second over three days. -/
example : (overnightDates ucal2020.ops (exDate 2020 1 2) (exDate 2020 1 7)).toOption =
    some [exDate 2020 1 2, exDate 2020 1 3, exDate 2020 1 6, exDate 2020 1 6, exDate 2020 1 6, exDate 2020 1 7,
      exDate 2020 1 8] := by decide +kernel

example : RollsForward ucal2020.ops (IsBusinessDay [0, 0, 0, 0, 0, 1, 1] [737425, 737784, 737791]) (737426 + 1) (737426 + 5) :=
  C68_calendar ucal2020_for _ _ (by decide)

/-- The prices of this contract; the rate of the compounding one is 3.59964 %. -/
example : (overnightPrice ucal2020.ops .actual360 true (exDate 2020 1 2) (exDate 2020 1 7) (exMarket none)).toOption =
      some (964100 / 10001) ∧
    (overnightPrice ucal2020.ops .actual360 false (exDate 2020 1 2) (exDate 2020 1 7) (exMarket none)).toOption =
      some (5363116874394300 / 55633369450667) := by decide +kernel

end Props
