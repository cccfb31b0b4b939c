import Mathlib.Tactic.IntervalCases
import Verif.Model.PlatformFra
import Verif.Props.PlatformSwap

/-!
# Property theorems C91: forward rate agreements of the pricing platform
-/

namespace Props
open Model Model.Platform Spec Lemmas

section
variable {K : Type} [Field K] [LinearOrder K] [IsStrictOrderedRing K]

/-- C91.  The price is the difference of the forward rate `F` with `(1 + τ F) P(end) = P(start)` and the fixed rate, over the period and
discounted: from the start with the discount curve and from the end with the reference curve. -/
theorem C91_price (a : Fra K) (P D : DateT → K) (hP : P a.stop ≠ 0) (hS : P a.start ≠ 0) (F : K)
    (hF : (1 + a.fraction * F) * P a.stop = P a.start) (hτ : 0 < a.fraction) :
    a.price P D = (if a.short then 1 else -1) * a.notional * (F - a.fixedRate) * a.fraction * (P a.stop / P a.start) * D a.start := by
  have h1 : curveForwardRate P a.start a.stop a.fraction = F := by
    rw [curveForwardRate, ← hF, mul_div_cancel_right₀ _ hP, add_sub_cancel_left, mul_div_cancel_left₀ _ hτ.ne']
  have h2 : 1 + a.fraction * F ≠ 0 := by
    intro h
    rw [h, zero_mul] at hF
    exact hS hF.symm
  simp only [Fra.price, h1, if_pos hτ, gt_iff_lt]
  rw [← hF]
  field_simp

/-- C91.  On one curve: the value of receiving the notional at the start and returning it with the fixed interest at the end. -/
theorem C91_one_curve (a : Fra K) (P : DateT → K) (hP : P a.stop ≠ 0) (hS : P a.start ≠ 0) (hτ : 0 < a.fraction) :
    a.price P P = (if a.short then 1 else -1) * a.notional * (P a.start - (1 + a.fraction * a.fixedRate) * P a.stop) := by
  have hτ' := hτ.ne'
  have hF : (1 + a.fraction * ((P a.start / P a.stop - 1) / a.fraction)) * P a.stop = P a.start := by field_simp; ring
  rw [C91_price a P P hP hS _ hF hτ]
  field_simp
  ring

/-- C91.  The agreement is worth nothing exactly at the forward rate. -/
theorem C91_fair (a : Fra K) (P D : DateT → K) (hP : 0 < P a.stop) (hS : 0 < P a.start) (hD : 0 < D a.start) (hN : a.notional ≠ 0)
    (F : K) (hF : (1 + a.fraction * F) * P a.stop = P a.start) (hτ : 0 < a.fraction) : a.price P D = 0 ↔ a.fixedRate = F := by
  rw [C91_price a P D hP.ne' hS.ne' F hF hτ]
  have h1 : (if a.short then (1 : K) else -1) ≠ 0 := by split <;> simp
  have h2 : P a.stop / P a.start ≠ 0 := (div_pos hP hS).ne'
  constructor
  · intro h
    rcases mul_eq_zero.1 h with h | h
    · rcases mul_eq_zero.1 h with h | h
      · rcases mul_eq_zero.1 h with h | h
        · rcases mul_eq_zero.1 h with h | h
          · rcases mul_eq_zero.1 h with h | h
            · exact absurd h h1
            · exact absurd h hN
          · exact (sub_eq_zero.1 h).symm
        · exact absurd h hτ.ne'
      · exact absurd h h2
    · exact absurd h hD.ne'
  · rintro rfl
    simp

/-- C91.  An empty accrual period is worth nothing. -/
theorem C91_empty (a : Fra K) (P D : DateT → K) (hτ : a.fraction ≤ 0) : a.price P D = 0 := by
  simp [Fra.price, not_lt.2 hτ]

/-- C91.  Long and short positions are opposite. -/
theorem C91_positions (a : Fra K) (P D : DateT → K) :
    ({ a with short := true } : Fra K).price P D = -({ a with short := false } : Fra K).price P D := by
  simp only [Fra.price, if_true, Bool.false_eq_true, if_false]
  ring

/-- Deviation from C91: `short_position` is documented as lending at the fixed rate, but the value of the position falls when the fixed
rate rises. -/
theorem C91_sign (a : Fra K) (P D : DateT → K) (hP : 0 < P a.stop) (hS : 0 < P a.start) (hD : 0 < D a.start) (hN : 0 < a.notional)
    (hτ : 0 < a.fraction) (hs : a.short = true) (r : K) (hr : a.fixedRate < r) :
    ({ a with fixedRate := r } : Fra K).price P D < a.price P D := by
  have hτ' := hτ.ne'
  have hP' := hP.ne'
  have hF : (1 + a.fraction * ((P a.start / P a.stop - 1) / a.fraction)) * P a.stop = P a.start := by field_simp; ring
  rw [C91_price a P D hP' hS.ne' _ hF hτ, C91_price { a with fixedRate := r } P D hP' hS.ne' _ hF hτ]
  simp only [hs, if_true, one_mul]
  have h : 0 < a.notional * a.fraction * (P a.stop / P a.start) * D a.start := by positivity
  nlinarith [mul_pos h (sub_pos.2 hr)]

end

/-- The calendar of the platform: Saturdays and Sundays only. -/
theorem streamCalendar_for : UCalendarFor streamCalendar [0, 0, 0, 0, 0, 1, 1] [] :=
  ⟨rfl, by decide, by decide, by decide, Or.inr (Or.inl ⟨rfl, rfl⟩)⟩

/-- C91.  The accrual period for the rule FOLLOWING: it starts the settlement days after the first weekday on or after the fixing date,
and ends on the first weekday on or after the start plus the term. -/
theorem C91_dates (fixing : DateT) (h8 : 8 ≤ fixing.ordinal) (n : Int) (hn : 0 ≤ n) (term : ProtoPeriod × Int) (p : Period)
    (hp : getPeriod term.1 term.2 = .ok p)
    (hadd : ∀ (s : DateT) (d : YMD), Represents s d → 8 ≤ d.number → ∃ t, s.add p = .ok t ∧ 8 ≤ t.ordinal) :
    ∃ (s t e : DateT) (d f g : YMD), fraDates fixing n .FOLLOWING term = .ok (s, e) ∧
      FirstOnOrAfter (IsBusinessDay [0, 0, 0, 0, 0, 1, 1] []) fixing.ordinal d.number ∧
      BusinessDaysAfter (IsBusinessDay [0, 0, 0, 0, 0, 1, 1] []) d.number n f.number ∧ Represents s f ∧
      s.add p = .ok t ∧ FirstOnOrAfter (IsBusinessDay [0, 0, 0, 0, 0, 1, 1] []) t.ordinal g.number ∧ Represents e g := by
  have hc := streamCalendar_for
  obtain ⟨u, d, hu, hud, hfd⟩ := C11_following hc fixing h8
  have hd8 : 8 ≤ d.number := le_trans h8 hfd.1
  obtain ⟨f, hfv, hf8, hfa⟩ := C12_unbounded_target_exists hc d.number hd8 hfd.2.1 n hn
  obtain ⟨s, hs, hsf⟩ := C12_unbounded_add_business_days hc fixing n .FOLLOWING d.number hd8
    ⟨hfd.2.1, by rw [if_neg (by decide)]; exact ⟨u, hu, hud.2.2.2.2⟩⟩ f hfv hf8 hfa
  obtain ⟨t, ht, ht8⟩ := hadd s f hsf hf8
  obtain ⟨e, g, he, heg, hfg⟩ := C11_following hc t ht8
  refine ⟨s, t, e, d, f, g, ?_, hfd, hfa, hsf, ht, hfg, heg⟩
  simp [fraDates, getBusinessDayConvention, hs, hp, UnboundedCal.addPeriodAndRoll, ht, he, bind, Except.bind, pure, Except.pure]

/-- The day a rule without end of month moves a day to. -/
def RuledTo (rule : BusinessRule) (B : Int → Prop) (d r : Int) : Prop :=
  match rule with
  | .FOLLOWING => FirstOnOrAfter B d r
  | .PREVIOUS => LastOnOrBefore B d r
  | .MODIFIED_FOLLOWING => ModifiedFollowing B d r
  | .MODIFIED_PREVIOUS => ModifiedPreceding B d r
  | _ => False

theorem weekdays_iff (o : Int) : IsBusinessDay [0, 0, 0, 0, 0, 1, 1] [] o ↔ weekday o < 5 := by
  have h7 : weekday o < 7 := by unfold weekday; omega
  unfold IsBusinessDay
  generalize weekday o = w at *
  interval_cases w <;> simp

theorem weekdays_before (o : Int) : ∃ r, o - 2 ≤ r ∧ LastOnOrBefore (IsBusinessDay [0, 0, 0, 0, 0, 1, 1] []) o r := by
  by_cases h0 : IsBusinessDay [0, 0, 0, 0, 0, 1, 1] [] o
  · exact ⟨o, by omega, le_refl _, h0, fun x h1 h2 => absurd h1 (by omega)⟩
  by_cases h1 : IsBusinessDay [0, 0, 0, 0, 0, 1, 1] [] (o - 1)
  · refine ⟨o - 1, by omega, by omega, h1, fun x h2 h3 => ?_⟩
    rw [show x = o by omega]
    exact h0
  · refine ⟨o - 2, by omega, by omega, ?_, fun x h2 h3 => ?_⟩
    · rw [weekdays_iff] at *
      unfold weekday at *
      omega
    · rcases (by omega : x = o ∨ x = o - 1) with rfl | rfl
      · exact h0
      · exact h1

theorem weekdays_dense : NoLongGapU [0, 0, 0, 0, 0, 1, 1] [] := by
  intro a _
  obtain ⟨r, h1, h2, h3, _⟩ := weekdays_before (a + 2)
  exact ⟨r, by omega, by omega, h3⟩

/-- Every rule moves every day. -/
theorem rule_rolls (rule : BusinessRule) (conv : BusinessDayConvention) (hrule : rule ∈ [.FOLLOWING, .PREVIOUS, .MODIFIED_FOLLOWING, .MODIFIED_PREVIOUS])
    (hconv : getBusinessDayConvention rule = .ok (conv, false)) (t : DateT) (d : YMD) (ht : Represents t d) (hd : 400 ≤ d.number) :
    conv ≠ .NONE ∧ ∃ (u : DateT) (f : YMD), streamCalendar.roll t conv = .ok u ∧ Represents u f ∧ 8 ≤ f.number ∧
      RuledTo rule (IsBusinessDay [0, 0, 0, 0, 0, 1, 1] []) d.number f.number ∧ IsBusinessDay [0, 0, 0, 0, 0, 1, 1] [] f.number := by
  have hc := streamCalendar_for
  have e : t.ordinal = d.number := ht.2.2.2.2
  obtain ⟨u, f, hu, huf, hfirst⟩ := C11_following hc t (by omega)
  rw [e] at hfirst
  obtain ⟨r, hr, hlast⟩ := weekdays_before d.number
  obtain ⟨g, hg, hgn⟩ := (represents_dateOf _ r).1 rfl
  rw [← hgn] at hlast
  have hfirst_unique : ∀ x, FirstOnOrAfter (IsBusinessDay [0, 0, 0, 0, 0, 1, 1] []) d.number x → x = f.number := by
    intro x hx
    rcases lt_trichotomy x f.number with h | h | h
    · exact absurd hx.2.1 (hfirst.2.2 x hx.1 h)
    · exact h
    · exact absurd hfirst.2.1 (hx.2.2 _ hfirst.1 h)
  have hlast_unique : ∀ x, LastOnOrBefore (IsBusinessDay [0, 0, 0, 0, 0, 1, 1] []) d.number x → x = g.number := by
    intro x hx
    rcases lt_trichotomy x g.number with h | h | h
    · exact absurd hlast.2.1 (hx.2.2 _ h hlast.1)
    · exact h
    · exact absurd hx.2.1 (hlast.2.2 x h hx.1)
  simp only [List.mem_cons, List.not_mem_nil, or_false] at hrule
  rcases hrule with rfl | rfl | rfl | rfl
  · simp only [getBusinessDayConvention, Except.ok.injEq, Prod.mk.injEq, and_true] at hconv
    subst hconv
    exact ⟨by decide, u, f, hu, huf, by have := hfirst.1; omega, hfirst, hfirst.2.1⟩
  · simp only [getBusinessDayConvention, Except.ok.injEq, Prod.mk.injEq, and_true] at hconv
    subst hconv
    obtain ⟨w, hw, hwg⟩ := C11_preceding hc t g hg.1 (by omega) (by rw [e]; exact hlast)
    exact ⟨by decide, w, g, hw, hwg, by omega, hlast, hlast.2.1⟩
  · simp only [getBusinessDayConvention, Except.ok.injEq, Prod.mk.injEq, and_true] at hconv
    subst hconv
    by_cases hs : SameMonth f.number d.number
    · have hm : ModifiedFollowing (IsBusinessDay [0, 0, 0, 0, 0, 1, 1] []) d.number f.number := Or.inl ⟨hfirst, hs⟩
      obtain ⟨w, hw, hwf⟩ := C11_modified_following_partial hc weekdays_dense t d f ht (by omega) huf.1 (by have := hfirst.1; omega) hm
      exact ⟨by decide, w, f, hw, hwf, by have := hfirst.1; omega, hm, hfirst.2.1⟩
    · have hm : ModifiedFollowing (IsBusinessDay [0, 0, 0, 0, 0, 1, 1] []) d.number g.number :=
        Or.inr ⟨fun x hx => by rw [hfirst_unique x hx]; exact hs, hlast⟩
      obtain ⟨w, hw, hwg⟩ := C11_modified_following_partial hc weekdays_dense t d g ht (by omega) hg.1 (by omega) hm
      exact ⟨by decide, w, g, hw, hwg, by omega, hm, hlast.2.1⟩
  · simp only [getBusinessDayConvention, Except.ok.injEq, Prod.mk.injEq, and_true] at hconv
    subst hconv
    by_cases hs : SameMonth g.number d.number
    · have hm : ModifiedPreceding (IsBusinessDay [0, 0, 0, 0, 0, 1, 1] []) d.number g.number := Or.inl ⟨hlast, hs⟩
      obtain ⟨w, hw, hwg⟩ := C11_modified_preceding_partial hc weekdays_dense t d g ht hd hg.1 hm
      exact ⟨by decide, w, g, hw, hwg, by omega, hm, hlast.2.1⟩
    · have hm : ModifiedPreceding (IsBusinessDay [0, 0, 0, 0, 0, 1, 1] []) d.number f.number :=
        Or.inr ⟨fun x hx => by rw [hlast_unique x hx]; exact hs, hfirst⟩
      obtain ⟨w, hw, hwf⟩ := C11_modified_preceding_partial hc weekdays_dense t d f ht hd huf.1 hm
      exact ⟨by decide, w, f, hw, hwf, by have := hfirst.1; omega, hm, hfirst.2.1⟩

/-- C91.  The accrual period for every rule without end of month: the fixing date and the start plus the term are moved by the rule, and
the start is the settlement days after the moved fixing date. -/
theorem C91_dates_rules (rule : BusinessRule) (hrule : rule ∈ [.FOLLOWING, .PREVIOUS, .MODIFIED_FOLLOWING, .MODIFIED_PREVIOUS]) (fixing : DateT)
    (d0 : YMD) (h0 : Represents fixing d0) (h4 : 400 ≤ d0.number) (n : Int) (hn : 0 ≤ n) (term : ProtoPeriod × Int) (p : Period)
    (hp : getPeriod term.1 term.2 = .ok p)
    (hadd : ∀ (s : DateT) (d : YMD), Represents s d → 8 ≤ d.number → ∃ t c, s.add p = .ok t ∧ Represents t c ∧ 400 ≤ c.number) :
    ∃ (s t e : DateT) (d f c g : YMD), fraDates fixing n rule term = .ok (s, e) ∧
      RuledTo rule (IsBusinessDay [0, 0, 0, 0, 0, 1, 1] []) d0.number d.number ∧
      BusinessDaysAfter (IsBusinessDay [0, 0, 0, 0, 0, 1, 1] []) d.number n f.number ∧ Represents s f ∧
      s.add p = .ok t ∧ Represents t c ∧ RuledTo rule (IsBusinessDay [0, 0, 0, 0, 0, 1, 1] []) c.number g.number ∧ Represents e g := by
  have hc := streamCalendar_for
  obtain ⟨conv, hconv⟩ : ∃ conv, getBusinessDayConvention rule = .ok (conv, false) := by
    simp only [List.mem_cons, List.not_mem_nil, or_false] at hrule
    rcases hrule with rfl | rfl | rfl | rfl <;> exact ⟨_, rfl⟩
  obtain ⟨hne, u, d, hu, hud, hd8, hrd, hdb⟩ := rule_rolls rule conv hrule hconv fixing d0 h0 h4
  obtain ⟨f, hfv, hf8, hfa⟩ := C12_unbounded_target_exists hc d.number hd8 hdb n hn
  obtain ⟨s, hs, hsf⟩ := C12_unbounded_add_business_days hc fixing n conv d.number hd8
    ⟨hdb, by rw [if_neg hne]; exact ⟨u, hu, hud.2.2.2.2⟩⟩ f hfv hf8 hfa
  obtain ⟨t, c, ht, htc, ht4⟩ := hadd s f hsf hf8
  obtain ⟨-, e, g, he, heg, -, hrg, -⟩ := rule_rolls rule conv hrule hconv t c htc ht4
  refine ⟨s, t, e, d, f, c, g, ?_, hrd, hfa, hsf, ht, htc, hrg, heg⟩
  simp [fraDates, hconv, hs, hp, UnboundedCal.addPeriodAndRoll, ht, he, bind, Except.bind, pure, Except.pure]

/-- A Saturday at the end of February 2020 moves back with MODIFIED_FOLLOWING, and Saturday 31 October 2020 as well. -/
example : (fraDates (pDate 2020 2 29) 2 .MODIFIED_FOLLOWING (.MONTH, 3)).toOption = some (pDate 2020 3 3, pDate 2020 6 3) ∧
    (fraDates (pDate 2020 7 31) 0 .MODIFIED_FOLLOWING (.MONTH, 3)).toOption = some (pDate 2020 7 31, pDate 2020 10 30) := by
  decide +kernel

/-- Deviation from C91: with an end of month rule the end is moved to the last day of the month after it has been rolled, so it can be a
Sunday although the rule asks for a business day, and it is moved whether or not the start is the end of a month. -/
theorem C91_end_of_month :
    (fraDates (pDate 2020 2 10) 0 .EOM_FOLLOWING (.MONTH, 3)).toOption = some (pDate 2020 2 10, pDate 2020 5 31) ∧
    (fraDates (pDate 2020 2 10) 0 .EOM_PREVIOUS (.MONTH, 3)).toOption = some (pDate 2020 2 10, pDate 2020 5 31) ∧
    streamCalendar.isBusinessDay (pDate 2020 5 31) = false := by
  decide +kernel

/-! ## Batches -/

section
variable {K : Type} [Field K]

/-- A batch has the terms of its agreements, in order. -/
def IsFraBatch (ps : List (FraProto K)) (b : FraBatch K) : Prop :=
  b.short = ps.map (fun p => p.short) ∧ b.currency = ps.map (fun p => p.currency) ∧ b.fixing = ps.map (fun p => p.fixing) ∧
  b.fixedRate = ps.map (fun p => p.fixedRate) ∧ b.notional = ps.map (fun p => p.notional) ∧
  b.term.2 = ps.map (fun p => p.term.2) ∧ b.rateType = ps.map (fun p => p.rateType) ∧
  b.settlementDays = ps.map (fun p => p.settlementDays) ∧ b.names = ps.map (fun p => (p.id, p.instrumentType)) ∧
  ∀ p ∈ ps, p.daycount = b.daycount ∧ p.rule = b.rule ∧ p.holidays = b.calendar ∧ (storedPeriod p.term).1 = b.term.1

/-- C91.  Batches from protocol buffers: every agreement is in the batch of its key, and every batch has the terms of its agreements, in
order (with years stored as months, `C90_years`). -/
theorem C91_batches (l : List (FraProto K)) :
    ∃ d, fraFromProtos l = .ok d ∧ (d.map Prod.fst).Nodup ∧ (∀ k, k ∈ d.map Prod.fst ↔ ∃ p ∈ l, fraKey p = k) ∧
      ∀ k b, (k, b) ∈ d → IsFraBatch (l.filter (fun p => decide (fraKey p = k))) b := by
  obtain ⟨v1, v2, v3⟩ := value_injective
  obtain ⟨d, h1, h2, h3, h4⟩ := grouping_loop (fraKey (K := K)) fraEntry (fun b e => .ok (b.update e)) IsFraBatch
    (by
      intro p
      refine ⟨rfl, rfl, rfl, rfl, rfl, by simp [fraEntry, frequencyAndMultiplier], rfl, rfl, rfl, ?_⟩
      intro q hq
      rw [List.mem_singleton.1 hq]
      exact ⟨rfl, rfl, rfl, rfl⟩)
    (by
      rintro ps b p hne ⟨a1, a2, a3, a4, a5, a6, a7, a8, a9, a10⟩ hk
      refine ⟨_, rfl, by simp [FraBatch.update, fraEntry, a1], by simp [FraBatch.update, fraEntry, a2],
        by simp [FraBatch.update, fraEntry, a3], by simp [FraBatch.update, fraEntry, a4], by simp [FraBatch.update, fraEntry, a5],
        by simp [FraBatch.update, fraEntry, frequencyAndMultiplier, a6], by simp [FraBatch.update, fraEntry, a7],
        by simp [FraBatch.update, fraEntry, a8], by simp [FraBatch.update, fraEntry, a9], ?_⟩
      intro q hq
      rcases List.mem_append.1 hq with hq | hq
      · exact a10 q hq
      · rw [List.mem_singleton.1 hq]
        obtain ⟨q0, hq0⟩ := List.exists_mem_of_ne_nil ps hne
        have hk0 := hk q0 hq0
        simp only [fraKey, List.cons.injEq, and_true, ← storedPeriod_value] at hk0
        obtain ⟨c1, c2, c3, c4⟩ := a10 q0 hq0
        exact ⟨(v1 _ _ hk0.2.1).symm.trans c1, (v2 _ _ hk0.2.2.1).symm.trans c2, hk0.1.symm.trans c3,
          (v3 _ _ hk0.2.2.2).symm.trans c4⟩) l
  exact ⟨d, h1, h2, h3, h4⟩

end

/-- C91.  The constructor takes the accrual period from the dates above and the year fraction of this period from the day count convention. -/
theorem C91_init {K : Type} [Field K] (short : Bool) (fixing : DateT) (rate notional : K) (dc : Daycount) (rule : BusinessRule) (term : ProtoPeriod × Int) (n : Int) :
    (∀ s e τ, fraDates fixing n rule term = .ok (s, e) → getDaycountFn K dc = .ok τ →
      Fra.init short fixing rate notional dc rule term n = .ok ⟨s, e, τ s e, notional, rate, short⟩) ∧
    ((∃ a, Fra.init short fixing rate notional dc rule term n = .ok a) ↔
      (∃ d, fraDates fixing n rule term = .ok d) ∧ ∃ τ, getDaycountFn K dc = .ok τ) := by
  unfold Fra.init
  refine ⟨fun s e τ h1 h2 => by rw [h1, h2]; rfl, ?_⟩
  cases h1 : fraDates fixing n rule term with
  | error e => simp [bind, Except.bind]
  | ok d =>
    cases h2 : getDaycountFn K dc with
    | error e => simp [bind, Except.bind]
    | ok τ => simp [bind, Except.bind, pure, Except.pure]

/-! ## Examples -/

/-- A three month agreement on 100 at 4 percent fixed on 10 February 2021 and settled two days later. -/
def pFra : Fra ℚ := ⟨pDate 2021 2 12, pDate 2021 5 12, 89 / 365, 100, 4 / 100, true⟩

example : (Fra.init true (pDate 2021 2 10) (4 / 100 : ℚ) 100 .ACTUAL_365 .FOLLOWING (.MONTH, 3) 2).toOption.map
      (fun a => (a.start, a.stop, a.fraction, a.notional, a.fixedRate, a.short)) =
      some (pFra.start, pFra.stop, pFra.fraction, pFra.notional, pFra.fixedRate, pFra.short) ∧
    pFra.price pCurve pCurve = 100 * (pCurve (pDate 2021 2 12) - (1 + 89 / 365 * (4 / 100)) * pCurve (pDate 2021 5 12)) := by
  decide +kernel

end Props
