import Mathlib.Algebra.BigOperators.Intervals
import Verif.Props.Instruments

/-!
# Property theorems C66: streams of floating coupons
-/

namespace Props
open Model Model.Instruments Spec Lemmas

section
variable {K : Type} [Field K] [LinearOrder K] [IsStrictOrderedRing K]

open Classical in
/-- The rate paid by a floating coupon for the period from `start`: the fixing if the period has started, and otherwise the
forward rate of the reference period up to `refEnd`. -/
noncomputable def couponRate (R : YMD → K) (b : Basis) (L : K) (v start refEnd : YMD) : K :=
  if start.Before v then L else simpleRate R b start refEnd

/-- C66 (partial): the price of every stream of a batch is the present value of its own coupons, which pay
`multiplier * (rate + basis)`, if (1) there is no basis or no coupon has been paid, and (2) the reference period of every future
coupon is as long as the coupon period.  See the deviation theorems for what happens otherwise. -/
theorem C66_floating_partial (p refType : PeriodType) (convention : DayCount) (kind : StubKind) (hasFirst hasPenultimate : Bool)
    (hflags : kind.flags hasFirst hasPenultimate) (rows : List (FloatRow K))
    (hrows : ∀ r ∈ rows, ∃ d e f, StreamOK kind r.dates d e f) (hq : ∀ r ∈ rows, 0 < r.refQuantity)
    (hne : ∃ r ∈ rows, (kind.inner r.dates).start.ordinal < (kind.inner r.dates).stop.ordinal)
    (s : FloatStream K) (hs : FloatStream.setup p refType convention hasFirst hasPenultimate rows = .ok s) :
    ∃ (k : FloatRow K → Nat) (c a : FloatRow K → Nat → YMD),
      (∀ r ∈ rows, ∀ d e f, StreamOK kind r.dates d e f →
        CouponDates p r.dates.quantity (kind.stub f) d e (k r) (c r) ∧
        ∀ j, j < k r → ((kind.stub f).irregular (k r) j → a r j = c r (j + 1)) ∧
          (¬ (kind.stub f).irregular (k r) j → ShiftedBy refType r.refQuantity (c r j) (a r j))) ∧
      ∀ (v : DateT) (vd : YMD) (m : Market K) (R D : YMD → K), Represents v vd → Quotes m R D →
        (fixing m = 0 ∨ rows.length = 1 ∨ s.num = 1) →
        (∀ r ∈ rows, r.multiplier * r.basis = 0 ∨ ∀ j, j < k r → ¬ (c r (j + 1)).Before vd) →
        (∀ r ∈ rows, ∀ j, j < k r → ¬ (c r j).Before vd →
          0 < yearFraction (K := K) (basisOf convention) (c r j) (c r (j + 1)) ∧
          yearFraction (K := K) (basisOf convention) (c r j) (a r j) =
            yearFraction (basisOf convention) (c r j) (c r (j + 1))) →
        s.price v m = .ok (rows.map (fun r => couponValue D vd (k r) (c r)
          (fun j => r.notional * yearFraction (basisOf convention) (c r j) (c r (j + 1)) *
            (r.multiplier * (couponRate R (basisOf convention) (fixing m) vd (c r j) (a r j) + r.basis))))) := by
  obtain ⟨k, c, a, h1, h2⟩ := float_price p refType convention kind hasFirst hasPenultimate hflags rows hrows hq hne s hs
  refine ⟨k, c, a, fun r hr d e f h => (h1 r hr).2 d e f h, fun v vd m R D hv hm hfix hb href => ?_⟩
  rw [h2 v vd m R D hv hm hfix]
  congr 1
  apply List.map_congr_left
  intro r hr
  unfold couponValue
  apply Finset.sum_congr rfl
  intro j hj
  have hj' := Finset.mem_range.1 hj
  unfold codeRate couponRate
  beta_reduce
  by_cases hp : (c r (j + 1)).Before vd
  · rw [if_pos hp, if_pos hp, zero_add]
    rcases hb r hr with h | h
    · rw [h]; ring
    · exact absurd hp (h j hj')
  · rw [if_neg hp, if_neg hp]
    by_cases hc : (c r j).Before vd
    · rw [if_pos hc, if_pos hc]; ring
    · obtain ⟨ht, he⟩ := href r hr j hj' hc
      rw [if_neg hc, if_neg hc, if_pos ht, simpleRate, he]; ring

theorem shift_compose {p : PeriodType} {q : Int} {i : Nat} {d x y : YMD} (hd : d.Valid)
    (hp : p = .DAY ∨ p = .WEEK ∨ d.day ≤ 28) (h1 : ShiftedBy p (q * (i : Int)) d x) (h2 : ShiftedBy p q x y) :
    ShiftedBy p (q * ((i + 1 : Nat) : Int)) d y := by
  refine ⟨h2.1, ?_⟩
  have e : q * ((i + 1 : Nat) : Int) = q * (i : Int) + q := by push_cast; ring
  have h1' := h1.2
  have h2' := h2.2
  have ml := (monthLength_pos x.year x.month).1
  have ml' := (monthLength_pos y.year y.month).1
  rw [e]
  cases p with
  | DAY => simp only at h1' h2' ⊢; omega
  | WEEK => simp only at h1' h2' ⊢; omega
  | MONTH =>
    simp only [reduceCtorEq, false_or] at hp
    simp only at h1' h2' ⊢; omega
  | YEAR =>
    simp only [reduceCtorEq, false_or] at hp
    simp only at h1' h2' ⊢; omega

/-- The length of a period is positive, with the exception of one day from a 30th to a 31st under 30/360. -/
theorem yearFraction_pos (b : Basis) (d e : YMD) (hd : d.Valid) (he : e.Valid) (h : d.Before e)
    (h3 : b ≠ .thirty360 ∨ d.day ≤ 28 ∧ e.day = d.day) : 0 < yearFraction (K := K) b d e := by
  have hn := (before_iff d e hd he).1 h
  have hcast : ∀ z : Int, 0 < z → (0 : K) < (z : K) := fun z hz => by exact_mod_cast hz
  cases b with
  | actual360 => exact div_pos (hcast _ (by omega)) (by norm_num)
  | actual365 => exact div_pos (hcast _ (by omega)) (by norm_num)
  | thirty360 =>
    simp only [ne_eq, not_true_eq_false, false_or] at h3
    refine div_pos (hcast _ ?_) (by norm_num)
    rw [if_neg (by omega), if_neg (by omega)]
    unfold YMD.Before at h
    have := hd.1; have := he.1; have := hd.2.1; have := he.2.1
    omega

/-- The stream can be set up. -/
theorem float_total (p refType : PeriodType) (convention : DayCount) (kind : StubKind) (hasFirst hasPenultimate : Bool)
    (hflags : kind.flags hasFirst hasPenultimate) (rows : List (FloatRow K))
    (hrows : ∀ r ∈ rows, ∃ d e f, StreamOK kind r.dates d e f) (hq : ∀ r ∈ rows, 0 ≤ r.refQuantity)
    (hlast : kind = .last → p = .MONTH ∨ p = .YEAR ∨ rows.length = 1)
    (hne : ∃ r ∈ rows, (kind.inner r.dates).start.ordinal < (kind.inner r.dates).stop.ordinal) :
    ∃ s, FloatStream.setup p refType convention hasFirst hasPenultimate rows = .ok s := by
  have hne0 : rows ≠ [] := by obtain ⟨r, hr, _⟩ := hne; exact List.ne_nil_of_mem hr
  obtain ⟨s, hs⟩ := C65_total (K := K) p convention kind hasFirst hasPenultimate hflags
    (rows.map (fun r => ⟨r.dates, 0, 0⟩)) (by
      intro q hq
      obtain ⟨r, hr, rfl⟩ := List.mem_map.1 hq
      exact hrows r hr) (by simpa using hlast)
  have hsched : ∃ schedule, generateSchedule p hasFirst hasPenultimate (rows.map FloatRow.dates) = .ok schedule := by
    unfold FixedStream.setup at hs
    rw [bind_ok_iff, List.map_map] at hs
    exact ⟨_, hs.choose_spec.1⟩
  obtain ⟨schedule, hsch⟩ := hsched
  obtain ⟨n, o, k, y, rfl, hy⟩ := stream_dates p kind hasFirst hasPenultimate hflags (rows.map FloatRow.dates)
    (by intro q hq; obtain ⟨r, hr, rfl⟩ := List.mem_map.1 hq; exact hrows r hr)
    (by obtain ⟨r, hr, h⟩ := hne; exact ⟨_, List.mem_map.2 ⟨r, hr, rfl⟩, h⟩) hsch
  have hy' : ∀ r ∈ rows, _ := fun r hr => hy _ (List.mem_map.2 ⟨r, hr, rfl⟩)
  exact ⟨_, float_setup p refType convention hasFirst hasPenultimate rows hne0 n y (kind.regular n)
    (fun r hr i hi => (hy' r hr).2.1 i hi) hq hsch⟩

/-- A plain stream of `n r` coupons: no irregular coupon, the reference period is the coupon period, no basis, multiplier one. -/
structure Plain (p refType : PeriodType) (convention : DayCount) (n : Nat) (r : FloatRow K) (d e : YMD) : Prop where
  ok : StreamOK .none r.dates d e d
  term : refType = p ∧ r.refQuantity = r.dates.quantity
  whole : 0 < n ∧ ShiftedBy p (r.dates.quantity * (n : Int)) d e
  day : p = .DAY ∨ p = .WEEK ∨ d.day ≤ 28
  count : convention ≠ .thirty360Isda ∨ p = .MONTH ∨ p = .YEAR
  basis : r.basis = 0
  multiplier : r.multiplier = 1

theorem plain_dates {p refType : PeriodType} {convention : DayCount} {n : Nat} {r : FloatRow K} {d e : YMD}
    (h : Plain p refType convention n r d e) {k : Nat} {c : Nat → YMD}
    (hc : ForwardCoupons p r.dates.quantity d e k c) :
    k = n ∧ (∀ i, i ≤ k → ShiftedBy p (r.dates.quantity * (i : Int)) d (c i)) ∧
    ∀ j, j < k → (c j).Before (c (j + 1)) ∧
      0 < yearFraction (K := K) (basisOf convention) (c j) (c (j + 1)) ∧
      ∀ a, ShiftedBy refType r.refQuantity (c j) a → a = c (j + 1) := by
  have hd := h.ok.start.1
  have hq := h.ok.quantity
  have hspec : ∀ i : Nat, ShiftedBy p (r.dates.quantity * (i : Int)) d (shiftD p (r.dates.quantity * (i : Int)) d) :=
    fun i => shiftD_spec _ _ _ hd
  have hfw : ForwardCoupons p r.dates.quantity d e n (fun i => shiftD p (r.dates.quantity * (i : Int)) d) := by
    have he : shiftD p (r.dates.quantity * (n : Int)) d = e := shiftedBy_unique (hspec n) h.whole.2
    refine ⟨fun i hi => ⟨hspec i, ?_⟩, he, fun f hf hb => ?_⟩
    · beta_reduce
      rw [← he, before_iff _ _ (shiftD_valid _ _ _ hd) (shiftD_valid _ _ _ hd)]
      exact shiftD_mono p (Int.mul_lt_mul_of_pos_left (by omega) hq) d hd
    · have := shiftedBy_unique hf h.whole.2
      subst this
      rw [before_iff _ _ h.ok.stop.1 h.ok.stop.1] at hb
      omega
  obtain ⟨hk, hcc⟩ := forward_unique hc hfw
  subst hk
  have hsh : ∀ i, i ≤ k → ShiftedBy p (r.dates.quantity * (i : Int)) d (c i) := fun i hi => by
    rw [hcc i hi]; exact hspec i
  refine ⟨rfl, hsh, fun j hj => ?_⟩
  have hb : (c j).Before (c (j + 1)) := by
    rw [before_iff _ _ (hsh j (by omega)).1 (hsh (j + 1) (by omega)).1, hcc j (by omega), hcc (j + 1) (by omega)]
    exact shiftD_mono p (Int.mul_lt_mul_of_pos_left (by omega) hq) d hd
  refine ⟨hb, yearFraction_pos _ _ _ (hsh j (by omega)).1 (hsh (j + 1) (by omega)).1 hb ?_, fun a ha => ?_⟩
  · rcases h.count with hcnt | hcnt
    · left
      cases convention <;> simp_all [basisOf]
    · right
      have h28 : d.day ≤ 28 := by
        rcases h.day with h' | h' | h'
        · rw [h'] at hcnt; simp at hcnt
        · rw [h'] at hcnt; simp at hcnt
        · exact h'
      have hday : ∀ i, i ≤ k → (c i).day = d.day := fun i hi => by
        have := (hsh i hi).2
        have ml := (monthLength_pos (c i).year (c i).month).1
        rcases hcnt with rfl | rfl <;> simp only at this <;> omega
      rw [hday j (by omega), hday (j + 1) (by omega)]
      exact ⟨h28, rfl⟩
  · obtain ⟨rfl, hq'⟩ := h.term
    rw [hq'] at ha
    exact shiftedBy_unique (shift_compose hd h.day (hsh j (by omega)) ha) (hsh (j + 1) (by omega))

/-- C66: on a single curve, before its start, a plain stream is worth `notional * (D(start) - D(end))`. -/
theorem C66_plain (p refType : PeriodType) (convention : DayCount) (rows : List (FloatRow K)) (n : FloatRow K → Nat)
    (start stop : FloatRow K → YMD) (hrows : ∀ r ∈ rows, Plain p refType convention (n r) r (start r) (stop r))
    (hne : rows ≠ []) :
    ∃ s, FloatStream.setup p refType convention false false rows = .ok s ∧
      ∀ (v : DateT) (vd : YMD) (m : Market K) (D : YMD → K), Represents v vd → Quotes m D D → (∀ d, D d ≠ 0) →
        (fixing m = 0 ∨ rows.length = 1 ∨ s.num = 1) → (∀ r ∈ rows, ¬ (start r).Before vd) →
        s.price v m = .ok (rows.map (fun r => r.notional * (D (start r) - D (stop r)))) := by
  have hrows' : ∀ r ∈ rows, ∃ d e f, StreamOK .none r.dates d e f := fun r hr => ⟨_, _, _, (hrows r hr).ok⟩
  have hq : ∀ r ∈ rows, 0 < r.refQuantity := fun r hr => by
    rw [(hrows r hr).term.2]; exact (hrows r hr).ok.quantity
  have hlt : ∃ r ∈ rows, (StubKind.none.inner r.dates).start.ordinal < (StubKind.none.inner r.dates).stop.ordinal := by
    obtain ⟨r, hr⟩ := List.exists_mem_of_ne_nil _ hne
    refine ⟨r, hr, ?_⟩
    have h := hrows r hr
    have hd := h.ok.start.1
    have e1 : r.dates.start.ordinal = (start r).number := h.ok.start.2.2.2.2
    have e2 : r.dates.stop.ordinal = (stop r).number := h.ok.stop.2.2.2.2
    have he := shiftedBy_unique (shiftD_spec p (r.dates.quantity * (n r : Int)) (start r) hd) h.whole.2
    show r.dates.start.ordinal < r.dates.stop.ordinal
    rw [e1, e2, ← he]
    have := shiftD_mono p (m := 0) (n := r.dates.quantity * (n r : Int))
      (Int.mul_pos h.ok.quantity (by exact_mod_cast h.whole.1)) (start r) hd
    rwa [shiftD_zero _ _ hd] at this
  obtain ⟨s, hs⟩ := float_total p refType convention .none false false ⟨rfl, rfl⟩ rows hrows'
    (fun r hr => le_of_lt (hq r hr)) (by simp) hlt
  obtain ⟨k, c, a, h1, h2⟩ := float_price p refType convention .none false false ⟨rfl, rfl⟩ rows hrows' hq hlt s hs
  refine ⟨s, hs, fun v vd m D hv hm hD hfix hvd => ?_⟩
  rw [h2 v vd m D D hv hm hfix]
  congr 1
  apply List.map_congr_left
  intro r hr
  have h := hrows r hr
  obtain ⟨hc, ha⟩ := (h1 r hr).2 _ _ _ h.ok
  obtain ⟨hk, hsh, hj⟩ := plain_dates h hc
  have hc0 : c r 0 = start r := by
    have := hsh 0 (by omega)
    rw [show r.dates.quantity * ((0 : Nat) : Int) = 0 by simp] at this
    rw [shiftedBy_unique this (shiftD_spec p 0 _ h.ok.start.1), shiftD_zero _ _ h.ok.start.1]
  have hck : c r (k r) = stop r := hc.2.1
  have hnot : ∀ i, i ≤ k r → ¬ (c r i).Before vd := by
    intro i hi hb
    apply hvd r hr
    rw [← hc0]
    rcases Nat.eq_zero_or_pos i with rfl | hpos
    · exact hb
    · rw [before_iff _ _ (hsh i hi).1 hv.1] at hb
      rw [before_iff _ _ (hsh 0 (by omega)).1 hv.1]
      have e0 := shiftedBy_unique (hsh 0 (by omega)) (shiftD_spec p _ _ h.ok.start.1)
      have ei := shiftedBy_unique (hsh i hi) (shiftD_spec p _ _ h.ok.start.1)
      have := shiftD_mono p (m := r.dates.quantity * ((0 : Nat) : Int)) (n := r.dates.quantity * (i : Int))
        (Int.mul_lt_mul_of_pos_left (by omega) h.ok.quantity) (start r) h.ok.start.1
      rw [← e0, ← ei] at this
      omega
  have hterm : ∀ j ∈ Finset.range (k r), r.notional * (yearFraction (basisOf convention) (c r j) (c r (j + 1)) *
      (r.multiplier * (codeRate D (fixing m) vd (yearFraction (basisOf convention) (c r j) (c r (j + 1)))
        (c r j) (c r (j + 1)) (a r j) + r.basis)) * D (c r (j + 1))) =
      r.notional * D (c r j) - r.notional * D (c r (j + 1)) := by
    intro j hj'
    have hj' := Finset.mem_range.1 hj'
    obtain ⟨_, hpos, hacc⟩ := hj j hj'
    have haj := hacc _ ((ha j hj').2 (by simp [StubKind.stub, Stub.irregular]))
    have h1 := hD (c r (j + 1))
    rw [haj, codeRate, if_neg (hnot (j + 1) (by omega)), if_neg (hnot j (by omega)), if_pos hpos, h.basis, h.multiplier]
    have := ne_of_gt hpos
    field_simp
    ring
  rw [Finset.sum_congr rfl hterm, Finset.sum_range_sub' (fun j => r.notional * D (c r j)), hc0, hck]
  ring

open Classical in
/-- Deviation: coupons paid before the valuation date still count with their basis. -/
theorem C66_past_basis_deviation (p refType : PeriodType) (convention : DayCount) (kind : StubKind)
    (hasFirst hasPenultimate : Bool) (hflags : kind.flags hasFirst hasPenultimate) (rows : List (FloatRow K))
    (hrows : ∀ r ∈ rows, ∃ d e f, StreamOK kind r.dates d e f) (hq : ∀ r ∈ rows, 0 < r.refQuantity)
    (hne : ∃ r ∈ rows, (kind.inner r.dates).start.ordinal < (kind.inner r.dates).stop.ordinal)
    (s : FloatStream K) (hs : FloatStream.setup p refType convention hasFirst hasPenultimate rows = .ok s) :
    ∃ (k : FloatRow K → Nat) (c a : FloatRow K → Nat → YMD),
      (∀ r ∈ rows, ∀ d e f, StreamOK kind r.dates d e f →
        CouponDates p r.dates.quantity (kind.stub f) d e (k r) (c r) ∧
        ∀ j, j < k r → ((kind.stub f).irregular (k r) j → a r j = c r (j + 1)) ∧
          (¬ (kind.stub f).irregular (k r) j → ShiftedBy refType r.refQuantity (c r j) (a r j))) ∧
      ∀ (v : DateT) (vd : YMD) (m : Market K) (R D : YMD → K), Represents v vd → Quotes m R D →
        (fixing m = 0 ∨ rows.length = 1 ∨ s.num = 1) →
        (∀ r ∈ rows, ∀ j, j < k r → ¬ (c r j).Before vd →
          0 < yearFraction (K := K) (basisOf convention) (c r j) (c r (j + 1)) ∧
          yearFraction (K := K) (basisOf convention) (c r j) (a r j) =
            yearFraction (basisOf convention) (c r j) (c r (j + 1))) →
        s.price v m = .ok (rows.map (fun r => couponValue D vd (k r) (c r)
          (fun j => r.notional * yearFraction (basisOf convention) (c r j) (c r (j + 1)) *
            (r.multiplier * (couponRate R (basisOf convention) (fixing m) vd (c r j) (a r j) + r.basis))) +
          ∑ j ∈ Finset.range (k r), if (c r (j + 1)).Before vd then
            r.notional * yearFraction (basisOf convention) (c r j) (c r (j + 1)) * (r.multiplier * r.basis) *
              D (c r (j + 1)) else 0)) := by
  obtain ⟨k, c, a, h1, h2⟩ := float_price p refType convention kind hasFirst hasPenultimate hflags rows hrows hq hne s hs
  refine ⟨k, c, a, fun r hr d e f h => (h1 r hr).2 d e f h, fun v vd m R D hv hm hfix href => ?_⟩
  rw [h2 v vd m R D hv hm hfix]
  congr 1
  apply List.map_congr_left
  intro r hr
  unfold couponValue
  rw [← Finset.sum_add_distrib]
  apply Finset.sum_congr rfl
  intro j hj
  have hj' := Finset.mem_range.1 hj
  unfold codeRate couponRate
  beta_reduce
  by_cases hp : (c r (j + 1)).Before vd
  · rw [if_pos hp, if_pos hp, if_pos hp]; ring
  · rw [if_neg hp, if_neg hp, if_neg hp]
    by_cases hc : (c r j).Before vd
    · rw [if_pos hc, if_pos hc]; ring
    · obtain ⟨ht, he⟩ := href r hr j hj' hc
      rw [if_neg hc, if_neg hc, if_pos ht, simpleRate, he]; ring

/-- Deviation: the rate used for a future coupon is the forward rate of the reference period times the quotient of the lengths
of the reference period and of the coupon period. -/
theorem C66_reference_period_deviation (R : YMD → K) (L : K) (v start stop refEnd : YMD) (b : Basis)
    (h0 : ¬ start.Before v) (h1 : ¬ stop.Before v) (hτ : 0 < yearFraction (K := K) b start stop)
    (hr : yearFraction (K := K) b start refEnd ≠ 0) :
    codeRate R L v (yearFraction b start stop) start stop refEnd =
      couponRate R b L v start refEnd * (yearFraction b start refEnd / yearFraction b start stop) := by
  unfold codeRate couponRate simpleRate
  rw [if_neg h1, if_neg h0, if_pos hτ, if_neg h0]
  have := ne_of_gt hτ
  field_simp

omit [IsStrictOrderedRing K] in
/-- Deviation: with a fixing, a batch of several streams with several coupons cannot be priced. -/
theorem C66_fixing_batch_deviation (s : FloatStream K) (v : DateT) (m : Market K) (h : fixing m ≠ 0)
    (hb : 2 ≤ s.batch) (hn : 2 ≤ s.num) : s.price v m = .error "Incompatible shapes" := by
  unfold FloatStream.price
  have : broadcast (s.batch * s.num) (liborFixings s.batch s.num m) = .error "Incompatible shapes" := by
    unfold liborFixings fixing at *
    cases hm : m.liborRate with
    | none => rw [hm] at h; simp at h
    | some rate =>
      rw [hm] at h
      simp only [Option.getD_some] at h ⊢
      rw [if_neg h]
      unfold broadcast
      rw [if_neg (by simp only [List.length_replicate]; nlinarith)]
      obtain ⟨n, hn'⟩ := Nat.exists_eq_add_of_le hn
      rw [hn', show 2 + n = n + 1 + 1 by omega, List.replicate_succ, List.replicate_succ]
  rw [this]
  rfl

end

/-! ## Examples and witnesses -/

/-- One stream with notional 100 and multiplier 1. -/
def exFloat (start stop : DateT) (quantity refQuantity : Int) (basis : ℚ) : FloatRow ℚ :=
  ⟨⟨start, stop, quantity, start, start⟩, refQuantity, 100, basis, 1⟩

/-- Set up and price a batch without irregular coupons. -/
def exFloatPrice (rows : List (FloatRow ℚ)) (v : DateT) (m : Market ℚ) : Option (List ℚ) :=
  ((FloatStream.setup .MONTH .MONTH .actual365 false false rows).bind (fun s => s.price v m)).toOption

/-- Two streams before their start: `notional * (D(start) - D(end))`. -/
example : exFloatPrice [exFloat (exDate 2020 2 28) (exDate 2021 2 28) 3 3 0, exFloat (exDate 2020 3 15) (exDate 2020 9 15) 3 3 0]
    (exDate 2020 1 1) (exMarket none) =
    some [100 * (1 / (1 + 58 / 10000) - 1 / (1 + 424 / 10000)), 100 * (1 / (1 + 74 / 10000) - 1 / (1 + 258 / 10000))] := by
  decide +kernel

/-- A current coupon with fixing 1/50, and a future one. -/
example : exFloatPrice [exFloat (exDate 2020 1 1) (exDate 2021 1 1) 6 6 0] (exDate 2020 3 1) (exMarket (some (1 / 50))) =
    some [100 * (182 / 365) * (1 / 50) * (1 / (1 + 182 / 10000)) + 100 * (1 / (1 + 182 / 10000) - 1 / (1 + 366 / 10000))] := by
  decide +kernel

/-- The first coupon has been paid; its basis is still counted. -/
example : exFloatPrice [exFloat (exDate 2020 1 1) (exDate 2021 1 1) 6 6 (1 / 100)] (exDate 2020 8 1)
    (exMarket (some (1 / 50))) =
    some [100 * (184 / 365) * (1 / 50 + 1 / 100) * (1 / (1 + 366 / 10000)) +
      100 * (182 / 365) * (1 / 100) * (1 / (1 + 182 / 10000))] := by
  decide +kernel

/-- A quarterly coupon on the six month rate pays twice the rate. -/
example : exFloatPrice [exFloat (exDate 2020 1 1) (exDate 2020 4 1) 3 6 0] (exDate 2020 1 1) (exMarket none) =
    some [100 * (91 / 365) * (2 * ((182 / 10000) / (182 / 365))) * (1 / (1 + 91 / 10000))] := by
  decide +kernel

/-- Deviation: for a stream starting on 31 January the reference periods do not fit together, and the stream is not worth
`notional * (D(start) - D(end))`: the reference period of the second coupon ends on 28 March, the coupon on 31 March. -/
theorem C66_month_end_deviation :
    exFloatPrice [exFloat (exDate 2021 1 31) (exDate 2021 3 31) 1 1 0] (exDate 2020 1 1) (exMarket none) =
      some [100 * (1 / (1 + 396 / 10000) - 1 / (1 + 424 / 10000)) + 100 * ((28 / 10000) / (1 + 424 / 10000)) *
        (1 / (1 + 455 / 10000))] ∧
    exFloatPrice [exFloat (exDate 2021 1 31) (exDate 2021 3 31) 1 1 0] (exDate 2020 1 1) (exMarket none) ≠
      some [100 * (1 / (1 + 396 / 10000) - 1 / (1 + 455 / 10000))] := by
  constructor <;> decide +kernel

/-- Two streams with two coupons each and a fixing. -/
example : exFloatPrice [exFloat (exDate 2020 1 1) (exDate 2021 1 1) 6 6 0, exFloat (exDate 2020 1 1) (exDate 2021 1 1) 6 6 0]
    (exDate 2020 3 1) (exMarket (some (1 / 50))) = none := by
  decide +kernel

end Props
