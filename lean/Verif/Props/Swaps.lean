import Verif.Props.Floating

/-!
# Property theorems C67: swaps, bonds, floating rate notes, rate agreements, Eurodollar futures
-/

namespace Props
open Model Model.Instruments Spec Lemmas

/-! ## Swaps -/

section
variable {K : Type} [Field K] [LinearOrder K]

theorem zipWith_sub_neg (l l' : List K) : List.zipWith (· - ·) l l' = (List.zipWith (· - ·) l' l).map (fun x => -x) := by
  induction l generalizing l' with
  | nil => simp
  | cons x l ih =>
    cases l' with
    | nil => simp
    | cons y l' => simp only [List.zipWith_cons_cons, List.map_cons, ← ih]; simp

/-- C67: the two sides of a swap have opposite values. -/
theorem C67_two_sides (a b : Leg K) (v : DateT) (m : Market K) (x : List K)
    (h : (Swap.mk a b).price v m = .ok x) : (Swap.mk b a).price v m = .ok (x.map (fun y => -y)) := by
  unfold Swap.price at *
  rw [bind_ok_iff] at h
  obtain ⟨p, hp, h⟩ := h
  rw [bind_ok_iff] at h
  obtain ⟨r, hr, h⟩ := h
  dsimp only at hp hr ⊢
  rw [hr, bind_ok, hp, bind_ok]
  simp only [pure, Except.pure, Except.ok.injEq] at h ⊢
  rw [← h, zipWith_sub_neg]

/-- The swap with a fixed and a floating leg, paying the fixed leg or receiving it. -/
def fixedFloat (payer : Bool) (f : FixedStream K) (g : FloatStream K) : Swap K :=
  if payer then ⟨.fixed f, .float g⟩ else ⟨.float g, .fixed f⟩

/-- The annuity of the fixed leg. -/
theorem annuity_eq (p : PeriodType) (convention : DayCount) (kind : StubKind) (hasFirst hasPenultimate : Bool)
    (hflags : kind.flags hasFirst hasPenultimate) (rows : List (FixedRow K))
    (hrows : ∀ r ∈ rows, ∃ d e f, StreamOK kind r.dates d e f)
    (hne : ∃ r ∈ rows, (kind.inner r.dates).start.ordinal < (kind.inner r.dates).stop.ordinal)
    (s : FixedStream K) (hs : FixedStream.setup p convention hasFirst hasPenultimate rows = .ok s) :
    ∃ (k : FixedRow K → Nat) (c : FixedRow K → Nat → YMD),
      (∀ r ∈ rows, (∀ j, j ≤ k r → (c r j).Valid) ∧ ∀ d e f, StreamOK kind r.dates d e f →
        CouponDates p r.dates.quantity (kind.stub f) d e (k r) (c r)) ∧
      (∀ (m : Market K) (R D : YMD → K) (payer : Bool) (g : FloatStream K) (unit : Bool), Quotes m R D →
        (fixedFloat payer s g).annuity m unit = .ok (rows.map (fun r => ∑ j ∈ Finset.range (k r),
          (if unit then 1 else r.notional) * yearFraction (basisOf convention) (c r j) (c r (j + 1)) * D (c r (j + 1))))) ∧
      ∀ (v : DateT) (vd : YMD) (m : Market K) (R D : YMD → K), Represents v vd → Quotes m R D →
        s.price v m = rows.map (fun r => couponValue D vd (k r) (c r)
          (fun j => r.notional * r.rate * yearFraction (basisOf convention) (c r j) (c r (j + 1)))) := by
  have hne0 : rows ≠ [] := by obtain ⟨r, hr, _⟩ := hne; exact List.ne_nil_of_mem hr
  have hsched : ∃ schedule, generateSchedule p hasFirst hasPenultimate (rows.map FixedRow.dates) = .ok schedule := by
    unfold FixedStream.setup at hs
    rw [bind_ok_iff] at hs
    exact ⟨_, hs.choose_spec.1⟩
  obtain ⟨schedule, hsch⟩ := hsched
  obtain ⟨n, o, k, y, rfl, hy⟩ := stream_dates p kind hasFirst hasPenultimate hflags (rows.map FixedRow.dates)
    (by intro q hq; obtain ⟨r, hr, rfl⟩ := List.mem_map.1 hq; exact hrows r hr)
    (by obtain ⟨r, hr, h⟩ := hne; exact ⟨_, List.mem_map.2 ⟨r, hr, rfl⟩, h⟩) hsch
  have hy' : ∀ r ∈ rows, _ := fun r hr => hy _ (List.mem_map.2 ⟨r, hr, rfl⟩)
  obtain ⟨k', c', hc', hprice⟩ := C65_fixed p convention kind hasFirst hasPenultimate hflags rows hrows hne s hs
  rw [fixed_setup p convention hasFirst hasPenultimate rows hne0 n y _ (fun r hr i hi => ((hy' r hr).2.1 i hi).1) hsch] at hs
  simp only [Except.ok.injEq] at hs
  have hu : ∀ r ∈ rows, k' r = k r.dates ∧ ∀ i, i ≤ k r.dates → c' r i = y r.dates (o r.dates + i) := by
    intro r hr
    obtain ⟨d, e, f, h⟩ := hrows r hr
    obtain ⟨h1, h2⟩ := C65_dates_unique (hc' r hr d e f h) ((hy' r hr).2.2.2.2.2 d e f h)
    exact ⟨h1, fun i hi => h2 i (by omega)⟩
  refine ⟨k', c', fun r hr => ⟨fun j hj => ?_, hc' r hr⟩, ?_, hprice⟩
  · obtain ⟨h1, h2⟩ := hu r hr
    rw [h2 j (by omega)]
    exact ((hy' r hr).2.1 _ (by have := (hy' r hr).1; omega)).1
  intro m R D payer g unit hm
  have hfix : (fixedFloat payer s g).fixedLeg = some s := by cases payer <;> rfl
  unfold Swap.annuity
  rw [hfix]
  dsimp only
  congr 1
  have hnot : (if unit = true then List.replicate s.notional.length (1 : K) else s.notional) =
      rows.flatMap (fun r => (List.range n).map (fun _ => if unit = true then (1 : K) else r.notional)) := by
    cases unit
    · rw [← hs]; rfl
    · have : s.notional.length = rows.length * n := by rw [← hs]; simp [List.length_flatMap]
      rw [if_pos rfl, this, replicate_flatMap]
      rfl
  rw [hnot, ← hs]
  simp only [List.map_flatMap, List.map_map]
  rw [zipWith_flatMap _ _ _ _ (by simp), zipWith_flatMap _ _ _ _ (by simp), segmentSum_flatMap _ _ _ (by simp)]
  apply List.map_congr_left
  intro r hr
  obtain ⟨h1, h2, h3, h4, _⟩ := hy' r hr
  obtain ⟨hk, hc⟩ := hu r hr
  simp only [zipWith_mapRange, Function.comp_apply]
  rw [sum_mapRange', sum_window' _ n (o r.dates) (k r.dates) h1, hk]
  · apply Finset.sum_congr rfl
    intro j hj
    have hj' := Finset.mem_range.1 hj
    have hvj := (h2 (o r.dates + j + 1) (by omega)).1
    have hD : m.discount (Lemmas.repr (y r.dates (o r.dates + j + 1))) = D (y r.dates (o r.dates + j + 1)) :=
      (hm _ _ ((represents_iff _ _).2 ⟨hvj, rfl⟩)).2
    rw [hc j (by omega), hc (j + 1) (by omega), hD, show o r.dates + (j + 1) = o r.dates + j + 1 by omega]
    ring
  · intro i hi
    rw [h3 i hi, yearFraction_self _ _ (h2 (i + 1) (by omega)).1]
    simp
  · intro i hi hn
    rw [h4 i hi hn, yearFraction_self _ _ (h2 (i + 1) (by omega)).1]
    simp

/-- C67: the annuity of a swap is the present value of the fixed coupons for the rate one (and, for the method `annuity`, the
notional one). -/
theorem C67_annuity (p : PeriodType) (convention : DayCount) (kind : StubKind) (hasFirst hasPenultimate : Bool)
    (hflags : kind.flags hasFirst hasPenultimate) (rows : List (FixedRow K))
    (hrows : ∀ r ∈ rows, ∃ d e f, StreamOK kind r.dates d e f)
    (hne : ∃ r ∈ rows, (kind.inner r.dates).start.ordinal < (kind.inner r.dates).stop.ordinal)
    (s : FixedStream K) (hs : FixedStream.setup p convention hasFirst hasPenultimate rows = .ok s) :
    ∃ (k : FixedRow K → Nat) (c : FixedRow K → Nat → YMD),
      (∀ r ∈ rows, ∀ d e f, StreamOK kind r.dates d e f →
        CouponDates p r.dates.quantity (kind.stub f) d e (k r) (c r)) ∧
      ∀ (m : Market K) (R D : YMD → K) (payer : Bool) (g : FloatStream K) (unit : Bool), Quotes m R D →
        (fixedFloat payer s g).annuity m unit = .ok (rows.map (fun r => ∑ j ∈ Finset.range (k r),
          (if unit then 1 else r.notional) * yearFraction (basisOf convention) (c r j) (c r (j + 1)) * D (c r (j + 1)))) := by
  obtain ⟨k, c, h1, h2, _⟩ := annuity_eq p convention kind hasFirst hasPenultimate hflags rows hrows hne s hs
  exact ⟨k, c, fun r hr => (h1 r hr).2, h2⟩

theorem quotient_list {α : Type} (rows : List α) (l : List K) (A f : α → K) (hlen : l.length = rows.length)
    (hA : ∀ r ∈ rows, A r ≠ 0) (h : List.zipWith (· / ·) l (rows.map A) = rows.map f) :
    l = rows.map (fun r => f r * A r) := by
  induction rows generalizing l with
  | nil => simpa using hlen
  | cons r rows ih =>
    cases l with
    | nil => simp at hlen
    | cons x l =>
      simp only [List.map_cons, List.zipWith_cons_cons, List.cons.injEq] at h
      have hr := hA r List.mem_cons_self
      rw [List.map_cons, ← ih l (by simpa using hlen) (fun r hr => hA r (List.mem_cons_of_mem _ hr)) h.2, ← h.1]
      field_simp

/-- C67 (partial): a swap whose fixed rate is its par rate is worth nothing, if no fixed payment is in the past.  (Otherwise see
`C67_par_rate_deviation`: past payments still count in the annuity.) -/
theorem C67_par_rate_partial (p : PeriodType) (convention : DayCount) (kind : StubKind) (hasFirst hasPenultimate : Bool)
    (hflags : kind.flags hasFirst hasPenultimate) (rows : List (FixedRow K))
    (hrows : ∀ r ∈ rows, ∃ d e f, StreamOK kind r.dates d e f)
    (hne : ∃ r ∈ rows, (kind.inner r.dates).start.ordinal < (kind.inner r.dates).stop.ordinal)
    (s : FixedStream K) (hs : FixedStream.setup p convention hasFirst hasPenultimate rows = .ok s)
    (g : FloatStream K) (hg : g.batch = rows.length) (payer : Bool) (v : DateT) (vd : YMD) (m : Market K) (R D : YMD → K)
    (hv : Represents v vd) (hm : Quotes m R D)
    (hpast : ∀ r ∈ rows, ∀ d e f k c, StreamOK kind r.dates d e f →
      CouponDates p r.dates.quantity (kind.stub f) d e k c → ∀ j, j < k → ¬ (c (j + 1)).Before vd)
    (hpar : (fixedFloat payer s g).parRate v m = .ok (rows.map FixedRow.rate))
    (hann : ∀ ann, (fixedFloat payer s g).annuity m false = .ok ann → ∀ x ∈ ann, x ≠ 0) :
    (fixedFloat payer s g).price v m = .ok (rows.map (fun _ => 0)) := by
  obtain ⟨k, c, h1, h2, h3⟩ := annuity_eq p convention kind hasFirst hasPenultimate hflags rows hrows hne s hs
  have ha := h2 m R D payer g false hm
  have hnz := hann _ ha
  have hfl : (fixedFloat payer s g).floatingLeg = some g := by cases payer <;> rfl
  unfold Swap.parRate at hpar
  rw [ha, bind_ok, hfl] at hpar
  dsimp only at hpar
  rw [bind_ok_iff] at hpar
  obtain ⟨l, hl, hpar⟩ := hpar
  simp only [pure, Except.pure, Except.ok.injEq] at hpar
  have hlen : l.length = rows.length := by
    unfold FloatStream.price at hl
    rw [bind_ok_iff] at hl
    obtain ⟨_, _, hl⟩ := hl
    simp only [pure, Except.pure, Except.ok.injEq] at hl
    rw [← hl, ← hg]
    simp [rowSums]
  have hl' := quotient_list rows l _ FixedRow.rate hlen (fun r hr => hnz _ (List.mem_map.2 ⟨r, hr, rfl⟩)) hpar
  have hfp : s.price v m = l := by
    rw [h3 v vd m R D hv hm, hl']
    apply List.map_congr_left
    intro r hr
    obtain ⟨d, e, f, h⟩ := hrows r hr
    rw [couponValue, Finset.mul_sum]
    apply Finset.sum_congr rfl
    intro j hj
    rw [if_neg (hpast r hr d e f _ _ h ((h1 r hr).2 d e f h) j (Finset.mem_range.1 hj))]
    simp only [Bool.false_eq_true, if_false]
    ring
  have hz : List.zipWith (· - ·) l l = rows.map (fun _ => (0 : K)) := by
    rw [hl', List.zipWith_map, List.zipWith_self]
    simp
  cases payer
  · unfold fixedFloat Swap.price Leg.price
    simp only [Bool.false_eq_true, if_false]
    rw [hl, bind_ok, bind_ok, hfp]
    exact congrArg Except.ok hz
  · unfold fixedFloat Swap.price Leg.price
    simp only [if_true]
    rw [bind_ok, hl, bind_ok, hfp]
    exact congrArg Except.ok hz

/-! ## Bonds and notes -/

theorem zipWith_maps {α β γ δ : Type} (l : List α) (f : α → β) (g : α → γ) (h : β → γ → δ) :
    List.zipWith h (l.map f) (l.map g) = l.map (fun a => h (f a) (g a)) := by
  induction l with
  | nil => rfl
  | cons a l ih => simp [ih]

omit [LinearOrder K] in
/-- What `bond.py` computes: the coupons which are not in the past and the principal, in the past or not. -/
theorem bond_eq (p : PeriodType) (convention : DayCount) (kind : StubKind) (hasFirst hasPenultimate : Bool)
    (hflags : kind.flags hasFirst hasPenultimate) (rows : List (FixedRow K)) (stop : FixedRow K → YMD)
    (hrows : ∀ r ∈ rows, ∃ d f, StreamOK kind r.dates d (stop r) f)
    (hne : ∃ r ∈ rows, (kind.inner r.dates).start.ordinal < (kind.inner r.dates).stop.ordinal)
    (s : FixedStream K) (hs : FixedStream.setup p convention hasFirst hasPenultimate rows = .ok s) :
    ∃ (k : FixedRow K → Nat) (c : FixedRow K → Nat → YMD),
      (∀ r ∈ rows, ∀ d f, StreamOK kind r.dates d (stop r) f →
        CouponDates p r.dates.quantity (kind.stub f) d (stop r) (k r) (c r)) ∧
      ∀ (v : DateT) (vd : YMD) (m : Market K) (R D : YMD → K), Represents v vd → Quotes m R D →
        bondPrice s (rows.map FixedRow.notional) (rows.map (fun r => r.dates.stop)) v m =
          rows.map (fun r => couponValue D vd (k r) (c r)
            (fun j => r.notional * r.rate * yearFraction (basisOf convention) (c r j) (c r (j + 1))) +
            r.notional * D (stop r)) := by
  obtain ⟨k, c, h1, h2⟩ := C65_fixed p convention kind hasFirst hasPenultimate hflags rows
    (fun r hr => by obtain ⟨d, f, h⟩ := hrows r hr; exact ⟨d, _, f, h⟩) hne s hs
  refine ⟨k, c, fun r hr d f h => h1 r hr d _ f h, fun v vd m R D hv hm => ?_⟩
  unfold bondPrice
  rw [h2 v vd m R D hv hm, List.map_map, zipWith_maps, zipWith_maps]
  apply List.map_congr_left
  intro r hr
  obtain ⟨d, f, h⟩ := hrows r hr
  simp only [Function.comp_apply]
  rw [(hm _ _ h.stop).2]

open Classical in
/-- The value of a bond: the coupons and the principal which are not in the past. -/
noncomputable def bondValue (D : YMD → K) (v maturity : YMD) (notional : K) (k : Nat) (c : Nat → YMD) (amount : Nat → K) : K :=
  couponValue D v k c amount + if maturity.Before v then 0 else notional * D maturity

omit [LinearOrder K] in
/-- C67 (partial): the price of a bond is its value, if it has not matured. -/
theorem C67_bond_partial (p : PeriodType) (convention : DayCount) (kind : StubKind) (hasFirst hasPenultimate : Bool)
    (hflags : kind.flags hasFirst hasPenultimate) (rows : List (FixedRow K)) (stop : FixedRow K → YMD)
    (hrows : ∀ r ∈ rows, ∃ d f, StreamOK kind r.dates d (stop r) f)
    (hne : ∃ r ∈ rows, (kind.inner r.dates).start.ordinal < (kind.inner r.dates).stop.ordinal)
    (s : FixedStream K) (hs : FixedStream.setup p convention hasFirst hasPenultimate rows = .ok s) :
    ∃ (k : FixedRow K → Nat) (c : FixedRow K → Nat → YMD),
      (∀ r ∈ rows, ∀ d f, StreamOK kind r.dates d (stop r) f →
        CouponDates p r.dates.quantity (kind.stub f) d (stop r) (k r) (c r)) ∧
      ∀ (v : DateT) (vd : YMD) (m : Market K) (R D : YMD → K), Represents v vd → Quotes m R D →
        (∀ r ∈ rows, ¬ (stop r).Before vd) →
        bondPrice s (rows.map FixedRow.notional) (rows.map (fun r => r.dates.stop)) v m =
          rows.map (fun r => bondValue D vd (stop r) r.notional (k r) (c r)
            (fun j => r.notional * r.rate * yearFraction (basisOf convention) (c r j) (c r (j + 1)))) := by
  obtain ⟨k, c, h1, h2⟩ := bond_eq p convention kind hasFirst hasPenultimate hflags rows stop hrows hne s hs
  refine ⟨k, c, h1, fun v vd m R D hv hm hmat => ?_⟩
  rw [h2 v vd m R D hv hm]
  apply List.map_congr_left
  intro r hr
  rw [bondValue, if_neg (hmat r hr)]

omit [LinearOrder K] in
/-- Deviation: the principal of a bond which has matured still counts. -/
theorem C67_matured_bond_deviation (p : PeriodType) (convention : DayCount) (kind : StubKind) (hasFirst hasPenultimate : Bool)
    (hflags : kind.flags hasFirst hasPenultimate) (rows : List (FixedRow K)) (stop : FixedRow K → YMD)
    (hrows : ∀ r ∈ rows, ∃ d f, StreamOK kind r.dates d (stop r) f)
    (hne : ∃ r ∈ rows, (kind.inner r.dates).start.ordinal < (kind.inner r.dates).stop.ordinal)
    (s : FixedStream K) (hs : FixedStream.setup p convention hasFirst hasPenultimate rows = .ok s) :
    ∃ (k : FixedRow K → Nat) (c : FixedRow K → Nat → YMD),
      (∀ r ∈ rows, ∀ d f, StreamOK kind r.dates d (stop r) f →
        CouponDates p r.dates.quantity (kind.stub f) d (stop r) (k r) (c r)) ∧
      ∀ (v : DateT) (vd : YMD) (m : Market K) (R D : YMD → K), Represents v vd → Quotes m R D →
        (∀ r ∈ rows, (stop r).Before vd) →
        bondPrice s (rows.map FixedRow.notional) (rows.map (fun r => r.dates.stop)) v m =
          rows.map (fun r => bondValue D vd (stop r) r.notional (k r) (c r)
            (fun j => r.notional * r.rate * yearFraction (basisOf convention) (c r j) (c r (j + 1))) +
              r.notional * D (stop r)) := by
  obtain ⟨k, c, h1, h2⟩ := bond_eq p convention kind hasFirst hasPenultimate hflags rows stop hrows hne s hs
  refine ⟨k, c, h1, fun v vd m R D hv hm hmat => ?_⟩
  rw [h2 v vd m R D hv hm]
  apply List.map_congr_left
  intro r hr
  rw [bondValue, if_pos (hmat r hr), add_zero]

/-- C67: on a single curve, before its start, a plain floating rate note is worth its notional at the start date. -/
theorem C67_note [IsStrictOrderedRing K] (p refType : PeriodType) (convention : DayCount) (rows : List (FloatRow K))
    (n : FloatRow K → Nat) (start stop : FloatRow K → YMD)
    (hrows : ∀ r ∈ rows, Plain p refType convention (n r) r (start r) (stop r)) (hne : rows ≠ []) :
    ∃ s, FloatStream.setup p refType convention false false rows = .ok s ∧
      ∀ (v : DateT) (vd : YMD) (m : Market K) (D : YMD → K), Represents v vd → Quotes m D D → (∀ d, D d ≠ 0) →
        (fixing m = 0 ∨ rows.length = 1 ∨ s.num = 1) → (∀ r ∈ rows, ¬ (start r).Before vd) →
        notePrice s (rows.map FloatRow.notional) (rows.map (fun r => r.dates.stop)) v m =
          .ok (rows.map (fun r => r.notional * D (start r))) := by
  obtain ⟨s, hs, h⟩ := C66_plain p refType convention rows n start stop hrows hne
  refine ⟨s, hs, fun v vd m D hv hm hD hfix hvd => ?_⟩
  unfold notePrice
  rw [h v vd m D hv hm hD hfix hvd, bind_ok, List.map_map, zipWith_maps, zipWith_maps]
  simp only [pure, Except.pure]
  congr 1
  apply List.map_congr_left
  intro r hr
  simp only [Function.comp_apply]
  rw [(hm _ _ (hrows r hr).ok.stop).2]
  ring

/-- C67: on a single curve, before its start, a swap of a plain floating leg against fixed coupons is worth
`notional * (D(start) - D(end))` minus the value of the coupons. -/
theorem C67_swap [IsStrictOrderedRing K] (p q refType : PeriodType) (convention fixedConvention : DayCount)
    (rows : List (FloatRow K × FixedRow K)) (n : FloatRow K → Nat) (start stop : FloatRow K → YMD)
    (hfloat : ∀ r ∈ rows, Plain p refType convention (n r.1) r.1 (start r.1) (stop r.1))
    (hfixed : ∀ r ∈ rows, ∃ d e f, StreamOK .none r.2.dates d e f)
    (hlt : ∃ r ∈ rows, r.2.dates.start.ordinal < r.2.dates.stop.ordinal) :
    ∃ (f : FixedStream K) (g : FloatStream K) (k : FixedRow K → Nat) (c : FixedRow K → Nat → YMD),
      FixedStream.setup q fixedConvention false false (rows.map Prod.snd) = .ok f ∧
      FloatStream.setup p refType convention false false (rows.map Prod.fst) = .ok g ∧
      (∀ r ∈ rows, ∀ d e x, StreamOK .none r.2.dates d e x →
        CouponDates q r.2.dates.quantity .none d e (k r.2) (c r.2)) ∧
      ∀ (v : DateT) (vd : YMD) (m : Market K) (D : YMD → K), Represents v vd → Quotes m D D → (∀ d, D d ≠ 0) →
        (fixing m = 0 ∨ rows.length = 1 ∨ g.num = 1) → (∀ r ∈ rows, ¬ (start r.1).Before vd) →
        (fixedFloat true f g).price v m = .ok (rows.map (fun r => r.1.notional * (D (start r.1) - D (stop r.1)) -
          couponValue D vd (k r.2) (c r.2) (fun j =>
            r.2.notional * r.2.rate * yearFraction (basisOf fixedConvention) (c r.2 j) (c r.2 (j + 1))))) := by
  have hrows : ∀ r ∈ rows.map Prod.snd, ∃ d e f, StreamOK .none r.dates d e f := by
    intro r hr
    obtain ⟨x, hx, rfl⟩ := List.mem_map.1 hr
    exact hfixed x hx
  obtain ⟨f, hf⟩ := C65_total q fixedConvention .none false false ⟨rfl, rfl⟩ (rows.map Prod.snd) hrows (by simp)
  obtain ⟨k, c, h1, h2⟩ := C65_fixed q fixedConvention .none false false ⟨rfl, rfl⟩ (rows.map Prod.snd) hrows
    (by obtain ⟨r, hr, h⟩ := hlt; exact ⟨_, List.mem_map.2 ⟨r, hr, rfl⟩, h⟩) f hf
  obtain ⟨g, hg, h3⟩ := C66_plain p refType convention (rows.map Prod.fst) n start stop
    (by intro r hr; obtain ⟨x, hx, rfl⟩ := List.mem_map.1 hr; exact hfloat x hx)
    (by obtain ⟨r, hr, _⟩ := hlt; exact List.ne_nil_of_mem (List.mem_map.2 ⟨r, hr, rfl⟩))
  refine ⟨f, g, k, c, hf, hg, fun r hr d e x h => h1 r.2 (List.mem_map.2 ⟨r, hr, rfl⟩) d e x h, ?_⟩
  intro v vd m D hv hm hD hfix hvd
  have h4 := h3 v vd m D hv hm hD (by simpa using hfix)
    (by intro r hr; obtain ⟨x, hx, rfl⟩ := List.mem_map.1 hr; exact hvd x hx)
  unfold fixedFloat Swap.price Leg.price
  simp only [if_true]
  rw [bind_ok, h4, bind_ok, h2 v vd m D D hv hm, List.map_map, List.map_map, zipWith_maps]
  rfl

/-! ## Forward rate agreements and Eurodollar futures -/

/-- The accrual period of the forward rate: from the settlement date for the given term, or, without a term, up to the given
maturity. -/
def AccrualEnd (start : YMD) (term : Option Period) (maturity : Option DateT) (stop : YMD) : Prop :=
  match term, maturity with
  | some t, _ => ShiftedBy t.type t.quantity start stop ∧ 0 < stop.number
  | none, some t => Represents t stop
  | none, none => False

omit [LinearOrder K] in
/-- C67: the price of a forward rate agreement is the value, paid at settlement, of the difference between the forward rate and
the agreed rate over the accrual period. -/
theorem C67_fra (convention : DayCount) (settlement : DateT) (d e : YMD) (term : Option Period) (maturity : Option DateT)
    (rate notional : K) (m : Market K) (R D : YMD → K) (hd : Represents settlement d) (he : AccrualEnd d term maturity e)
    (hm : Quotes m R D) :
    fraPrice convention settlement term maturity rate notional m = .ok (D d * notional *
      (simpleRate R (basisOf convention) d e - rate) * yearFraction (basisOf convention) d e /
      (1 + yearFraction (basisOf convention) d e * simpleRate R (basisOf convention) d e)) := by
  obtain ⟨hdv, rfl⟩ := (represents_iff _ _).1 hd
  have key : fraAccrualEnd (Lemmas.repr d) term maturity = Except.ok (Lemmas.repr e) ∧ e.Valid := by
    cases term with
    | some t =>
      obtain ⟨hsh, hpos⟩ := he
      have := shiftedBy_unique hsh (shiftD_spec _ _ _ hdv)
      obtain ⟨q, u⟩ := t
      refine ⟨?_, hsh.1⟩
      have h := add_eq_shiftD u q d hdv (Or.inr (Or.inr (by simp only at this; rw [← this]; exact hpos)))
      simp only at this
      rw [← this] at h
      cases maturity <;> exact h
    | none =>
      cases maturity with
      | none => exact absurd he (by simp [AccrualEnd])
      | some t =>
        obtain ⟨hev, rfl⟩ := (represents_iff _ _).1 he
        exact ⟨rfl, hev⟩
  unfold fraPrice
  rw [key.1, bind_ok]
  simp only [pure, Except.pure]
  rw [daycount_eq _ _ _ hdv key.2, (hm _ _ hd).2, curveForward, forwardRate, (hm _ _ hd).1,
    (hm _ _ ((represents_iff _ _).2 ⟨key.2, rfl⟩)).1, simpleRate]

omit [LinearOrder K] in
/-- C67: on a single curve, a forward rate agreement is worth one unit at the start of the accrual period minus one unit and the
agreed interest at its end. -/
theorem C67_fra_single_curve (convention : DayCount) (settlement : DateT) (d e : YMD) (term : Option Period)
    (maturity : Option DateT) (rate notional : K) (m : Market K) (D : YMD → K) (hd : Represents settlement d)
    (he : AccrualEnd d term maturity e) (hm : Quotes m D D) (h1 : D d ≠ 0) (h2 : D e ≠ 0)
    (hτ : yearFraction (K := K) (basisOf convention) d e ≠ 0) :
    fraPrice convention settlement term maturity rate notional m =
      .ok (notional * (D d - (1 + rate * yearFraction (basisOf convention) d e) * D e)) := by
  rw [C67_fra convention settlement d e term maturity rate notional m D D hd he hm]
  congr 1
  have : 1 + yearFraction (basisOf convention) d e * simpleRate D (basisOf convention) d e = D d / D e := by
    unfold simpleRate; field_simp; ring
  rw [this]
  unfold simpleRate
  field_simp
  ring

/-- C67: without term and maturity the contract is refused. -/
theorem C67_fra_unspecified (convention : DayCount) (settlement : DateT) (rate notional : K) (m : Market K) :
    fraPrice convention settlement none none rate notional m =
      .error "Error creating FRA. Either rate_term or maturity_date is required." := rfl

omit [LinearOrder K] in
/-- C67: the price of a Eurodollar future is `100 * notional * (1 - forward rate)`. -/
theorem C67_eurodollar (convention : DayCount) (expiry : DateT) (d e : YMD) (term : Option Period) (maturity : Option DateT)
    (notional : K) (m : Market K) (R D : YMD → K) (hd : Represents expiry d) (he : AccrualEnd d term maturity e)
    (hone : term = none ∨ maturity = none) (hm : Quotes m R D) :
    eurodollarPrice convention expiry term maturity notional m =
      .ok (100 * notional * (1 - simpleRate R (basisOf convention) d e)) := by
  obtain ⟨hdv, rfl⟩ := (represents_iff _ _).1 hd
  have key : eurodollarAccrualEnd (Lemmas.repr d) term maturity = Except.ok (Lemmas.repr e) ∧ e.Valid := by
    cases term with
    | some t =>
      obtain ⟨hsh, hpos⟩ := he
      have := shiftedBy_unique hsh (shiftD_spec _ _ _ hdv)
      obtain ⟨q, u⟩ := t
      refine ⟨?_, hsh.1⟩
      have h := add_eq_shiftD u q d hdv (Or.inr (Or.inr (by simp only at this; rw [← this]; exact hpos)))
      simp only at this
      rw [← this] at h
      cases maturity with
      | none => exact h
      | some _ => simp at hone
    | none =>
      cases maturity with
      | none => exact absurd he (by simp [AccrualEnd])
      | some t =>
        obtain ⟨hev, rfl⟩ := (represents_iff _ _).1 he
        exact ⟨rfl, hev⟩
  unfold eurodollarPrice
  rw [key.1, bind_ok]
  simp only [pure, Except.pure]
  rw [daycount_eq _ _ _ hdv key.2, curveForward, forwardRate, (hm _ _ hd).1,
    (hm _ _ ((represents_iff _ _).2 ⟨key.2, rfl⟩)).1, simpleRate]

end

/-! ## Examples and witnesses -/

/-- A swap of annual fixed coupons against semi-annual floating ones, from 2020-01-01 to 2022-01-01. -/
def exSwap (payer : Bool) (rate : ℚ) : Except String (Swap ℚ) := do
  let f ← FixedStream.setup .YEAR .actual365 false false
    [⟨⟨exDate 2020 1 1, exDate 2022 1 1, 1, exDate 2020 1 1, exDate 2020 1 1⟩, 100, rate⟩]
  let g ← FloatStream.setup .MONTH .MONTH .actual365 false false [exFloat (exDate 2020 1 1) (exDate 2022 1 1) 6 6 0]
  return fixedFloat payer f g

/-- At the start: the value, and the par rate. -/
example : ((exSwap true (1 / 50)).bind (fun s => s.price (exDate 2020 1 1) (exMarket none))).toOption =
    some [100 * (1 - 1 / (1 + 731 / 10000)) - 100 * (1 / 50) * (366 / 365) * (1 / (1 + 366 / 10000)) -
      100 * (1 / 50) * (365 / 365) * (1 / (1 + 731 / 10000))] := by
  decide +kernel

example : ((exSwap true (1 / 50)).bind (fun s => s.parRate (exDate 2020 1 1) (exMarket none))).toOption =
    some [(1 - 1 / (1 + 731 / 10000)) /
      ((366 / 365) * (1 / (1 + 366 / 10000)) + (365 / 365) * (1 / (1 + 731 / 10000)))] := by
  decide +kernel

example : ((exSwap false ((1 - 1 / (1 + 731 / 10000)) /
      ((366 / 365) * (1 / (1 + 366 / 10000)) + (365 / 365) * (1 / (1 + 731 / 10000))))).bind
    (fun s => s.price (exDate 2020 1 1) (exMarket none))).toOption = some [0] := by
  decide +kernel

/-- Deviation: after the first fixed payment the par rate is the value of the remaining floating coupons divided by an annuity
which still counts the payment; the swap with this rate is not worth zero. -/
theorem C67_par_rate_deviation : ∃ rate : ℚ,
    ((exSwap true rate).bind (fun s => s.parRate (exDate 2021 1 2) (exMarket (some (1 / 50))))).toOption = some [rate] ∧
    ((exSwap true rate).bind (fun s => s.price (exDate 2021 1 2) (exMarket (some (1 / 50))))).toOption ≠ some [0] := by
  refine ⟨?_, ?_, ?_⟩
  · exact ((181 / 365) * (1 / 50) * (1 / (1 + 547 / 10000)) + (1 / (1 + 547 / 10000) - 1 / (1 + 731 / 10000))) /
      ((366 / 365) * (1 / (1 + 366 / 10000)) + (365 / 365) * (1 / (1 + 731 / 10000)))
  · decide +kernel
  · decide +kernel

/-- A bond which matured a year ago. -/
example : ((FixedStream.setup .YEAR .actual365 false false
      [(⟨⟨exDate 2020 1 1, exDate 2021 1 1, 1, exDate 2020 1 1, exDate 2020 1 1⟩, 100, 1 / 50⟩ : FixedRow ℚ)]).map
    (fun s => bondPrice s [100] [exDate 2021 1 1] (exDate 2022 1 1) (exMarket none))).toOption =
    some [100 * (1 / (1 + 366 / 10000))] := by
  decide +kernel

/-- A bond in its last year. -/
example : ((FixedStream.setup .MONTH .actual365 false false
      [(⟨⟨exDate 2020 1 1, exDate 2021 1 1, 6, exDate 2020 1 1, exDate 2020 1 1⟩, 100, 1 / 50⟩ : FixedRow ℚ)]).map
    (fun s => bondPrice s [100] [exDate 2021 1 1] (exDate 2020 8 1) (exMarket none))).toOption =
    some [100 * (1 / 50) * (184 / 365) * (1 / (1 + 366 / 10000)) + 100 * (1 / (1 + 366 / 10000))] := by
  decide +kernel

/-- A floating rate note before its start. -/
example : ((FloatStream.setup .MONTH .MONTH .actual365 false false [exFloat (exDate 2020 2 28) (exDate 2021 2 28) 3 3 0]).bind
    (fun s => notePrice s [100] [exDate 2021 2 28] (exDate 2020 1 1) (exMarket none))).toOption =
    some [100 * (1 / (1 + 58 / 10000))] := by
  decide +kernel

example : (fraPrice .actual360 (exDate 2020 4 1) (some ⟨3, .MONTH⟩) none (1 / 50 : ℚ) 100 (exMarket none)).toOption =
    some (100 * (1 / (1 + 91 / 10000) - (1 + (1 / 50) * (91 / 360)) * (1 / (1 + 182 / 10000)))) := by
  decide +kernel

example : (eurodollarPrice .actual360 (exDate 2020 1 1) (some ⟨3, .MONTH⟩) none (2 : ℚ) (exMarket none)).toOption =
    some (100 * 2 * (1 - (91 / 10000) / (91 / 360))) := by
  decide +kernel

end Props
