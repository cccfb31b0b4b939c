import Verif.Props.CapFloor
import Verif.Props.Swaps

/-!
# Property theorems C69, continued: swaptions, with examples of caps and floors
-/

namespace Props
open Model Model.Instruments Spec Lemmas

/-- A swaption of the batch: the fixed leg of the swap, the expiry and the volatility. -/
structure SwaptionSpec where
  fixed : FixedRow ℝ
  expiry : YMD
  volatility : ℝ

/-- The value of a payer or receiver swaption on a swap with the annuity `A` and the floating leg worth `F`: the swap rate at
expiry has lognormal law with mean `F / A`. -/
noncomputable def swaptionValue (payer : Bool) (strike σ A F : ℝ) (v expiry : YMD) : ℝ :=
  A * lognormalExpectation (F / A) (σ * Real.sqrt (((expiry.number - v.number : Int) : ℝ) / 365)) (vanillaPayoff payer strike)

/-- Deviation: the value of every swaption of a batch is multiplied by the notional of the last swap of the batch instead of
its own notional. -/
theorem C69_swaption_notional_deviation (p : PeriodType) (convention : DayCount) (kind : StubKind) (hasFirst hasPenultimate : Bool)
    (hflags : kind.flags hasFirst hasPenultimate) (specs : List SwaptionSpec) (N : ℝ)
    (hrows : ∀ r ∈ specs, ∃ d e f, StreamOK kind r.fixed.dates d e f) (hN : ∀ r ∈ specs, r.fixed.notional ≠ 0)
    (hne : ∃ r ∈ specs, (kind.inner r.fixed.dates).start.ordinal < (kind.inner r.fixed.dates).stop.ordinal)
    (s : FixedStream ℝ) (hs : FixedStream.setup p convention hasFirst hasPenultimate (specs.map SwaptionSpec.fixed) = .ok s) :
    ∃ (k : FixedRow ℝ → Nat) (c : FixedRow ℝ → Nat → YMD),
      (∀ r ∈ specs, ∀ d e f, StreamOK kind r.fixed.dates d e f →
        CouponDates p r.fixed.dates.quantity (kind.stub f) d e (k r.fixed) (c r.fixed)) ∧
      ∀ (v : DateT) (vd : YMD) (m : Market ℝ) (R D : YMD → ℝ) (payer : Bool) (g : FloatStream ℝ) (F : SwaptionSpec → ℝ)
        (A : SwaptionSpec → ℝ), Represents v vd → Quotes m R D → g.notional.getLast? = some N →
        g.price v m = .ok (specs.map F) →
        (∀ r ∈ specs, A r = ∑ j ∈ Finset.range (k r.fixed),
          r.fixed.notional * yearFraction (basisOf convention) (c r.fixed j) (c r.fixed (j + 1)) * D (c r.fixed (j + 1))) →
        (∀ r ∈ specs, r.expiry.Valid ∧ ¬ r.expiry.Before vd ∧ 0 ≤ r.volatility ∧ 0 < r.fixed.rate ∧ 0 < F r / A r) →
        swaptionsPrice (fixedFloat payer s g) (specs.map (fun r => Lemmas.repr r.expiry)) v m
          (some (specs.map SwaptionSpec.volatility)) =
          .ok (specs.map (fun r => N / r.fixed.notional * swaptionValue payer r.fixed.rate r.volatility (A r) (F r) vd r.expiry)) := by
  obtain ⟨k, c, h1, h2, _⟩ := annuity_eq p convention kind hasFirst hasPenultimate hflags (specs.map SwaptionSpec.fixed)
    (by intro r hr; obtain ⟨x, hx, rfl⟩ := List.mem_map.1 hr; exact hrows x hx)
    (by obtain ⟨r, hr, h⟩ := hne; exact ⟨_, List.mem_map.2 ⟨r, hr, rfl⟩, h⟩) s hs
  refine ⟨k, c, fun r hr => (h1 _ (List.mem_map.2 ⟨r, hr, rfl⟩)).2, ?_⟩
  intro v vd m R D payer g F A hv hm hlast hg hA hpos
  obtain ⟨hvv, rfl⟩ := (represents_iff _ _).1 hv
  have hann : (fixedFloat payer s g).annuity m false = .ok (specs.map A) := by
    rw [h2 m R D payer g false hm, List.map_map]
    congr 1
    apply List.map_congr_left
    intro r hr
    rw [hA r hr, Function.comp_apply]
    simp only [Bool.false_eq_true, if_false]
  have hpar : (fixedFloat payer s g).parRate (Lemmas.repr vd) m = .ok (specs.map (fun r => F r / A r)) := by
    unfold Swap.parRate
    have hfl : (fixedFloat payer s g).floatingLeg = some g := by cases payer <;> rfl
    rw [hann, bind_ok, hfl]
    dsimp only
    rw [hg, bind_ok, zipWith_maps]
    rfl
  have hfx : (fixedFloat payer s g).fixedLeg = some s := by cases payer <;> rfl
  have hfl : (fixedFloat payer s g).floatingLeg = some g := by cases payer <;> rfl
  have hip : (fixedFloat payer s g).isPayer = payer := by cases payer <;> rfl
  have hs2 : s.batch = specs.length ∧ s.fixedRate = specs.map (fun r => r.fixed.rate) := by
    unfold FixedStream.setup at hs
    rw [bind_ok_iff] at hs
    obtain ⟨sch, _, hs⟩ := hs
    simp only [pure, Except.pure, Except.ok.injEq] at hs
    rw [← hs]
    simp
  unfold swaptionsPrice
  rw [h2 m R D payer g true hm, bind_ok, hpar, bind_ok, hfx, hfl]
  dsimp only
  unfold blackVols
  dsimp only
  rw [broadcast_length _ _ (by rw [hs2.1]; simp), bind_ok, hs2.2, hip, List.zip_eq_zipWith, List.zip_eq_zipWith, zipWith_maps,
    zipWith_maps, zipWith_maps, mapM_ok _ (fun a => (optionPrice a).toOption.getD 0), bind_ok, hlast]
  · dsimp only
    rw [List.map_map, List.map_map, zipWith_maps]
    congr 1
    apply List.map_congr_left
    intro r hr
    obtain ⟨p1, p2, p3, p4, p5⟩ := hpos r hr
    have hT : actual365Fixed ℝ (Lemmas.repr vd) (Lemmas.repr r.expiry) = ((r.expiry.number - vd.number : Int) : ℝ) / 365 := by
      simp [actual365Fixed, DateT.daysUntil, Lemmas.repr]
    have hT0 : (0 : ℝ) ≤ ((r.expiry.number - vd.number : Int) : ℝ) / 365 := by
      rw [before_iff _ _ p1 hvv] at p2
      refine div_nonneg ?_ (by norm_num)
      exact_mod_cast (by omega : 0 ≤ r.expiry.number - vd.number)
    simp only [Function.comp_apply]
    rw [hT, black_eq _ _ _ _ _ p3 hT0 p5 p4, swaptionValue]
    have hA' : A r = r.fixed.notional * ∑ j ∈ Finset.range (k r.fixed), (if true then 1 else r.fixed.notional) *
        yearFraction (basisOf convention) (c r.fixed j) (c r.fixed (j + 1)) * D (c r.fixed (j + 1)) := by
      rw [hA r hr, Finset.mul_sum]
      apply Finset.sum_congr rfl
      intro j _
      simp only [if_true]
      ring
    show N * _ * lognormalExpectation (F r / A r) _ _ = _
    generalize lognormalExpectation (F r / A r) _ _ = x
    rw [hA']
    have := hN r hr
    field_simp
  · intro a ha
    obtain ⟨r, _, rfl⟩ := List.mem_map.1 ha
    obtain ⟨x, hx⟩ := black_total r.volatility r.fixed.rate (actual365Fixed ℝ (Lemmas.repr vd) (Lemmas.repr r.expiry)) (F r / A r)
      payer
    rw [hx]
    rfl

/-- C69 (partial): the value of a batch of swaptions whose swaps all have the same notional. -/
theorem C69_swaption_partial (p : PeriodType) (convention : DayCount) (kind : StubKind) (hasFirst hasPenultimate : Bool)
    (hflags : kind.flags hasFirst hasPenultimate) (specs : List SwaptionSpec) (N : ℝ) (hN0 : N ≠ 0)
    (hrows : ∀ r ∈ specs, ∃ d e f, StreamOK kind r.fixed.dates d e f) (hN : ∀ r ∈ specs, r.fixed.notional = N)
    (hne : ∃ r ∈ specs, (kind.inner r.fixed.dates).start.ordinal < (kind.inner r.fixed.dates).stop.ordinal)
    (s : FixedStream ℝ) (hs : FixedStream.setup p convention hasFirst hasPenultimate (specs.map SwaptionSpec.fixed) = .ok s) :
    ∃ (k : FixedRow ℝ → Nat) (c : FixedRow ℝ → Nat → YMD),
      (∀ r ∈ specs, ∀ d e f, StreamOK kind r.fixed.dates d e f →
        CouponDates p r.fixed.dates.quantity (kind.stub f) d e (k r.fixed) (c r.fixed)) ∧
      ∀ (v : DateT) (vd : YMD) (m : Market ℝ) (R D : YMD → ℝ) (payer : Bool) (g : FloatStream ℝ) (F : SwaptionSpec → ℝ)
        (A : SwaptionSpec → ℝ), Represents v vd → Quotes m R D → g.notional.getLast? = some N →
        g.price v m = .ok (specs.map F) →
        (∀ r ∈ specs, A r = ∑ j ∈ Finset.range (k r.fixed),
          r.fixed.notional * yearFraction (basisOf convention) (c r.fixed j) (c r.fixed (j + 1)) * D (c r.fixed (j + 1))) →
        (∀ r ∈ specs, r.expiry.Valid ∧ ¬ r.expiry.Before vd ∧ 0 ≤ r.volatility ∧ 0 < r.fixed.rate ∧ 0 < F r / A r) →
        swaptionsPrice (fixedFloat payer s g) (specs.map (fun r => Lemmas.repr r.expiry)) v m
          (some (specs.map SwaptionSpec.volatility)) =
          .ok (specs.map (fun r => swaptionValue payer r.fixed.rate r.volatility (A r) (F r) vd r.expiry)) := by
  obtain ⟨k, c, h1, h2⟩ := C69_swaption_notional_deviation p convention kind hasFirst hasPenultimate hflags specs N hrows
    (fun r hr => by rw [hN r hr]; exact hN0) hne s hs
  refine ⟨k, c, h1, ?_⟩
  intro v vd m R D payer g F A e1 e2 e3 e4 e5 e6
  rw [h2 v vd m R D payer g F A e1 e2 e3 e4 e5 e6]
  congr 1
  apply List.map_congr_left
  intro r hr
  rw [hN r hr, div_self hN0, one_mul]

/-- C69: a payer swaption minus a receiver swaption is the swap. -/
theorem C69_swaption_parity (strike σ A F : ℝ) (v expiry : YMD) (hk : 0 < strike) (hσ : 0 ≤ σ) (hA : A ≠ 0) (hF : 0 < F / A) :
    swaptionValue true strike σ A F v expiry - swaptionValue false strike σ A F v expiry = F - strike * A := by
  unfold swaptionValue
  rw [← mul_sub, lognormal_parity _ _ _ hF (mul_nonneg hσ (Real.sqrt_nonneg _)) hk]
  field_simp

/-- Deviation: without `pricing_context` no swaption can be priced. -/
theorem C69_swaption_volatility_deviation (swap : Swap ℝ) (expiries : List DateT) (v : DateT) (m : Market ℝ) :
    ∃ e, swaptionsPrice swap expiries v m none = .error e := by
  unfold swaptionsPrice
  cases h : swap.annuity m true with
  | error e => exact ⟨e, rfl⟩
  | ok a =>
    rw [bind_ok]
    cases h : swap.parRate v m with
    | error e => exact ⟨e, rfl⟩
    | ok a =>
      rw [bind_ok]
      split
      · exact ⟨_, rfl⟩
      · exact ⟨_, rfl⟩

/-! ## Examples -/

/-- A cap of two years and a floor of one year, with semi-annual payments. -/
noncomputable def exCaps : List CapSpec :=
  [⟨⟨⟨exDate 2020 1 1, exDate 2022 1 1, 6⟩, true⟩, 1 / 50, fun _ => 1 / 5⟩,
   ⟨⟨⟨exDate 2020 7 1, exDate 2021 7 1, 6⟩, false⟩, 1 / 40, fun j => 1 / 10 + j⟩]

theorem exCaps_rows : ∀ r ∈ exCaps, ∃ d e, ValidRow r.row.dates d e := by
  intro r hr
  simp only [exCaps, List.mem_cons, List.not_mem_nil, or_false] at hr
  rcases hr with rfl | rfl
  · exact ⟨⟨2020, 1, 1⟩, ⟨2022, 1, 1⟩, ⟨by decide, rfl, rfl, rfl, by decide⟩, ⟨by decide, rfl, rfl, rfl, by decide⟩, by decide,
      by unfold YMD.Before; decide, by decide⟩
  · exact ⟨⟨2020, 7, 1⟩, ⟨2021, 7, 1⟩, ⟨by decide, rfl, rfl, rfl, by decide⟩, ⟨by decide, rfl, rfl, rfl, by decide⟩, by decide,
      by unfold YMD.Before; decide, by decide⟩

/-- The batch can be set up. -/
example : ∃ s, CapFloor.setup .MONTH .actual365 [1 / 50, 1 / 40] (some (.scalar 100)) (exCaps.map CapSpec.row) = .ok s := by
  obtain ⟨s, hs, _⟩ := C69_cap_floor_partial .MONTH .actual365 exCaps 100 (by norm_num) exCaps_rows
    ⟨_, List.mem_cons_self, by decide⟩
  exact ⟨s, hs⟩

/-- A caplet whose rate has been fixed at five percent, and a floorlet. -/
example (σ : ℝ) (R : YMD → ℝ) : capletValue true (3 / 100) σ R .actual365 (5 / 100) ⟨2020, 7, 1⟩ ⟨2020, 1, 1⟩ ⟨2021, 1, 1⟩ = 2 / 100 ∧
    capletValue false (3 / 100) σ R .actual365 (5 / 100) ⟨2020, 7, 1⟩ ⟨2020, 1, 1⟩ ⟨2021, 1, 1⟩ = 0 := by
  have h : YMD.Before ⟨2020, 1, 1⟩ ⟨2020, 7, 1⟩ := by unfold YMD.Before; decide
  unfold capletValue
  rw [if_pos h, if_pos h]
  unfold vanillaPayoff
  norm_num

/-- Before the start of the period, for a forward rate of four percent, the caplet and the floorlet differ by one percent. -/
example (σ : ℝ) (hσ : 0 ≤ σ) (R : YMD → ℝ) (h : simpleRate R .actual365 ⟨2020, 1, 1⟩ ⟨2021, 1, 1⟩ = 4 / 100) :
    capletValue true (3 / 100) σ R .actual365 0 ⟨2019, 7, 1⟩ ⟨2020, 1, 1⟩ ⟨2021, 1, 1⟩ -
      capletValue false (3 / 100) σ R .actual365 0 ⟨2019, 7, 1⟩ ⟨2020, 1, 1⟩ ⟨2021, 1, 1⟩ = 1 / 100 := by
  have hb : ¬ YMD.Before ⟨2020, 1, 1⟩ ⟨2019, 7, 1⟩ := by unfold YMD.Before; decide
  rw [C69_caplet_parity _ _ _ _ _ _ _ _ (by norm_num) hσ (fun _ => by rw [h]; norm_num), couponRate, if_neg hb, h]
  norm_num

/-- A payment on the valuation date counts in a stream of coupons, but not in a cap. -/
theorem C69_payment_today_deviation (c : Caplet) (v : DateT) (m : Market ℝ) (h : c.payment = v) : c.price v m = .ok 0 := by
  obtain ⟨x, hx⟩ := black_total c.volatility c.strike (actual365Fixed ℝ v c.reset) c.forward c.isCap
  have hg : c.payment.gt v = false := by rw [h]; simp [DateT.gt]
  unfold Caplet.price
  rw [hx, bind_ok, hg]
  simp [pure, Except.pure]

/-- A swaption on a swap with the annuity 2 and the floating leg worth 0.1, with the strike four percent. -/
example (σ : ℝ) (hσ : 0 ≤ σ) : swaptionValue true (4 / 100) σ 2 (1 / 10) ⟨2020, 1, 1⟩ ⟨2021, 1, 1⟩ -
    swaptionValue false (4 / 100) σ 2 (1 / 10) ⟨2020, 1, 1⟩ ⟨2021, 1, 1⟩ = 2 / 100 := by
  rw [C69_swaption_parity _ _ _ _ _ _ (by norm_num) hσ (by norm_num) (by norm_num)]
  norm_num

end Props
