import Verif.Model.InstrumentOptions
import Verif.Props.Floating
import Verif.Props.VanillaPrices

/-!
# Property theorems C69: caps and floors
-/

namespace Props
open Model Model.Instruments Spec Lemmas

/-- The undiscounted lognormal price. -/
theorem black_eq (σ strike T f : ℝ) (isCall : Bool) (hσ : 0 ≤ σ) (hT : 0 ≤ T) (hf : 0 < f) (hk : 0 < strike) :
    optionPrice { volatility := σ, strike := strike, expiry := T, forward := some f, isCall := some isCall } =
      .ok (lognormalExpectation f (σ * Real.sqrt T) (vanillaPayoff isCall strike)) := by
  have hv : ValidArgs { volatility := σ, strike := strike, expiry := T, forward := some f, isCall := some isCall } :=
    ⟨by simp, by simp, hσ, hT, by simp⟩
  rw [C31_expectation _ hv (fun _ => ⟨hf, hk⟩)]
  simp [expectation, discount, Spec.forward, stdDev]

theorem black_total (σ strike T f : ℝ) (isCall : Bool) : ∃ x,
    optionPrice { volatility := σ, strike := strike, expiry := T, forward := some f, isCall := some isCall } = .ok x := by
  unfold optionPrice
  exact ⟨_, rfl⟩

/-- A cap or a floor of the batch: dates, strike, and the volatilities of its caplets. -/
structure CapSpec where
  row : CapRow
  strike : ℝ
  volatility : Nat → ℝ

open Classical in
/-- The value of one caplet or floorlet per unit of notional, year fraction and discount factor: the payoff if the rate has been
fixed, and otherwise its expectation, for a rate with lognormal law, mean equal to the forward rate, and volatility `σ`. -/
noncomputable def capletValue (isCap : Bool) (strike σ : ℝ) (R : YMD → ℝ) (b : Basis) (L : ℝ) (v start stop : YMD) : ℝ :=
  if start.Before v then vanillaPayoff isCap strike L
  else lognormalExpectation (simpleRate R b start stop)
    (σ * Real.sqrt (((start.number - v.number : Int) : ℝ) / 365)) (vanillaPayoff isCap strike)

theorem gt_iff (d v : YMD) (hd : d.Valid) (hv : v.Valid) : (Lemmas.repr d).gt (Lemmas.repr v) = true ↔ v.Before d := by
  rw [before_iff v d hv hd]
  simp [DateT.gt, Lemmas.repr]

/-- The price of one caplet, for a period of positive length. -/
theorem caplet_price (c : Caplet) (start stop v : YMD) (b : Basis) (m : Market ℝ) (R D : YMD → ℝ) (L : ℝ) (hm : Quotes m R D)
    (hs : start.Valid) (he : stop.Valid) (hv : v.Valid) (h1 : c.reset = Lemmas.repr start) (h2 : c.payment = Lemmas.repr stop)
    (hd : c.daycount = yearFraction b start stop) (hpos : 0 < yearFraction (K := ℝ) b start stop)
    (hf : c.forward = codeRate R L v (yearFraction b start stop) start stop stop)
    (hσ : 0 ≤ c.volatility) (hk : 0 < c.strike) (hR : ¬ start.Before v → 0 < simpleRate R b start stop) :
    c.price (Lemmas.repr v) m = .ok (open Classical in if v.Before stop then c.notional * yearFraction b start stop * D stop *
      capletValue c.isCap c.strike c.volatility R b L v start stop else 0) := by
  have hD : m.discount c.payment = D stop := by rw [h2]; exact (hm _ _ ((represents_iff _ _).2 ⟨he, rfl⟩)).2
  obtain ⟨x, hx⟩ := black_total c.volatility c.strike (actual365Fixed ℝ (Lemmas.repr v) c.reset) c.forward c.isCap
  unfold Caplet.price
  rw [hx, bind_ok]
  have hgt := gt_iff stop v he hv
  have hlt := lt_iff stop v he hv
  have hlt0 := lt_iff start v hs hv
  simp only [pure, Except.pure]
  rw [hD, hd, h1, h2]
  congr 1
  by_cases hb : v.Before stop
  · have hnb : ¬ stop.Before v := by
      intro h
      rw [before_iff _ _ hv he] at hb
      rw [before_iff _ _ he hv] at h
      omega
    rw [if_pos (hgt.2 hb), if_pos hb, if_neg (mt hlt.1 hnb)]
    by_cases hb0 : start.Before v
    · rw [if_pos (hlt0.2 hb0), capletValue, if_pos hb0, hf, codeRate, if_neg hnb, if_pos hb0]
      unfold vanillaPayoff
      ring
    · rw [if_neg (mt hlt0.1 hb0), capletValue, if_neg hb0]
      have hfw : c.forward = simpleRate R b start stop := by
        rw [hf, codeRate, if_neg hnb, if_neg hb0, if_pos hpos]; rfl
      have hT : actual365Fixed ℝ (Lemmas.repr v) c.reset = ((start.number - v.number : Int) : ℝ) / 365 := by
        rw [h1]; simp [actual365Fixed, DateT.daysUntil, Lemmas.repr]
      have hT0 : (0 : ℝ) ≤ ((start.number - v.number : Int) : ℝ) / 365 := by
        rw [before_iff _ _ hs hv] at hb0
        refine div_nonneg ?_ (by norm_num)
        exact_mod_cast (by omega : 0 ≤ start.number - v.number)
      rw [hT, hfw, black_eq _ _ _ _ _ hσ hT0 (hR hb0) hk] at hx
      simp only [Except.ok.injEq] at hx
      rw [← hx]
      ring
  · rw [if_neg (mt hgt.1 hb), if_neg hb, zero_mul]

open Classical in
/-- The value of a cap or floor with the dates `c 0, …, c k`. -/
noncomputable def capValue (isCap : Bool) (strike notional : ℝ) (σ : Nat → ℝ) (R D : YMD → ℝ) (b : Basis) (L : ℝ) (v : YMD)
    (k : Nat) (c : Nat → YMD) : ℝ :=
  ∑ j ∈ Finset.range k, if v.Before (c (j + 1)) then notional * yearFraction b (c j) (c (j + 1)) * D (c (j + 1)) *
    capletValue isCap strike (σ j) R b L v (c j) (c (j + 1)) else 0

theorem caplet_zero (c : Caplet) (v : DateT) (m : Market ℝ) (h : c.daycount = 0) : c.price v m = .ok 0 := by
  obtain ⟨x, hx⟩ := black_total c.volatility c.strike (actual365Fixed ℝ v c.reset) c.forward c.isCap
  unfold Caplet.price
  rw [hx, bind_ok, h]
  simp [pure, Except.pure]

theorem yearFraction_nonneg (b : Basis) (d e : YMD) (hd : d.Valid) (he : e.Valid) (h : d.Before e) :
    (0 : ℝ) ≤ yearFraction b d e := by
  have hn := (before_iff d e hd he).1 h
  have hcast : ∀ z : Int, 0 ≤ z → (0 : ℝ) ≤ (z : ℝ) := fun z hz => by exact_mod_cast hz
  cases b with
  | actual360 => exact div_nonneg (hcast _ (by omega)) (by norm_num)
  | actual365 => exact div_nonneg (hcast _ (by omega)) (by norm_num)
  | thirty360 =>
    refine div_nonneg (hcast _ ?_) (by norm_num)
    obtain ⟨a1, a2, a3, a4⟩ := hd
    obtain ⟨b1, b2, b3, b4⟩ := he
    have l1 : monthLength d.year d.month ≤ 31 := by unfold monthLength; split_ifs <;> omega
    have l2 : monthLength e.year e.month ≤ 31 := by unfold monthLength; split_ifs <;> omega
    unfold YMD.Before at h
    split_ifs <;> omega

/-- Consecutive coupon dates are in order. -/
theorem forward_order {u : PeriodType} {q : Int} {d e : YMD} {k : Nat} {c : Nat → YMD} (hd : d.Valid) (hq : 0 < q)
    (h : ForwardCoupons u q d e k c) (j : Nat) (hj : j < k) : (c j).Before (c (j + 1)) := by
  rcases Nat.lt_or_ge (j + 1) k with h1 | h1
  · have s1 := (h.1 j hj).1
    have s2 := (h.1 (j + 1) h1).1
    have e1 := shiftedBy_unique s1 (shiftD_spec u _ d hd)
    have e2 := shiftedBy_unique s2 (shiftD_spec u _ d hd)
    rw [before_iff _ _ s1.1 s2.1, e1, e2]
    refine shiftD_mono u ?_ d hd
    push_cast
    nlinarith
  · rw [show j + 1 = k by omega, h.2.1]
    exact (h.1 j hj).2

theorem broadcast_one {α : Type} (n : Nat) (x : α) : broadcast n [x] = .ok (List.replicate n x) := by
  unfold broadcast
  by_cases h : n = 1
  · subst h; rfl
  · rw [if_neg (by simp; omega)]

theorem broadcast_length {α : Type} (n : Nat) (l : List α) (h : l.length = n) : broadcast n l = .ok l := by
  unfold broadcast
  rw [if_pos h]

theorem capNotional_scalar (x : ℝ) (h : x ≠ 0) : capNotional (some (.scalar x)) = [x] := by
  simp [capNotional, h]

/-- C69 (partial): a batch of caps and floors with a common notional is worth the sum of its caplets with payment after the
valuation date, every contract with its own dates, strike and volatilities. -/
theorem C69_cap_floor_partial (p : PeriodType) (convention : DayCount) (specs : List CapSpec) (notional : ℝ)
    (hn0 : notional ≠ 0) (hrows : ∀ r ∈ specs, ∃ d e, ValidRow r.row.dates d e)
    (hne : ∃ r ∈ specs, r.row.dates.start.ordinal < r.row.dates.stop.ordinal) :
    ∃ s, CapFloor.setup p convention (specs.map CapSpec.strike) (some (.scalar notional)) (specs.map CapSpec.row) = .ok s ∧
    ∃ (k : CapSpec → Nat) (c : CapSpec → Nat → YMD),
      (∀ r ∈ specs, ∀ d e, ValidRow r.row.dates d e → ForwardCoupons p r.row.dates.quantity d e (k r) (c r)) ∧
      ∀ (v : DateT) (vd : YMD) (m : Market ℝ) (R D : YMD → ℝ), Represents v vd → Quotes m R D →
        (fixing m = 0 ∨ specs.length = 1 ∨ s.num = 1) → (∀ r ∈ specs, 0 < r.strike ∧ ∀ j, 0 ≤ r.volatility j) →
        (∀ r ∈ specs, ∀ j, j < k r → ¬ (c r j).Before vd → 0 < yearFraction (K := ℝ) (basisOf convention) (c r j) (c r (j + 1)) →
          0 < simpleRate R (basisOf convention) (c r j) (c r (j + 1))) →
        s.price v m (some (specs.flatMap (fun r => (List.range s.num).map r.volatility))) =
          .ok (specs.map (fun r => capValue r.row.isCap r.strike notional r.volatility R D (basisOf convention) (fixing m) vd
            (k r) (c r))) := by
  obtain ⟨n, k, y, hgen, hy⟩ := forward_dates p ((specs.map CapSpec.row).map CapRow.dates)
    (by
      intro q hq
      obtain ⟨_, hq1, rfl⟩ := List.mem_map.1 hq
      obtain ⟨r, hr, rfl⟩ := List.mem_map.1 hq1
      exact hrows r hr)
    (by
      obtain ⟨r, hr, h⟩ := hne
      exact ⟨_, List.mem_map.2 ⟨_, List.mem_map.2 ⟨r, hr, rfl⟩, rfl⟩, h⟩)
  have hy' : ∀ r ∈ specs, _ := fun r hr => hy _ (List.mem_map.2 ⟨_, List.mem_map.2 ⟨r, hr, rfl⟩, rfl⟩)
  have hspec0 : specs ≠ [] := by obtain ⟨r, hr, _⟩ := hne; exact List.ne_nil_of_mem hr
  have hnpos : n ≠ 0 := by
    obtain ⟨r, hr, hlt⟩ := hne
    obtain ⟨d, e, hv⟩ := hrows r hr
    obtain ⟨h1, h2, h3, h4⟩ := hy' r hr
    intro h0
    have hk : k r.row.dates = 0 := by omega
    have hf := (h4 d e hv).2.2
    rw [hk] at hf
    have := hf d (by
      have := shiftD_spec p (r.row.dates.quantity * ((0 : Nat) : Int)) d hv.start.1
      rw [show r.row.dates.quantity * ((0 : Nat) : Int) = 0 by simp] at this ⊢
      rwa [shiftD_zero p d hv.start.1] at this)
    rw [before_iff _ _ hv.start.1 hv.stop.1] at this
    have e1 : r.row.dates.start.ordinal = d.number := hv.start.2.2.2.2
    have e2 : r.row.dates.stop.ordinal = e.number := hv.stop.2.2.2.2
    omega
  have hset : CapFloor.setup p convention (specs.map CapSpec.strike) (some (.scalar notional)) (specs.map CapSpec.row) = .ok {
      batch := specs.length
      num := n
      resetDates := specs.flatMap (fun r => (List.range n).map (fun i => Lemmas.repr (y r.row.dates i)))
      paymentDates := specs.flatMap (fun r => (List.range n).map (fun i => Lemmas.repr (y r.row.dates (i + 1))))
      daycounts := specs.flatMap (fun r => (List.range n).map (fun i =>
        yearFraction (basisOf convention) (y r.row.dates i) (y r.row.dates (i + 1))))
      strikes := specs.flatMap (fun r => (List.range n).map (fun _ => r.strike))
      notional := [notional]
      isCap := specs.flatMap (fun r => (List.range n).map (fun _ => r.row.isCap))
      contractIndex := repeatEach (List.range specs.length) n } := by
    unfold CapFloor.setup
    rw [hgen, bind_ok]
    have hnum : (List.headD (List.map (fun r => (List.range (n + 1)).map (fun i => Lemmas.repr (y r i)))
        ((specs.map CapSpec.row).map CapRow.dates)) []).length - 1 = n := by
      cases specs with
      | nil => exact absurd rfl hspec0
      | cons a l => simp
    dsimp only
    rw [hnum, if_neg hnpos, repeatEach_map, List.map_map, repeatEach_map, capNotional_scalar _ hn0]
    simp only [List.flatMap_map, List.map_map, Function.comp_apply, List.length_map]
    congr 2
    · apply List.flatMap_congr
      intro r _
      rw [dropLast_mapRange]
    · apply List.flatMap_congr
      intro r _
      rw [← List.drop_one, drop_mapRange]
    · apply List.flatMap_congr
      intro r hr
      rw [← List.drop_one, drop_mapRange, dropLast_mapRange, zipWith_mapRange]
      apply List.map_congr_left
      intro i _
      exact daycount_eq _ _ _ ((hy' r hr).2.1 i).1 ((hy' r hr).2.1 (i + 1)).1
  refine ⟨_, hset, fun r => k r.row.dates, fun r => y r.row.dates, fun r hr d e h => (hy' r hr).2.2.2 d e h, ?_⟩
  intro v vd m R D hv hm hfix hpos hR
  obtain ⟨hvv, rfl⟩ := (represents_iff _ _).1 hv
  dsimp only at hfix hR ⊢
  have hlen : ∀ f : CapSpec → Nat → ℝ, (specs.flatMap (fun r => (List.range n).map (f r))).length = specs.length * n := by
    intro f; simp [List.length_flatMap]
  unfold CapFloor.price CapFloor.forwards
  dsimp only
  rw [libor_broadcast _ _ _ hfix, bind_ok]
  simp only [pure, Except.pure]
  rw [bind_ok]
  unfold blackVols
  dsimp only
  rw [broadcast_length _ _ (hlen _), bind_ok, broadcast_length _ _ (hlen _), bind_ok, broadcast_one, bind_ok,
    replicate_flatMap, replicate_flatMap]
  simp only [List.zip_eq_zipWith]
  repeat rw [zipWith_flatMap _ _ _ _ (by simp)]
  simp only [zipWith_mapRange]
  rw [mapM_ok _ (fun c : Caplet => (c.price (Lemmas.repr vd) m).toOption.getD 0), bind_ok, map_flatMap',
    segmentSum_flatMap _ _ n (by simp)]
  · congr 1
    apply List.map_congr_left
    intro r hr
    obtain ⟨h1, h2, h3, h4⟩ := hy' r hr
    obtain ⟨d, e, hv⟩ := hrows r hr
    have hord := forward_order hv.start.1 hv.quantity (h4 d e hv)
    rw [List.map_map, sum_mapRange', sum_window' _ n 0 (k r.row.dates) (by omega) (by omega), capValue]
    · apply Finset.sum_congr rfl
      intro j hj
      have hj' := Finset.mem_range.1 hj
      rw [Nat.zero_add, Function.comp_apply]
      have hnn := yearFraction_nonneg (basisOf convention) _ _ (h2 j).1 (h2 (j + 1)).1 (hord j hj')
      rcases hnn.eq_or_lt with h0 | h0
      · rw [caplet_zero _ _ _ (by exact h0.symm), ← h0]
        show (0 : ℝ) = _
        by_cases hb : vd.Before (y r.row.dates (j + 1))
        · rw [if_pos hb]; ring
        · rw [if_neg hb]
      · rw [caplet_price _ (y r.row.dates j) (y r.row.dates (j + 1)) vd (basisOf convention) m R D (fixing m) hm (h2 j).1
          (h2 (j + 1)).1 hvv rfl rfl rfl h0 ?_ ((hpos r hr).2 j) (hpos r hr).1 (fun hb => hR r hr j hj' hb h0)]
        · rfl
        · have hR0 : m.reference (Lemmas.repr (y r.row.dates j)) = R (y r.row.dates j) :=
            (hm _ _ ((represents_iff _ _).2 ⟨(h2 j).1, rfl⟩)).1
          have hR1 : m.reference (Lemmas.repr (y r.row.dates (j + 1))) = R (y r.row.dates (j + 1)) :=
            (hm _ _ ((represents_iff _ _).2 ⟨(h2 (j + 1)).1, rfl⟩)).1
          have hlt := lt_iff _ _ (h2 (j + 1)).1 hvv
          have hlt0 := lt_iff _ _ (h2 j).1 hvv
          unfold couponForward codeRate curveForward forwardRate
          dsimp only
          rw [hR0, hR1]
          by_cases hb : (y r.row.dates (j + 1)).Before vd
          · rw [if_pos (hlt.2 hb), if_pos hb]
          · rw [if_neg (mt hlt.1 hb), if_neg hb]
            by_cases hb0 : (y r.row.dates j).Before vd
            · rw [if_pos (hlt0.2 hb0), if_pos hb0]
            · rw [if_neg (mt hlt0.1 hb0), if_neg hb0]
    · intro i hi _
      rw [Function.comp_apply, caplet_zero]
      · rfl
      · dsimp only
        rw [h3 i (by omega), h3 (i + 1) (by omega), yearFraction_self _ _ (dateOf_valid _)]
  · intro c _
    obtain ⟨x, hx⟩ := black_total c.volatility c.strike (actual365Fixed ℝ (Lemmas.repr vd) c.reset) c.forward c.isCap
    unfold Caplet.price
    rw [hx, bind_ok]
    rfl

theorem lognormal_parity (f s strike : ℝ) (hf : 0 < f) (hs : 0 ≤ s) (hk : 0 < strike) :
    lognormalExpectation f s (vanillaPayoff true strike) - lognormalExpectation f s (vanillaPayoff false strike) =
      f - strike := by
  have h1 := black_eq s strike 1 f true hs zero_le_one hf hk
  have h2 := black_eq s strike 1 f false hs zero_le_one hf hk
  obtain ⟨c, p, e1, e2, e3⟩ := C31_put_call_parity { volatility := s, strike := strike, expiry := 1, forward := some f }
    ⟨by simp, by simp, hs, zero_le_one, by simp⟩
  dsimp only at e1 e2 e3
  rw [h1] at e1
  rw [h2] at e2
  simp only [Except.ok.injEq, Real.sqrt_one, mul_one] at e1 e2
  rw [e1, e2, e3]
  simp [discount, Spec.forward]

/-- C69: a caplet minus a floorlet pays the rate minus the strike. -/
theorem C69_caplet_parity (strike σ : ℝ) (R : YMD → ℝ) (b : Basis) (L : ℝ) (v start stop : YMD) (hk : 0 < strike) (hσ : 0 ≤ σ)
    (hR : ¬ start.Before v → 0 < simpleRate R b start stop) :
    capletValue true strike σ R b L v start stop - capletValue false strike σ R b L v start stop =
      couponRate R b L v start stop - strike := by
  unfold capletValue couponRate
  by_cases hb : start.Before v
  · rw [if_pos hb, if_pos hb, if_pos hb]
    exact payoff_parity strike L
  · rw [if_neg hb, if_neg hb, if_neg hb]
    exact lognormal_parity _ _ _ (hR hb) (mul_nonneg hσ (Real.sqrt_nonneg _)) hk

open Classical in
/-- C69: a cap minus a floor is the swap which pays the strike for the rate, over the payments after the valuation date. -/
theorem C69_parity (strike notional : ℝ) (σ : Nat → ℝ) (R D : YMD → ℝ) (b : Basis) (L : ℝ) (v : YMD) (k : Nat)
    (c : Nat → YMD) (hk : 0 < strike) (hσ : ∀ j, 0 ≤ σ j)
    (hR : ∀ j, j < k → ¬ (c j).Before v → yearFraction (K := ℝ) b (c j) (c (j + 1)) ≠ 0 → 0 < simpleRate R b (c j) (c (j + 1))) :
    capValue true strike notional σ R D b L v k c - capValue false strike notional σ R D b L v k c =
      ∑ j ∈ Finset.range k, if v.Before (c (j + 1)) then notional * yearFraction b (c j) (c (j + 1)) * D (c (j + 1)) *
        (couponRate R b L v (c j) (c (j + 1)) - strike) else 0 := by
  unfold capValue
  rw [← Finset.sum_sub_distrib]
  apply Finset.sum_congr rfl
  intro j hj
  by_cases hb : v.Before (c (j + 1))
  · rw [if_pos hb, if_pos hb, if_pos hb]
    by_cases h0 : yearFraction (K := ℝ) b (c j) (c (j + 1)) = 0
    · rw [h0]; ring
    · rw [← C69_caplet_parity strike (σ j) R b L v (c j) (c (j + 1)) hk (hσ j)
        (fun h => hR j (Finset.mem_range.1 hj) h h0)]
      ring
  · rw [if_neg hb, if_neg hb, if_neg hb, sub_zero]

/-- C69: before the start of the first period, on a single curve, a cap minus a floor is worth
`notional * (D(start) - D(end))` minus the value of the strike. -/
theorem C69_parity_single_curve (strike notional : ℝ) (σ : Nat → ℝ) (D : YMD → ℝ) (b : Basis) (L : ℝ) (v : YMD) (k : Nat)
    (c : Nat → YMD) (hk : 0 < strike) (hσ : ∀ j, 0 ≤ σ j) (hD : ∀ d, D d ≠ 0)
    (hτ : ∀ j, j < k → yearFraction (K := ℝ) b (c j) (c (j + 1)) ≠ 0)
    (hv : ∀ j, j < k → ¬ (c j).Before v ∧ v.Before (c (j + 1)))
    (hR : ∀ j, j < k → 0 < simpleRate D b (c j) (c (j + 1))) :
    capValue true strike notional σ D D b L v k c - capValue false strike notional σ D D b L v k c =
      notional * (D (c 0) - D (c k)) -
        strike * ∑ j ∈ Finset.range k, notional * yearFraction b (c j) (c (j + 1)) * D (c (j + 1)) := by
  rw [C69_parity strike notional σ D D b L v k c hk hσ (fun j hj _ _ => hR j hj)]
  have : ∀ j ∈ Finset.range k, (open Classical in if v.Before (c (j + 1)) then
      notional * yearFraction b (c j) (c (j + 1)) * D (c (j + 1)) * (couponRate D b L v (c j) (c (j + 1)) - strike) else 0) =
      notional * (D (c j) - D (c (j + 1))) - strike * (notional * yearFraction b (c j) (c (j + 1)) * D (c (j + 1))) := by
    intro j hj
    have hj' := Finset.mem_range.1 hj
    rw [if_pos (hv j hj').2, couponRate, if_neg (hv j hj').1, simpleRate]
    have h1 := hτ j hj'
    have h2 := hD (c (j + 1))
    field_simp
  rw [Finset.sum_congr rfl this, Finset.sum_sub_distrib, ← Finset.mul_sum, ← Finset.mul_sum, Finset.sum_range_sub']

/-- C69: a caplet is worth at least its payoff at the forward rate, and at most the rate; a floorlet at most the strike. -/
theorem C69_caplet_bounds (isCap : Bool) (strike σ : ℝ) (R : YMD → ℝ) (b : Basis) (L : ℝ) (v start stop : YMD) (hk : 0 < strike)
    (hσ : 0 ≤ σ) (hL : 0 ≤ L) (hR : ¬ start.Before v → 0 < simpleRate R b start stop) :
    vanillaPayoff isCap strike (couponRate R b L v start stop) ≤ capletValue isCap strike σ R b L v start stop ∧
      capletValue isCap strike σ R b L v start stop ≤ if isCap then couponRate R b L v start stop else strike := by
  unfold capletValue couponRate
  by_cases hb : start.Before v
  · rw [if_pos hb, if_pos hb]
    refine ⟨le_refl _, ?_⟩
    unfold vanillaPayoff
    cases isCap
    · simp only [Bool.false_eq_true, if_false]
      exact max_le (by linarith) hk.le
    · simp only [if_true]
      exact max_le (by linarith) hL
  · rw [if_neg hb, if_neg hb]
    have hs : 0 ≤ σ * Real.sqrt (((start.number - v.number : Int) : ℝ) / 365) := mul_nonneg hσ (Real.sqrt_nonneg _)
    generalize σ * Real.sqrt (((start.number - v.number : Int) : ℝ) / 365) = s at hs
    obtain ⟨x, h1, h2, h3⟩ := C31_bounds
      { volatility := s, strike := strike, expiry := 1, forward := some (simpleRate R b start stop), isCall := some isCap }
      ⟨by simp, by simp, hs, zero_le_one, by simp⟩ (fun _ => ⟨hR hb, hk⟩)
    rw [black_eq s strike 1 _ isCap hs zero_le_one (hR hb) hk] at h1
    simp only [Except.ok.injEq, Real.sqrt_one, mul_one] at h1
    simp only [discount, Spec.forward, one_mul, Option.getD_some] at h2 h3
    rw [h1]
    exact ⟨h2, h3 trivial⟩

/-- C69: a cap or floor with a positive notional is not worth less than its intrinsic value, and nothing less than zero. -/
theorem C69_bounds (isCap : Bool) (strike notional : ℝ) (σ : Nat → ℝ) (R D : YMD → ℝ) (b : Basis) (L : ℝ) (v : YMD) (k : Nat)
    (c : Nat → YMD) (hk : 0 < strike) (hσ : ∀ j, 0 ≤ σ j) (hL : 0 ≤ L) (hn : 0 ≤ notional) (hD : ∀ d, 0 ≤ D d)
    (hτ : ∀ j, j < k → 0 ≤ yearFraction (K := ℝ) b (c j) (c (j + 1)))
    (hR : ∀ j, j < k → ¬ (c j).Before v → yearFraction (K := ℝ) b (c j) (c (j + 1)) ≠ 0 → 0 < simpleRate R b (c j) (c (j + 1))) :
    0 ≤ (open Classical in ∑ j ∈ Finset.range k, if v.Before (c (j + 1)) then
        notional * yearFraction b (c j) (c (j + 1)) * D (c (j + 1)) *
          vanillaPayoff isCap strike (couponRate R b L v (c j) (c (j + 1))) else 0) ∧
    (open Classical in ∑ j ∈ Finset.range k, if v.Before (c (j + 1)) then
        notional * yearFraction b (c j) (c (j + 1)) * D (c (j + 1)) *
          vanillaPayoff isCap strike (couponRate R b L v (c j) (c (j + 1))) else 0) ≤
      capValue isCap strike notional σ R D b L v k c := by
  constructor
  · apply Finset.sum_nonneg
    intro j hj
    by_cases hb : v.Before (c (j + 1))
    · rw [if_pos hb]
      exact mul_nonneg (mul_nonneg (mul_nonneg hn (hτ j (Finset.mem_range.1 hj))) (hD _)) (vanillaPayoff_nonneg _ _ _)
    · rw [if_neg hb]
  · apply Finset.sum_le_sum
    intro j hj
    have hj' := Finset.mem_range.1 hj
    by_cases hb : v.Before (c (j + 1))
    · rw [if_pos hb, if_pos hb]
      by_cases h0 : yearFraction (K := ℝ) b (c j) (c (j + 1)) = 0
      · rw [h0]; simp
      · exact mul_le_mul_of_nonneg_left (C69_caplet_bounds isCap strike (σ j) R b L v _ _ hk (hσ j) hL
          (fun h => hR j hj' h h0)).1 (mul_nonneg (mul_nonneg hn (hτ j hj')) (hD _))
    · rw [if_neg hb, if_neg hb]

/-! ## Deviations -/

/-- Deviation: without `pricing_context` no cap can be priced, whatever volatilities the market supplies. -/
theorem C69_market_volatility_deviation (s : CapFloor) (v : DateT) (m : Market ℝ) : ∃ e, s.price v m none = .error e := by
  unfold CapFloor.price
  cases h : s.forwards v m with
  | error e => exact ⟨e, rfl⟩
  | ok l => exact ⟨_, rfl⟩

/-- Deviation: a cap with the notional zero is priced with the notional one. -/
theorem C69_zero_notional_deviation (p : PeriodType) (convention : DayCount) (strikes : List ℝ) (rows : List CapRow) :
    CapFloor.setup p convention strikes (some (.scalar 0)) rows = CapFloor.setup p convention strikes (some (.scalar 1)) rows := by
  unfold CapFloor.setup capNotional
  simp

theorem broadcast_error {α : Type} (n : Nat) (l : List α) (h1 : l.length ≠ n) (h2 : l.length ≠ 1) :
    ∃ e, broadcast n l = .error e := by
  unfold broadcast
  rw [if_neg h1]
  match l, h2 with
  | [], _ => exact ⟨_, rfl⟩
  | [x], h2 => exact absurd rfl h2
  | _ :: _ :: _, _ => exact ⟨_, rfl⟩

theorem bind_error {α β : Type} (x : Except String α) (f : α → Except String β) (e : String) (h : x = .error e) :
    (x >>= f) = .error e := by rw [h]; rfl

/-- If any of the lists of a cap cannot be broadcast, the cap cannot be priced. -/
theorem cap_error (s : CapFloor) (v : DateT) (m : Market ℝ) (vols : Option (List ℝ))
    (h : (∃ e, broadcast (s.batch * s.num) s.strikes = .error e) ∨ ∃ e, broadcast (s.batch * s.num) s.notional = .error e) :
    ∃ e, s.price v m vols = .error e := by
  unfold CapFloor.price
  cases h1 : s.forwards v m with
  | error e => exact ⟨e, rfl⟩
  | ok l =>
    rw [bind_ok]
    cases h2 : blackVols "'CapAndFloor' object has no attribute '_term'" (s.batch * s.num) vols with
    | error e => exact ⟨e, rfl⟩
    | ok w =>
      dsimp only
      rw [bind_ok]
      cases h3 : broadcast (s.batch * s.num) s.strikes with
      | error e => exact ⟨e, rfl⟩
      | ok k =>
        rw [bind_ok]
        rcases h with ⟨e, h⟩ | ⟨e, h⟩
        · rw [h3] at h; cases h
        · rw [h]; exact ⟨e, rfl⟩

/-- Deviation: a batch of several caps with several caplets cannot be priced with one notional per cap. -/
theorem C69_notionals_deviation (p : PeriodType) (convention : DayCount) (strikes notionals : List ℝ) (rows : List CapRow)
    (s : CapFloor) (hs : CapFloor.setup p convention strikes (some (.vector notionals)) rows = .ok s)
    (hlen : notionals.length = rows.length) (hrows : 2 ≤ rows.length) (hnum : 2 ≤ s.num) (v : DateT) (m : Market ℝ)
    (vols : Option (List ℝ)) : ∃ e, s.price v m vols = .error e := by
  unfold CapFloor.setup at hs
  rw [bind_ok_iff] at hs
  obtain ⟨schedule, _, hs⟩ := hs
  dsimp only at hs
  split at hs
  · cases hs
  · simp only [Except.ok.injEq] at hs
    have hb : s.batch = rows.length := by rw [← hs]
    have hn : s.notional = notionals := by
      rw [← hs]
      unfold capNotional
      dsimp only
      rw [if_neg]
      intro h
      rw [h] at hlen
      simp at hlen
      omega
    refine cap_error s v m vols (Or.inr (broadcast_error _ _ ?_ ?_))
    · rw [hb, hn, hlen]
      nlinarith
    · rw [hn, hlen]; omega

/-- Deviation: a batch of several caps with several caplets cannot be priced with a common strike. -/
theorem C69_scalar_strike_deviation (p : PeriodType) (convention : DayCount) (strike : ℝ) (notional : Option Amount)
    (rows : List CapRow) (s : CapFloor) (hs : CapFloor.setup p convention [strike] notional rows = .ok s)
    (hrows : 2 ≤ rows.length) (hnum : 2 ≤ s.num) (v : DateT) (m : Market ℝ)
    (vols : Option (List ℝ)) : ∃ e, s.price v m vols = .error e := by
  unfold CapFloor.setup at hs
  rw [bind_ok_iff] at hs
  obtain ⟨schedule, _, hs⟩ := hs
  dsimp only at hs
  split at hs
  · cases hs
  · simp only [Except.ok.injEq] at hs
    have hb : s.batch = rows.length := by rw [← hs]
    have hk : s.strikes.length = s.num := by rw [← hs]; simp [repeatEach]
    refine cap_error s v m vols (Or.inl (broadcast_error _ _ ?_ ?_))
    · rw [hb, hk]
      nlinarith
    · rw [hk]; omega

end Props
