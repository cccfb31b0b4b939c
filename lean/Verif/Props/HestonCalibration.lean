import Verif.Model.HestonCalibration
import Verif.Props.SabrCalibration
import Verif.Props.HestonPrice

/-!
# Property theorems C83: calibration of the model of Heston
-/

namespace Props
open Model

/-- Which optional arguments may be supplied together. -/
def HestonMarketAccepted (a : HestonCalibrationArgs) : Prop :=
  (a.hasSpot = true ↔ a.hasForward = false) ∧ ¬ (a.hasDiscountRate = true ∧ a.hasDiscountFactor = true)

theorem hestonCalibrationCheck_ok (a : HestonCalibrationArgs) : hestonCalibrationCheck a = .ok () ↔ HestonMarketAccepted a := by
  unfold hestonCalibrationCheck HestonMarketAccepted
  cases a.hasSpot <;> cases a.hasForward <;> cases a.hasDiscountRate <;> cases a.hasDiscountFactor <;> simp

theorem assertParameterValid_ok (v : Bool) (b : Bounded) (m : String) :
    assertParameterValid v b m = .ok () ↔ (v = true → b.lower ≤ b.value ∧ b.value ≤ b.upper) := by
  unfold assertParameterValid
  cases v
  · simp
  · by_cases h1 : b.value < b.lower
    · simp [h1]
    · by_cases h2 : b.upper < b.value
      · simp [h1, h2]
      · simp [h1, h2, not_lt.1 h1, not_lt.1 h2]

theorem except_bind_unit_ok {α : Type} (x : Except String Unit) (f : Except String α) (r : α) :
    (x >>= fun _ => f) = .ok r ↔ x = .ok () ∧ f = .ok r := by
  cases x with
  | error e => simp [bind, Except.bind]
  | ok u => simp [bind, Except.bind]

theorem hestonCalibration_ok (optimizer : (List ℝ → ℝ) → List (Option ℝ) → List ℝ) (a : HestonCalibrationArgs) (p : HestonOptionParams) :
    hestonCalibration optimizer a = .ok p ↔ HestonMarketAccepted a ∧
      (a.validateArgs = true → ∀ b ∈ [a.meanReversion, a.theta, a.volvol, a.initialVariance, a.rho], b.lower ≤ b.value ∧ b.value ≤ b.upper) ∧
      p = hestonUnpack a (optimizer (hestonLoss a) (hestonInitialPosition a)) := by
  unfold hestonCalibration
  simp only [except_bind_unit_ok, hestonCalibrationCheck_ok, assertParameterValid_ok, List.forall_mem_cons, List.not_mem_nil, pure, Except.pure,
    Except.ok.injEq]
  constructor
  · rintro ⟨h0, h1, h2, h3, h4, h5, h6⟩
    exact ⟨h0, fun hv => ⟨h1 hv, h2 hv, h3 hv, h4 hv, h5 hv, fun _ h => absurd h id⟩, h6.symm⟩
  · rintro ⟨h0, h1, h2⟩
    exact ⟨h0, fun hv => (h1 hv).1, fun hv => (h1 hv).2.1, fun hv => (h1 hv).2.2.1, fun hv => (h1 hv).2.2.2.1, fun hv => (h1 hv).2.2.2.2.1, h2.symm⟩

/-- C83: the calibration succeeds exactly if one of spots and forwards is supplied, not both discount rates and factors, and, with `validate_args`,
all starting values are within their bounds. -/
theorem C83_rejects (optimizer : (List ℝ → ℝ) → List (Option ℝ) → List ℝ) (a : HestonCalibrationArgs) :
    (∃ p, hestonCalibration optimizer a = .ok p) ↔ HestonMarketAccepted a ∧
      (a.validateArgs = true → ∀ b ∈ [a.meanReversion, a.theta, a.volvol, a.initialVariance, a.rho], b.lower ≤ b.value ∧ b.value ≤ b.upper) := by
  simp only [hestonCalibration_ok]
  constructor
  · rintro ⟨p, h1, h2, _⟩
    exact ⟨h1, h2⟩
  · rintro ⟨h1, h2⟩
    exact ⟨_, h1, h2, rfl⟩

/-- C83: whatever the optimizer returns, the calibrated parameters lie strictly between their bounds. -/
theorem C83_in_bounds (optimizer : (List ℝ → ℝ) → List (Option ℝ) → List ℝ) (a : HestonCalibrationArgs) (p : HestonOptionParams)
    (h : hestonCalibration optimizer a = .ok p) :
    (a.meanReversion.lower < a.meanReversion.upper → p.meanReversion ∈ Set.Ioo a.meanReversion.lower a.meanReversion.upper) ∧
    (a.initialVariance.lower < a.initialVariance.upper → p.variance ∈ Set.Ioo a.initialVariance.lower a.initialVariance.upper) ∧
    (a.theta.lower < a.theta.upper → p.theta ∈ Set.Ioo a.theta.lower a.theta.upper) ∧
    (a.volvol.lower < a.volvol.upper → p.volvol ∈ Set.Ioo a.volvol.lower a.volvol.upper) ∧
    (a.rho.lower < a.rho.upper → p.rho ∈ Set.Ioo a.rho.lower a.rho.upper) := by
  have hc : ∀ x lb ub, lb < ub → toConstrained x lb ub ∈ Set.Ioo lb ub := by
    intro x lb ub h
    rw [← (C79_constrained lb ub h).2]
    exact ⟨x, rfl⟩
  rw [((hestonCalibration_ok _ _ _).1 h).2.2]
  exact ⟨hc _ _ _, hc _ _ _, hc _ _ _, hc _ _ _, hc _ _ _⟩

/-- C83: an optimizer which returns its starting point returns the parameters the caller supplied, if these are strictly between their bounds. -/
theorem C83_start (a : HestonCalibrationArgs) (ha : HestonMarketAccepted a) (h1 : Inside a.initialVariance) (h2 : Inside a.theta) (h3 : Inside a.volvol)
    (h4 : Inside a.meanReversion) (h5 : Inside a.rho) :
    hestonCalibration (fun _ x => x.map (·.getD 0)) a =
      .ok { variance := a.initialVariance.value, meanReversion := a.meanReversion.value, theta := a.theta.value, volvol := a.volvol.value,
            rho := a.rho.value } := by
  have hi : ∀ b, Inside b → b.lower ≤ b.value ∧ b.value ≤ b.upper := fun b h => ⟨h.1.le, h.2.le⟩
  rw [hestonCalibration_ok]
  refine ⟨ha, fun _ => ?_, ?_⟩
  · simp only [List.forall_mem_cons, List.not_mem_nil]
    exact ⟨hi _ h4, hi _ h2, hi _ h3, hi _ h1, hi _ h5, fun _ h => absurd h id⟩
  have hr : ∀ b, Inside b → ∃ x, toUnconstrained b = some x ∧ toConstrained x b.lower b.upper = b.value := fun b h =>
    (C79_round_trip b (h.1.trans h.2)).1 h.1 h.2
  obtain ⟨x1, e1, c1⟩ := hr _ h1
  obtain ⟨x2, e2, c2⟩ := hr _ h2
  obtain ⟨x3, e3, c3⟩ := hr _ h3
  obtain ⟨x4, e4, c4⟩ := hr _ h4
  obtain ⟨x5, e5, c5⟩ := hr _ h5
  unfold hestonUnpack hestonInitialPosition
  simp only [e1, e2, e3, e4, e5, List.map_cons, List.map_nil, Option.getD_some]
  simp [c1, c2, c3, c4, c5]

/-- C83: the prices in the loss are those of the quoted options with the market data supplied, provided that the discount factor, if it is supplied, is
positive and the expiry not zero. -/
theorem C83_value (a : HestonCalibrationArgs) (ha : HestonMarketAccepted a) (q : HestonQuote) (p : HestonOptionParams)
    (hq : a.hasDiscountFactor = true → 0 < q.discountFactor ∧ q.expiry ≠ 0) :
    hestonPrice (hestonLossArgs a q p) = hestonPrice (hestonQuoteArgs a q p) ∧ hestonPrice (hestonQuoteArgs a q p) = .ok (hestonValue a q p) := by
  have hok : HestonAccepted (hestonQuoteArgs a q p) := by
    obtain ⟨h1, h2⟩ := ha
    unfold HestonAccepted hestonQuoteArgs supplied
    revert h1 h2
    cases a.hasSpot <;> cases a.hasForward <;> cases a.hasDiscountRate <;> cases a.hasDiscountFactor <;> simp
  have hok' : HestonAccepted (hestonLossArgs a q p) := by
    unfold HestonAccepted hestonLossArgs
    simp
  have hf : (hestonLossArgs a q p).forwardPrice = (hestonQuoteArgs a q p).forwardPrice := rfl
  have hd : (hestonLossArgs a q p).factor = (hestonQuoteArgs a q p).factor := by
    have e : (hestonLossArgs a q p).factor = Real.exp (-(hestonQuoteArgs a q p).rate * q.expiry) := rfl
    rw [e]
    by_cases hdf : a.hasDiscountFactor = true
    · obtain ⟨h1, h2⟩ := hq hdf
      have hr : a.hasDiscountRate = false := by
        have := ha.2
        rw [hdf] at this
        simpa using this
      have e1 : (hestonQuoteArgs a q p).discountFactor = some q.discountFactor := by
        change supplied a.hasDiscountFactor q.discountFactor = _
        rw [hdf]; rfl
      have e2 : (hestonQuoteArgs a q p).discountRate = none := by
        change supplied a.hasDiscountRate q.discountRate = _
        rw [hr]; rfl
      have e3 : (hestonQuoteArgs a q p).expiry = q.expiry := rfl
      unfold HestonOptionArgs.factor HestonOptionArgs.rate
      rw [e1, e2, e3]
      simp only
      have : -(-Real.log q.discountFactor / q.expiry) * q.expiry = Real.log q.discountFactor := by field_simp
      rw [this, Real.exp_log h1]
    · have e1 : (hestonQuoteArgs a q p).discountFactor = none := by
        change supplied a.hasDiscountFactor q.discountFactor = _
        rw [Bool.not_eq_true] at hdf
        rw [hdf]; rfl
      have e3 : (hestonQuoteArgs a q p).expiry = q.expiry := rfl
      conv_rhs => unfold HestonOptionArgs.factor
      rw [e1]
      simp only [e3]
  have heq : hestonPrice (hestonLossArgs a q p) = hestonPrice (hestonQuoteArgs a q p) := by
    have i1 : (hestonLossArgs a q p).isCall = some q.isCall := rfl
    have i2 : (hestonQuoteArgs a q p).isCall = some q.isCall := rfl
    have u : ∀ v, (hestonLossArgs a q p).undiscountedCall v = (hestonQuoteArgs a q p).undiscountedCall v := fun _ => rfl
    unfold hestonPrice
    rw [(Heston.check_ok _).mpr hok, (Heston.check_ok _).mpr hok', i1, i2, hf, hd]
    simp only [u]
    rfl
  refine ⟨heq, ?_⟩
  unfold hestonValue
  rw [heq]
  obtain ⟨r, hr⟩ := (C82_rejects (hestonQuoteArgs a q p)).mpr ⟨hok, (C82_default _ 3 le_rfl rfl).2.1⟩
  rw [hr]

/-- C83: the loss is never negative, and is zero exactly where the model prices are the quoted ones, if none of these prices is `-1` or less. -/
theorem C83_loss (a : HestonCalibrationArgs) (ha : HestonMarketAccepted a) (x : List ℝ)
    (hm : ∀ q ∈ a.quotes, a.hasDiscountFactor = true → 0 < q.discountFactor ∧ q.expiry ≠ 0)
    (hq : ∀ q ∈ a.quotes, -1 < q.price ∧ ∀ v, hestonPrice (hestonQuoteArgs a q (hestonUnpack a x)) = .ok v → -1 < v) :
    0 ≤ hestonLoss a x ∧
    (hestonLoss a x = 0 ↔ ∀ q ∈ a.quotes, hestonPrice (hestonQuoteArgs a q (hestonUnpack a x)) = .ok q.price) := by
  unfold hestonLoss
  dsimp only
  obtain ⟨h1, h2⟩ := mean_sq a.quotes fun q => Real.log (1 + hestonValue a q (hestonUnpack a x)) - Real.log (1 + q.price)
  refine ⟨h1, h2.trans ?_⟩
  refine forall₂_congr fun q hmem => ?_
  obtain ⟨b1, b2⟩ := hq q hmem
  have hv := (C83_value a ha q (hestonUnpack a x) (hm q hmem)).2
  have b3 := b2 _ hv
  rw [hv, sub_eq_zero]
  constructor
  · intro hl
    have := Real.log_injOn_pos (Set.mem_Ioi.2 (by linarith : (0 : ℝ) < 1 + hestonValue a q (hestonUnpack a x)))
      (Set.mem_Ioi.2 (by linarith : (0 : ℝ) < 1 + q.price)) hl
    congr 1
    linarith
  · intro hl
    rw [Except.ok.inj hl]

/-- The default bounds L72-81. -/
noncomputable def hestonDefaultBounds (meanReversion initialVariance theta volvol rho : ℝ) (quotes : List HestonQuote) : HestonCalibrationArgs where
  quotes := quotes
  hasSpot := true
  hasForward := false
  hasDiscountRate := false
  hasDividendRate := false
  hasDiscountFactor := false
  meanReversion := { value := meanReversion, lower := 0.001, upper := 0.5 }
  initialVariance := { value := initialVariance, lower := 0, upper := 1 }
  theta := { value := theta, lower := 0, upper := 1 }
  volvol := { value := volvol, lower := 0, upper := 1 }
  rho := { value := rho, lower := -1, upper := 1 }

/-- C83: with the default bounds, calibrated parameters satisfy the hypotheses of C82: the characteristic function of the calibrated model is
the right one and bounded by one. -/
theorem C83_admissible (optimizer : (List ℝ → ℝ) → List (Option ℝ) → List ℝ) (meanReversion initialVariance theta volvol rho : ℝ)
    (quotes : List HestonQuote) :
    ∃ p, hestonCalibration optimizer (hestonDefaultBounds meanReversion initialVariance theta volvol rho quotes) = .ok p ∧ HestonValid p ∧
      0 < p.theta ∧ 0 < p.variance ∧ ∀ t u, 0 ≤ t → ‖p.charFun t u‖ ≤ 1 := by
  obtain ⟨p, hp⟩ := (C83_rejects optimizer (hestonDefaultBounds meanReversion initialVariance theta volvol rho quotes)).mpr
    ⟨⟨by simp [hestonDefaultBounds], by simp [hestonDefaultBounds]⟩, fun h => by simp [hestonDefaultBounds] at h⟩
  obtain ⟨h1, h2, h3, h4, h5⟩ := C83_in_bounds _ _ _ hp
  have g1 := h1 (by simp only [hestonDefaultBounds]; norm_num)
  have g2 := h2 (by simp only [hestonDefaultBounds]; norm_num)
  have g3 := h3 (by simp only [hestonDefaultBounds]; norm_num)
  have g4 := h4 (by simp only [hestonDefaultBounds]; norm_num)
  have g5 := h5 (by simp only [hestonDefaultBounds]; norm_num)
  simp only [hestonDefaultBounds] at g1 g2 g3 g4 g5
  have hv : HestonValid p := ⟨lt_trans (by norm_num) g1.1, g4.1, abs_le.2 ⟨g5.1.le, g5.2.le⟩⟩
  exact ⟨p, hp, hv, g3.1, g2.1, fun t u ht => C82_bounded p hv g3.1.le g2.1.le u t ht⟩

/-- C83, deviation: starting values on a bound pass the check of `validate_args` but give an infinite starting position, for instance an initial
correlation of `-1` or an initial variance of zero with the default bounds. -/
theorem C83_bound_start (optimizer : (List ℝ → ℝ) → List (Option ℝ) → List ℝ) (quotes : List HestonQuote) :
    (∃ p, hestonCalibration optimizer { hestonDefaultBounds 0.3 0 0.2 0.2 (-1) quotes with validateArgs := true } = .ok p) ∧
    (hestonInitialPosition { hestonDefaultBounds 0.3 0 0.2 0.2 (-1) quotes with validateArgs := true }).getD 0 (some 0) = none ∧
    (hestonInitialPosition { hestonDefaultBounds 0.3 0 0.2 0.2 (-1) quotes with validateArgs := true }).getD 4 (some 0) = none := by
  refine ⟨?_, ?_, ?_⟩
  · rw [C83_rejects]
    refine ⟨⟨by simp [hestonDefaultBounds], by simp [hestonDefaultBounds]⟩, fun _ => ?_⟩
    simp only [List.forall_mem_cons, List.not_mem_nil, hestonDefaultBounds]
    norm_num
  · exact (C79_round_trip { value := 0, lower := 0, upper := 1 } (by norm_num)).2.1.1 (Or.inl rfl)
  · exact (C79_round_trip { value := -1, lower := -1, upper := 1 } (by norm_num)).2.1.1 (Or.inl rfl)

/-- A quote for which the start is returned by the optimizer that stays where it is. -/
example (q : HestonQuote) : hestonCalibration (fun _ x => x.map (·.getD 0)) (hestonDefaultBounds 0.3 0.8 0.75 0.1 (-0.5) [q]) =
    .ok { variance := 0.8, meanReversion := 0.3, theta := 0.75, volvol := 0.1, rho := -0.5 } := by
  refine C83_start (hestonDefaultBounds 0.3 0.8 0.75 0.1 (-0.5) [q]) ⟨by simp [hestonDefaultBounds], by simp [hestonDefaultBounds]⟩ ?_ ?_ ?_ ?_ ?_ <;>
    (unfold Inside hestonDefaultBounds; norm_num)

end Props
