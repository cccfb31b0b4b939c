import Verif.Model.SabrCalibration
import Verif.Props.Sabr

/-!
# Property theorems C79: calibration of the SABR approximation
-/

namespace Props
open Model Spec Lemmas

/-- The sigmoid lies strictly between zero and one. -/
theorem sigmoid_mem (x : ℝ) : 0 < 1 / (1 + Real.exp (-x)) ∧ 1 / (1 + Real.exp (-x)) < 1 := by
  have h := Real.exp_pos (-x)
  refine ⟨by positivity, ?_⟩
  rw [div_lt_one (by positivity)]
  linarith

/-- C79: the transformed parameter runs strictly increasing through the whole open interval between the bounds. -/
theorem C79_constrained (lb ub : ℝ) (h : lb < ub) :
    StrictMono (fun x => toConstrained x lb ub) ∧ Set.range (fun x => toConstrained x lb ub) = Set.Ioo lb ub := by
  have hd : 0 < ub - lb := sub_pos.2 h
  constructor
  · intro x y hxy
    unfold toConstrained
    dsimp only
    have h1 : Real.exp (-y) < Real.exp (-x) := Real.exp_lt_exp.2 (by linarith)
    have h2 := one_div_lt_one_div_of_lt (by have := Real.exp_pos (-y); linarith : 0 < 1 + Real.exp (-y)) (by linarith : 1 + Real.exp (-y) < 1 + Real.exp (-x))
    have := mul_lt_mul_of_pos_right h2 hd
    linarith
  · ext y
    constructor
    · rintro ⟨x, rfl⟩
      obtain ⟨h1, h2⟩ := sigmoid_mem x
      unfold toConstrained
      dsimp only
      constructor
      · have := mul_pos h1 hd
        linarith
      · have := mul_lt_mul_of_pos_right h2 hd
        linarith
    · rintro ⟨h1, h2⟩
      refine ⟨-Real.log ((ub - y) / (y - lb)), ?_⟩
      unfold toConstrained
      dsimp only
      have h3 : 0 < ub - y := sub_pos.2 h2
      have h4 : 0 < y - lb := sub_pos.2 h1
      rw [neg_neg, Real.exp_log (div_pos h3 h4)]
      have : ub - lb ≠ 0 := hd.ne'
      have e : 1 + (ub - y) / (y - lb) = (ub - lb) / (y - lb) := by field_simp; ring
      rw [e]
      field_simp
      ring

/-- C79: a starting value strictly between its bounds is transformed to a finite position, and the position back to it. A starting
value on a bound has no finite position. -/
theorem C79_round_trip (b : Bounded) (h : b.lower < b.upper) :
    (b.lower < b.value → b.value < b.upper → ∃ x, toUnconstrained b = some x ∧ toConstrained x b.lower b.upper = b.value) ∧
    (b.value = b.lower ∨ b.value = b.upper ↔ toUnconstrained b = none) ∧
    ∀ x, toUnconstrained { b with value := toConstrained x b.lower b.upper } = some x := by
  have hd : b.upper - b.lower ≠ 0 := (sub_pos.2 h).ne'
  have hs : ∀ v, (sabrScale v b.lower b.upper = 0 ↔ v = b.lower) ∧ (sabrScale v b.lower b.upper = 1 ↔ v = b.upper) := by
    intro v
    unfold sabrScale
    constructor
    · rw [div_eq_zero_iff, or_iff_left hd, sub_eq_zero]
    · rw [div_eq_one_iff_eq hd, sub_left_inj]
  refine ⟨?_, ?_, ?_⟩
  · intro h1 h2
    unfold toUnconstrained
    dsimp only
    have h3 : 0 < b.upper - b.value := sub_pos.2 h2
    have h4 : 0 < b.value - b.lower := sub_pos.2 h1
    rw [if_neg (by rw [(hs _).1, (hs _).2]; rintro (e | e) <;> linarith)]
    refine ⟨_, rfl, ?_⟩
    have e : (1 - sabrScale b.value b.lower b.upper) / sabrScale b.value b.lower b.upper = (b.upper - b.value) / (b.value - b.lower) := by
      unfold sabrScale
      field_simp
      ring
    rw [e]
    unfold toConstrained
    dsimp only
    rw [neg_neg, Real.exp_log (div_pos h3 h4)]
    have e : 1 + (b.upper - b.value) / (b.value - b.lower) = (b.upper - b.lower) / (b.value - b.lower) := by field_simp; ring
    rw [e]
    field_simp
    ring
  · unfold toUnconstrained
    dsimp only
    rw [← (hs b.value).1, ← (hs b.value).2]
    split <;> simp_all
  · intro x
    obtain ⟨h1, h2⟩ := sigmoid_mem x
    have e : sabrScale (toConstrained x b.lower b.upper) b.lower b.upper = 1 / (1 + Real.exp (-x)) := by
      unfold sabrScale toConstrained
      dsimp only
      field_simp
      ring
    unfold toUnconstrained
    dsimp only
    rw [e, if_neg (by rintro (e | e) <;> linarith)]
    congr 1
    have : (1 - 1 / (1 + Real.exp (-x))) / (1 / (1 + Real.exp (-x))) = Real.exp (-x) := by
      have := Real.exp_pos (-x)
      field_simp
      ring
    rw [this, Real.log_exp, neg_neg]

/-- C79: whatever the optimizer returns, the calibrated parameters lie strictly between their bounds, and `beta` is the given one unless it is
to be calibrated. -/
theorem C79_in_bounds (eps : ℝ) (targetVol : SabrQuote → ℝ) (optimizer : (List ℝ → ℝ) → List (Option ℝ) → List ℝ) (a : SabrCalibrationArgs)
    (p : SabrParameters) (h : sabrCalibration eps targetVol optimizer a = .ok p) :
    ((sabrAlpha a).lower < (sabrAlpha a).upper → (sabrAlpha a).lower < p.alpha ∧ p.alpha < (sabrAlpha a).upper) ∧
    (a.volvol.lower < a.volvol.upper → a.volvol.lower < p.volvol ∧ p.volvol < a.volvol.upper) ∧
    (a.rho.lower < a.rho.upper → a.rho.lower < p.rho ∧ p.rho < a.rho.upper) ∧
    (a.calibrateBeta = false → p.beta = a.beta.value) ∧
    (a.calibrateBeta = true → a.beta.lower < a.beta.upper → a.beta.lower < p.beta ∧ p.beta < a.beta.upper) := by
  have hp : p = sabrUnpack a (optimizer (sabrLoss eps targetVol a) (sabrInitialPosition a)) := by
    unfold sabrCalibration at h
    simp only [bind, Except.bind, pure, Except.pure] at h
    split at h
    · cases h
    split at h
    · cases h
    split at h
    · cases h
    split at h
    · cases h
    exact (Except.ok.inj h).symm
  have hc : ∀ x lb ub, lb < ub → lb < toConstrained x lb ub ∧ toConstrained x lb ub < ub := by
    intro x lb ub h
    have : toConstrained x lb ub ∈ Set.Ioo lb ub := by
      rw [← (C79_constrained lb ub h).2]
      exact ⟨x, rfl⟩
    exact this
  subst hp
  refine ⟨hc _ _ _, hc _ _ _, hc _ _ _, fun hb => ?_, fun hb => ?_⟩
  · change (if a.calibrateBeta = true then _ else _) = _
    rw [hb]
    rfl
  · change _ → _ < (if a.calibrateBeta = true then _ else _) ∧ (if a.calibrateBeta = true then _ else _) < _
    rw [if_pos hb]
    exact hc _ _ _

/-- The values to start from. -/
noncomputable def startParameters (a : SabrCalibrationArgs) : SabrParameters where
  alpha := (sabrAlpha a).value
  beta := a.beta.value
  volvol := a.volvol.value
  rho := a.rho.value

/-- A value strictly between its bounds. -/
def Inside (b : Bounded) : Prop := b.lower < b.value ∧ b.value < b.upper

/-- C79: an optimizer which returns its starting point returns the parameters the caller supplied, if these are strictly between their bounds. -/
theorem C79_start (eps : ℝ) (targetVol : SabrQuote → ℝ) (a : SabrCalibrationArgs) (h1 : Inside (sabrAlpha a)) (h2 : Inside a.volvol)
    (h3 : Inside a.rho) (h4 : a.beta.lower ≤ a.beta.value ∧ a.beta.value ≤ a.beta.upper) (h5 : a.calibrateBeta = true → Inside a.beta) :
    sabrCalibration eps targetVol (fun _ x => x.map (·.getD 0)) a = .ok (startParameters a) := by
  have hv : ∀ b m, b.lower ≤ b.value ∧ b.value ≤ b.upper → assertParameterValid a.validateArgs b m = .ok () := by
    intro b m h
    unfold assertParameterValid
    split
    · rw [if_neg (not_lt.2 h.1), if_neg (not_lt.2 h.2)]
    · rfl
  have hi : ∀ b, Inside b → b.lower ≤ b.value ∧ b.value ≤ b.upper := fun b h => ⟨h.1.le, h.2.le⟩
  have hr : ∀ b, Inside b → ∃ x, toUnconstrained b = some x ∧ toConstrained x b.lower b.upper = b.value := fun b h =>
    (C79_round_trip b (h.1.trans h.2)).1 h.1 h.2
  obtain ⟨x1, e1, c1⟩ := hr _ h1
  obtain ⟨x2, e2, c2⟩ := hr _ h2
  obtain ⟨x3, e3, c3⟩ := hr _ h3
  unfold sabrCalibration
  rw [hv _ _ h4, hv _ _ (hi _ h1), hv _ _ (hi _ h2), hv _ _ (hi _ h3)]
  change Except.ok _ = Except.ok _
  congr 1
  unfold sabrUnpack startParameters sabrInitialPosition
  by_cases hb : a.calibrateBeta = true
  · obtain ⟨x4, e4, c4⟩ := hr _ (h5 hb)
    simp only [hb, if_true, e1, e2, e3, e4, List.map_cons, List.map_nil, Option.getD_some]
    simp [c1, c2, c3, c4]
  · simp only [hb, if_false, e1, e2, e3, List.map_cons, List.map_nil, Option.getD_some]
    simp [c1, c2, c3]

/-- C79: the default for `alpha` makes the lognormal volatility at the mean forward 10 per cent, and is strictly between its bounds. -/
theorem C79_default_alpha (a : SabrCalibrationArgs) (h : a.alpha = none) (hm : 0 < (a.quotes.map (·.forward)).sum / a.quotes.length) :
    let F := (a.quotes.map (·.forward)).sum / a.quotes.length
    (sabrAlpha a).value * F ^ (a.beta.value - 1) = 0.1 ∧ Inside (sabrAlpha a) ∧
      (sabrAlpha a).lower = (sabrAlpha a).value / 10 ∧ (sabrAlpha a).upper = 10 * (sabrAlpha a).value := by
  intro F
  have hF : 0 < F := hm
  have e : sabrAlpha a = { value := F ^ (1 - a.beta.value) * 0.1, lower := F ^ (1 - a.beta.value) * 0.1 * 0.1, upper := F ^ (1 - a.beta.value) * 0.1 * 10 } := by
    unfold sabrAlpha
    rw [h]
  rw [e]
  have hp := Real.rpow_pos_of_pos hF (1 - a.beta.value)
  refine ⟨?_, ⟨?_, ?_⟩, ?_, ?_⟩
  · have : F ^ (1 - a.beta.value) * F ^ (a.beta.value - 1) = 1 := by
      rw [← Real.rpow_add hF]
      simp
    linear_combination 0.1 * this
  · dsimp only; nlinarith
  · dsimp only; nlinarith
  · dsimp only; ring
  · dsimp only; ring

theorem mean_sq {α : Type} (l : List α) (f : α → ℝ) :
    0 ≤ (l.map fun q => f q ^ 2).sum / l.length ∧ ((l.map fun q => f q ^ 2).sum / l.length = 0 ↔ ∀ q ∈ l, f q = 0) := by
  have h0 : 0 ≤ (l.map fun q => f q ^ 2).sum := List.sum_nonneg (by
    intro x hx
    obtain ⟨q, _, rfl⟩ := List.mem_map.1 hx
    exact sq_nonneg _)
  refine ⟨by positivity, ?_⟩
  rw [div_eq_zero_iff]
  have hs : (l.map fun q => f q ^ 2).sum = 0 ↔ ∀ q ∈ l, f q = 0 := by
    clear h0
    induction l with
    | nil => simp
    | cons q l ih =>
      have h1 : 0 ≤ (l.map fun q => f q ^ 2).sum := List.sum_nonneg (by
        intro x hx
        obtain ⟨q, _, rfl⟩ := List.mem_map.1 hx
        exact sq_nonneg _)
      rw [List.map_cons, List.sum_cons, add_eq_zero_iff_of_nonneg (sq_nonneg _) h1, ih, List.forall_mem_cons, sq_eq_zero_iff]
  constructor
  · rintro (h | h)
    · exact hs.1 h
    · have : l = [] := List.length_eq_zero_iff.1 (by exact_mod_cast h)
      rw [this]; simp
  · intro h
    exact Or.inl (hs.2 h)

/-- C79: the loss of the volatility based calibration is never negative, and is zero exactly where the model has all the implied volatilities
of the quotes. -/
theorem C79_vol_loss (eps : ℝ) (targetVol : SabrQuote → ℝ) (a : SabrCalibrationArgs) (h : a.volatilityBased = true) (x : List ℝ) :
    0 ≤ sabrLoss eps targetVol a x ∧
    (sabrLoss eps targetVol a x = 0 ↔ ∀ q ∈ a.quotes, sabrImpliedVol eps a.type (sabrQuoteArgs q (sabrUnpack a x)) = targetVol q) := by
  unfold sabrLoss
  rw [if_pos h]
  obtain ⟨h1, h2⟩ := mean_sq a.quotes fun q => targetVol q - sabrImpliedVol eps a.type (sabrQuoteArgs q (sabrUnpack a x))
  refine ⟨h1, h2.trans ?_⟩
  refine forall₂_congr fun q _ => ?_
  rw [sub_eq_zero, eq_comm]

/-- C79: the loss of the price based calibration is never negative, and is zero exactly where the model prices are the quoted ones, if none of
these prices is `-1` or less. -/
theorem C79_price_loss (eps : ℝ) (targetVol : SabrQuote → ℝ) (a : SabrCalibrationArgs) (h : a.volatilityBased = false) (x : List ℝ)
    (hq : ∀ q ∈ a.quotes, -1 < q.price ∧ -1 < sabrValue eps a.type q (sabrUnpack a x)) :
    0 ≤ sabrLoss eps targetVol a x ∧
    (sabrLoss eps targetVol a x = 0 ↔
      ∀ q ∈ a.quotes, sabrOptionPrice eps a.type q.isCall (sabrQuoteArgs q (sabrUnpack a x)) = .ok q.price) := by
  unfold sabrLoss
  rw [if_neg (by rw [h]; simp)]
  obtain ⟨h1, h2⟩ := mean_sq a.quotes fun q => Real.log (1 + sabrValue eps a.type q (sabrUnpack a x)) - Real.log (1 + q.price)
  refine ⟨h1, h2.trans ?_⟩
  refine forall₂_congr fun q hm => ?_
  obtain ⟨b1, b2⟩ := hq q hm
  have hok : ∃ v, sabrOptionPrice eps a.type q.isCall (sabrQuoteArgs q (sabrUnpack a x)) = .ok v := by
    unfold sabrOptionPrice optionPrice
    exact ⟨_, rfl⟩
  obtain ⟨v, hv⟩ := hok
  have e : sabrValue eps a.type q (sabrUnpack a x) = v := by
    unfold sabrValue
    rw [hv]
  rw [hv, e, sub_eq_zero]
  rw [e] at b2
  constructor
  · intro hl
    have := Real.log_injOn_pos (Set.mem_Ioi.2 (by linarith : (0 : ℝ) < 1 + v)) (Set.mem_Ioi.2 (by linarith : (0 : ℝ) < 1 + q.price)) hl
    congr 1
    linarith
  · intro hl
    rw [Except.ok.inj hl]

/-- C79: with `validate_args` the calibration fails exactly if some starting value is outside its bounds; without, it never fails. `beta` is checked
also if it is not calibrated. -/
theorem C79_rejects (eps : ℝ) (targetVol : SabrQuote → ℝ) (optimizer : (List ℝ → ℝ) → List (Option ℝ) → List ℝ) (a : SabrCalibrationArgs) :
    (∃ e, sabrCalibration eps targetVol optimizer a = .error e) ↔
      a.validateArgs = true ∧ ∃ b ∈ [a.beta, sabrAlpha a, a.volvol, a.rho], b.value < b.lower ∨ b.upper < b.value := by
  have hv : ∀ b m, (∃ e, assertParameterValid a.validateArgs b m = .error e) ↔ a.validateArgs = true ∧ (b.value < b.lower ∨ b.upper < b.value) := by
    intro b m
    unfold assertParameterValid
    by_cases h : a.validateArgs = true
    · simp only [h, if_true, true_and]
      by_cases h1 : b.value < b.lower
      · simp [h1]
      · by_cases h2 : b.upper < b.value
        · simp [h1, h2]
        · simp [h1, h2]
    · simp [h]
  have hu : ∀ b m, (¬∃ e, assertParameterValid a.validateArgs b m = .error e) → assertParameterValid a.validateArgs b m = .ok () := by
    intro b m h
    cases hh : assertParameterValid a.validateArgs b m with
    | error e => exact absurd ⟨e, hh⟩ h
    | ok u => rfl
  unfold sabrCalibration
  simp only [List.mem_cons, List.not_mem_nil, or_false, exists_eq_or_imp, exists_eq_left]
  by_cases h1 : ∃ e, assertParameterValid a.validateArgs a.beta "`beta` is invalid!" = .error e
  · have := (hv _ _).1 h1
    obtain ⟨e, he⟩ := h1
    rw [he]
    exact ⟨fun _ => ⟨this.1, Or.inl this.2⟩, fun _ => ⟨e, rfl⟩⟩
  rw [hu _ _ h1]
  rw [hv] at h1
  by_cases h2 : ∃ e, assertParameterValid a.validateArgs (sabrAlpha a) "`alpha` is invalid!" = .error e
  · have := (hv _ _).1 h2
    obtain ⟨e, he⟩ := h2
    rw [he]
    exact ⟨fun _ => ⟨this.1, Or.inr (Or.inl this.2)⟩, fun _ => ⟨e, rfl⟩⟩
  rw [hu _ _ h2]
  rw [hv] at h2
  by_cases h3 : ∃ e, assertParameterValid a.validateArgs a.volvol "`volvol` is invalid!" = .error e
  · have := (hv _ _).1 h3
    obtain ⟨e, he⟩ := h3
    rw [he]
    exact ⟨fun _ => ⟨this.1, Or.inr (Or.inr (Or.inl this.2))⟩, fun _ => ⟨e, rfl⟩⟩
  rw [hu _ _ h3]
  rw [hv] at h3
  by_cases h4 : ∃ e, assertParameterValid a.validateArgs a.rho "`rho` is invalid!" = .error e
  · have := (hv _ _).1 h4
    obtain ⟨e, he⟩ := h4
    rw [he]
    exact ⟨fun _ => ⟨this.1, Or.inr (Or.inr (Or.inr this.2))⟩, fun _ => ⟨e, rfl⟩⟩
  rw [hu _ _ h4]
  rw [hv] at h4
  constructor
  · rintro ⟨e, he⟩
    cases he
  · rintro ⟨b, hb⟩
    exact absurd hb (by tauto)

/-- The default bounds L74-79. -/
noncomputable def defaultBounds (beta volvol rho : ℝ) (quotes : List SabrQuote) : SabrCalibrationArgs where
  quotes := quotes
  beta := { value := beta, lower := 0, upper := 1 }
  volvol := { value := volvol, lower := 0, upper := 1 }
  rho := { value := rho, lower := -1, upper := 1 }

/-- C79: with the default bounds, calibrated parameters are admissible for the pricing formula; but a starting value of zero for the volatility of
the volatility, which the documentation and `validate_args` allow, gives an infinite starting position. -/
theorem C79_zero_start (eps : ℝ) (targetVol : SabrQuote → ℝ) (optimizer : (List ℝ → ℝ) → List (Option ℝ) → List ℝ)
    (beta rho : ℝ) (q : SabrQuote) (hq : 0 < q.forward) (hk : 0 < q.strike) (volvol : ℝ) :
    (∃ p, sabrCalibration eps targetVol optimizer (defaultBounds beta volvol rho [q]) = .ok p ∧ ValidSabr (sabrQuoteArgs q p)) ∧
    (volvol = 0 → (sabrInitialPosition (defaultBounds beta volvol rho [q])).getD 1 (some 0) = none) := by
  constructor
  · have hok : sabrCalibration eps targetVol optimizer (defaultBounds beta volvol rho [q]) = .ok (sabrUnpack (defaultBounds beta volvol rho [q])
        (optimizer (sabrLoss eps targetVol (defaultBounds beta volvol rho [q])) (sabrInitialPosition (defaultBounds beta volvol rho [q])))) := rfl
    refine ⟨_, hok, ?_⟩
    obtain ⟨h1, h2, h3, _⟩ := C79_in_bounds eps targetVol optimizer _ _ hok
    have hm : 0 < (([q] : List SabrQuote).map (·.forward)).sum / (([q] : List SabrQuote).length : ℝ) := by simpa using hq
    obtain ⟨_, d2, d3, _⟩ := C79_default_alpha (defaultBounds beta volvol rho [q]) rfl hm
    have hin := h1 (d2.1.trans d2.2)
    have h0 : 0 < (sabrAlpha (defaultBounds beta volvol rho [q])).lower := by
      have := d2.1
      rw [d3] at this ⊢
      by_contra hneg
      linarith
    refine ⟨by change 0 < q.strike + 0; linarith, by change 0 < q.forward + 0; linarith, h0.trans hin.1, ?_⟩
    have := h3 (by change (-1 : ℝ) < 1; norm_num)
    exact abs_lt.2 this
  · intro hv
    subst hv
    change toUnconstrained { value := 0, lower := 0, upper := 1 } = none
    exact (C79_round_trip { value := 0, lower := 0, upper := 1 } (by norm_num)).2.1.1 (Or.inl rfl)

/-- A correlation of -0.3 between the default bounds. -/
example : ∃ x, toUnconstrained { value := -0.3, lower := -1, upper := 1 } = some x ∧ toConstrained x (-1) 1 = -0.3 :=
  (C79_round_trip { value := -0.3, lower := -1, upper := 1 } (by norm_num)).1 (by norm_num) (by norm_num)

example : sabrAlpha (defaultBounds 1 0.4 0 [{ price := 3, strike := 100, expiry := 1, forward := 90, isCall := true }]) =
    { value := 0.1, lower := 0.01, upper := 1 } := by
  simp only [sabrAlpha, defaultBounds]
  norm_num

end Props
