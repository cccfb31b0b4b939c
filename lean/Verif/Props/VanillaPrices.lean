import Verif.Lemmas.VanillaPrices
import Verif.Spec.Payoffs
import Verif.Props.Crr
import Mathlib.Analysis.Calculus.Deriv.MeanValue

/-! # C31, C32 Black-Scholes prices of European, binary and asset-or-nothing options, and swaptions -/

namespace Spec
open Model

/-- The discount factor described by the arguments: from a continuously compounded rate, given directly, or 1. -/
noncomputable def discount (a : BsArgs) : ℝ :=
  match a.discountRate, a.discountFactor with
  | some r, _ => Real.exp (-(r * a.expiry))
  | none, some df => df
  | none, none => 1

/-- The forward price described by the arguments: given directly, or the spot less dividends, carried to expiry. -/
noncomputable def forward (a : BsArgs) : ℝ :=
  match a.forward with
  | some f => f
  | none => a.spot.getD 0 * Real.exp (-(a.dividendRate.getD 0 * a.expiry)) / discount a

/-- Standard deviation of the (log-)price at expiry. -/
noncomputable def stdDev (a : BsArgs) : ℝ := a.volatility * Real.sqrt a.expiry

/-- The arguments the documentation allows: one of spot and forward, at most one of rate and discount factor, nothing
negative, and a positive expiry if the rate has to be derived from a discount factor. -/
structure ValidArgs (a : BsArgs) : Prop where
  one : a.spot.isSome ≠ a.forward.isSome
  atMostOne : ¬(a.discountRate.isSome = true ∧ a.discountFactor.isSome = true)
  volatility : 0 ≤ a.volatility
  expiry : 0 ≤ a.expiry
  factor : ∀ df, a.discountFactor = some df → 0 < df ∧ (a.forward = none → 0 < a.expiry)

/-- Expectation under the law the arguments ask for. -/
noncomputable def expectation (a : BsArgs) (f : ℝ → ℝ) : ℝ :=
  if a.isNormal then normalExpectation (forward a) (stdDev a) f else lognormalExpectation (forward a) (stdDev a) f

/-- The lognormal law needs a positive forward and a positive strike. -/
def Positive (a : BsArgs) : Prop := a.isNormal = false → 0 < forward a ∧ 0 < a.strike

end Spec

namespace Lemmas
open Model Spec

theorem bsCheck_ok (a : BsArgs) (h : ValidArgs a) : bsCheck a = .ok () := by
  unfold bsCheck
  have h1 := h.one
  have h2 := h.atMostOne
  rcases hs : a.spot with _ | s <;> rcases hf : a.forward with _ | f <;> simp_all

theorem discount_eq (a : BsArgs) : (bsDiscounting a).2 = discount a := by
  unfold bsDiscounting discount
  rcases a.discountRate with _ | r
  · rcases a.discountFactor with _ | df <;> rfl
  · simp

theorem discount_pos (a : BsArgs) (h : ValidArgs a) : 0 < discount a := by
  unfold discount
  rcases hr : a.discountRate with _ | r
  · rcases hd : a.discountFactor with _ | df
    · simp
    · exact (h.factor df hd).1
  · simp only; exact Real.exp_pos _

theorem forward_eq (a : BsArgs) (h : ValidArgs a) : bsForward a = forward a := by
  unfold bsForward forward
  rcases hf : a.forward with _ | f
  · simp only
    rw [sub_mul, Real.exp_sub, mul_div_assoc', Real.exp_neg]
    have hrate : Real.exp ((bsDiscounting a).1 * a.expiry) = (discount a)⁻¹ := by
      unfold bsDiscounting discount
      rcases hr : a.discountRate with _ | r
      · rcases hd : a.discountFactor with _ | df
        · simp
        · obtain ⟨h1, h2⟩ := h.factor df hd
          simp only
          rw [div_mul_cancel₀ _ (h2 hf).ne', Real.exp_neg, Real.exp_log h1]
      · simp only
        rw [Real.exp_neg, inv_inv]
    rw [hrate]
    field_simp
  · rfl

theorem stdDev_nonneg (a : BsArgs) (h : ValidArgs a) : 0 ≤ stdDev a := mul_nonneg h.volatility (Real.sqrt_nonneg _)

theorem vanilla_kink_call (K : ℝ) : KinkPayoff (vanillaPayoff true K) K 0 0 1 (-K) := by
  constructor
  intro x
  simp only [vanillaPayoff, if_true]
  split
  · rw [max_eq_left (by linarith)]; ring
  · rw [max_eq_right (by linarith)]; ring

theorem vanilla_kink_put (K : ℝ) : KinkPayoff (vanillaPayoff false K) K (-1) K 1 (-K) := by
  constructor
  intro x
  simp only [vanillaPayoff, Bool.false_eq_true, if_false]
  split
  · rw [max_eq_right (by linarith)]; ring
  · rw [max_eq_left (by linarith)]; ring

theorem binary_kink_call (K : ℝ) : KinkPayoff (binaryPayoff true K) K 0 0 0 1 := by
  constructor; intro x; simp only [binaryPayoff, if_true]; split <;> ring

theorem binary_kink_put (K : ℝ) : KinkPayoff (binaryPayoff false K) K 0 1 0 (-1) := by
  constructor; intro x; simp only [binaryPayoff, Bool.false_eq_true, if_false]; split <;> ring

theorem asset_kink_call (K : ℝ) : KinkPayoff (assetPayoff true K) K 0 0 1 0 := by
  constructor; intro x; simp only [assetPayoff, if_true]; split <;> ring

theorem asset_kink_put (K : ℝ) : KinkPayoff (assetPayoff false K) K 1 0 (-1) 0 := by
  constructor; intro x; simp only [assetPayoff, Bool.false_eq_true, if_false]; split <;> ring

theorem phi_code (d : ℝ) (s : ℝ) : s * Real.exp (-0.5 * d ^ 2) / Real.sqrt (2 * Real.pi) = s * phi d := by
  rw [phi_eq, show (-0.5 : ℝ) * d ^ 2 = -d ^ 2 / 2 by ring]
  ring

/-- All payoffs at once: the expectation by the sign of the standard deviation and the law. -/
theorem expectation_kink {a : BsArgs} (h : ValidArgs a) (hp : Positive a) {f : ℝ → ℝ} {α β γ δ : ℝ}
    (hk : KinkPayoff f a.strike α β γ δ) :
    expectation a f = if stdDev a > 0 then
        (if a.isNormal then α * forward a + β + γ * (forward a * normalCdf ((forward a - a.strike) / stdDev a) +
            stdDev a * phi ((forward a - a.strike) / stdDev a)) + δ * normalCdf ((forward a - a.strike) / stdDev a)
          else α * forward a + β + γ * (forward a * normalCdf (Real.log (forward a / a.strike) / stdDev a + stdDev a / 2)) +
            δ * normalCdf (Real.log (forward a / a.strike) / stdDev a - stdDev a / 2))
      else f (forward a) := by
  unfold expectation
  rcases hn : a.isNormal with _ | _
  · obtain ⟨h1, h2⟩ := hp hn
    simp only [Bool.false_eq_true, if_false]
    split
    · rename_i hs
      exact lognormalExpectation_kink hk h1 h2 hs
    · rename_i hs
      have : stdDev a = 0 := le_antisymm (not_lt.mp hs) (stdDev_nonneg a h)
      rw [this, lognormalExpectation_zero _ h1]
  · simp only [if_true]
    split
    · rename_i hs
      exact normalExpectation_kink hk hs
    · rename_i hs
      have : stdDev a = 0 := le_antisymm (not_lt.mp hs) (stdDev_nonneg a h)
      rw [this, normalExpectation_zero]

end Lemmas

namespace Props
open Model Lemmas Spec

/-- C31: the price is the discount factor times the expected payoff, under the lognormal or the normal law with mean equal to
the forward price. -/
theorem C31_expectation (a : BsArgs) (h : ValidArgs a) (hp : Positive a) :
    optionPrice a = .ok (discount a * expectation a (vanillaPayoff (a.isCall.getD true) a.strike)) := by
  unfold optionPrice
  rw [bsCheck_ok a h]
  simp only [discount_eq, forward_eq a h, ncdf_eq, phi_code]
  change (match a.isCall with | none => _ | some isCall => _ : Except String ℝ) = _
  have hd2 : ∀ x y : ℝ, x / y + y / 2 - y = x / y - y / 2 := by intro x y; ring
  rcases hc : a.isCall with _ | c
  · simp only [Option.getD_none]
    rw [expectation_kink h hp (vanilla_kink_call a.strike)]
    change Except.ok _ = Except.ok _
    congr 2
    unfold stdDev
    rcases a.isNormal with _ | _
    · simp only [if_true, hd2, Bool.false_eq_true, if_false]
      split
      · ring
      · simp [vanillaPayoff]
    · simp only [if_true, hd2, Bool.true_eq_false, if_false]
      split
      · ring
      · simp [vanillaPayoff]
  · simp only [Option.getD_some]
    change Except.ok _ = Except.ok _
    congr 2
    rcases c with _ | _
    · rw [expectation_kink h hp (vanilla_kink_put a.strike)]
      unfold stdDev
      rcases a.isNormal with _ | _
      · simp only [if_true, hd2, Bool.false_eq_true, if_false]
        split
        · ring
        · have := payoff_parity a.strike (forward a)
          simp only [vanillaPayoff, if_true, Bool.false_eq_true, if_false] at this ⊢
          linarith
      · simp only [if_true, hd2, Bool.true_eq_false, if_false, Bool.false_eq_true]
        split
        · ring
        · have := payoff_parity a.strike (forward a)
          simp only [vanillaPayoff, if_true, Bool.false_eq_true, if_false] at this ⊢
          linarith
    · rw [expectation_kink h hp (vanilla_kink_call a.strike)]
      unfold stdDev
      rcases a.isNormal with _ | _
      · simp only [if_true, hd2, Bool.false_eq_true, if_false]
        split
        · ring
        · simp [vanillaPayoff]
      · simp only [if_true, hd2, Bool.true_eq_false, if_false]
        split
        · ring
        · simp [vanillaPayoff]

/-- C31: the arguments are rejected exactly when both or neither of spot and forward, or both rate and factor are given. -/
theorem C31_rejects (a : BsArgs) :
    (∃ e, optionPrice a = .error e) ↔
      (a.spot.isSome = a.forward.isSome ∨ (a.discountRate.isSome = true ∧ a.discountFactor.isSome = true)) := by
  unfold optionPrice bsCheck
  rcases a.spot with _ | s <;> rcases a.forward with _ | f <;> rcases a.discountRate with _ | r <;>
    rcases a.discountFactor with _ | df <;> rcases a.isCall with _ | c <;>
    simp [bind, Except.bind, pure, Except.pure]

/-- C31: put-call parity. -/
theorem C31_put_call_parity (a : BsArgs) (h : ValidArgs a) :
    ∃ c p, optionPrice { a with isCall := some true } = .ok c ∧ optionPrice { a with isCall := some false } = .ok p ∧
      c - p = discount a * (forward a - a.strike) := by
  have hf : bsForward a = forward a := forward_eq a h
  have hd : (bsDiscounting a).2 = discount a := discount_eq a
  unfold optionPrice
  have h1 : bsCheck { a with isCall := some true } = .ok () := bsCheck_ok a h
  have h2 : bsCheck { a with isCall := some false } = .ok () := bsCheck_ok a h
  rw [h1, h2]
  refine ⟨_, _, rfl, rfl, ?_⟩
  have hf' : ∀ b, bsForward { a with isCall := b } = forward a := fun _ => hf
  have hd' : ∀ b, (bsDiscounting { a with isCall := b }).2 = discount a := fun _ => hd
  simp only [Bool.false_eq_true, if_false, if_true, hf', hd']
  ring

/-- C31: no-arbitrage bounds. A call is worth at least its discounted intrinsic value and, in the lognormal model, at most
the discounted forward; a put is worth at least its discounted intrinsic value and, in the lognormal model, at most the
discounted strike. -/
theorem C31_bounds (a : BsArgs) (h : ValidArgs a) (hp : Positive a) :
    ∃ v, optionPrice a = .ok v ∧ discount a * vanillaPayoff (a.isCall.getD true) a.strike (forward a) ≤ v ∧
      (a.isNormal = false → v ≤ discount a * if a.isCall.getD true then forward a else a.strike) := by
  refine ⟨_, C31_expectation a h hp, ?_⟩
  have hD := discount_pos a h
  have hnn : ∀ b : Bool, 0 ≤ expectation a (vanillaPayoff b a.strike) := by
    intro b
    unfold expectation
    split
    · exact normalExpectation_nonneg _ _ _ (fun x => vanillaPayoff_nonneg _ _ _)
    · exact normalExpectation_nonneg _ _ _ (fun x => vanillaPayoff_nonneg _ _ _)
  have hpar : expectation a (vanillaPayoff true a.strike) - expectation a (vanillaPayoff false a.strike) =
      forward a - a.strike := by
    rw [expectation_kink h hp (vanilla_kink_call a.strike), expectation_kink h hp (vanilla_kink_put a.strike)]
    split
    · split <;> ring
    · exact payoff_parity _ _
  have hupper : a.isNormal = false → expectation a (vanillaPayoff true a.strike) ≤ forward a := by
    intro hn
    obtain ⟨hF, hK⟩ := hp hn
    rw [expectation_kink h hp (vanilla_kink_call a.strike)]
    split
    · simp only [hn, Bool.false_eq_true, if_false]
      have h1 := normalCdf_lt_one (Real.log (forward a / a.strike) / stdDev a + stdDev a / 2)
      have h2 := normalCdf_pos (Real.log (forward a / a.strike) / stdDev a - stdDev a / 2)
      nlinarith
    · simp only [vanillaPayoff, if_true]
      exact max_le (by linarith) hF.le
  have hc := hnn true
  have hpu := hnn false
  constructor
  · apply mul_le_mul_of_nonneg_left _ hD.le
    rcases a.isCall.getD true with _ | _
    · simp only [vanillaPayoff, Bool.false_eq_true, if_false] at hpu hpar ⊢
      exact max_le (by linarith) hpu
    · rw [show vanillaPayoff true a.strike (forward a) = max (forward a - a.strike) 0 by simp [vanillaPayoff]]
      exact max_le (by linarith) hc
  · intro hn
    apply mul_le_mul_of_nonneg_left _ hD.le
    have := hupper hn
    rcases a.isCall.getD true with _ | _
    · simp only [Bool.false_eq_true, if_false]; linarith
    · simpa using this

/-- Valid arguments with a spot, a rate and dividends. -/
noncomputable def exArgs : BsArgs :=
  { volatility := 1 / 5
    strike := 100
    expiry := 4
    spot := some 90
    discountRate := some (1 / 20)
    dividendRate := some (1 / 50) }

theorem exArgs_valid : ValidArgs exArgs ∧ Positive exArgs ∧ stdDev exArgs = 2 / 5 := by
  refine ⟨⟨by simp [exArgs], by simp [exArgs], by norm_num [exArgs], by norm_num [exArgs], by simp [exArgs]⟩, ?_, ?_⟩
  · intro _
    refine ⟨?_, by norm_num [exArgs]⟩
    simp only [forward, exArgs, Option.getD_some, discount]
    positivity
  · have : Real.sqrt 4 = 2 := by rw [show (4 : ℝ) = 2 ^ 2 by norm_num]; exact Real.sqrt_sq (by norm_num)
    simp only [stdDev, exArgs, this]; norm_num

example : ValidArgs exArgs ∧ Positive exArgs := ⟨exArgs_valid.1, exArgs_valid.2.1⟩

/-- The expectation is a genuine one: at the money with deviation `s` a call is worth the forward times `2 Φ(s/2) - 1`. -/
example (F s : ℝ) (hF : 0 < F) (hs : 0 < s) :
    lognormalExpectation F s (vanillaPayoff true F) = F * (2 * normalCdf (s / 2) - 1) := by
  rw [lognormalExpectation_kink (vanilla_kink_call F) hF hF hs, div_self hF.ne', Real.log_one, zero_div, zero_add, zero_sub,
    normalCdf_neg]
  ring

end Props
