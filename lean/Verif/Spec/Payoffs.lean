import Mathlib.Data.Real.Basic

/-! Payoffs of European options at expiry. -/

namespace Spec

/-- Payoff of a vanilla option. -/
noncomputable def vanillaPayoff (isCall : Bool) (strike spot : ℝ) : ℝ :=
  if isCall then max (spot - strike) 0 else max (strike - spot) 0

/-- Payoff of a cash-or-nothing option: a call pays one unit above the strike, a put pays one unit at or below it. -/
noncomputable def binaryPayoff (isCall : Bool) (strike spot : ℝ) : ℝ :=
  if isCall then (if strike < spot then 1 else 0) else (if strike < spot then 0 else 1)

/-- Payoff of an asset-or-nothing option: a call pays the asset above the strike, a put pays it at or below it. -/
noncomputable def assetPayoff (isCall : Bool) (strike spot : ℝ) : ℝ :=
  if isCall then (if strike < spot then spot else 0) else (if strike < spot then 0 else spot)

end Spec
