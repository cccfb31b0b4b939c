import Verif.Model.VanillaPrices
import Verif.Model.Gauss
import Verif.Model.Newton
import Mathlib.Analysis.SpecialFunctions.Pow.Real
import Mathlib.Analysis.SpecialFunctions.Trigonometric.Inverse

/-!
# Model of `tf_quant_finance/black_scholes/approximations/american_option.py`

One element of the batch over the reals. A price the code computes as NaN because of a division of zero by zero is `none`. The
volatility is not zero and spot and strike are positive (divisions by the volatility and logarithms are not guarded in the code).
-/

namespace Model

/-- The discount rate L165-173, L467-479; with a discount factor it is divided by the expiry. -/
noncomputable def amRate (a : BsArgs) : ℝ := (bsDiscounting a).1

/-- The spot price L181-187, L487-494. -/
noncomputable def amSpot (a : BsArgs) : ℝ :=
  match a.forward with
  | some f => f * Real.exp (-(amRate a - a.dividendRate.getD 0) * a.expiry)
  | none => a.spot.getD 0

/-- The European prices L212-220, L250-258, L511-518. -/
noncomputable def amEuropean (volatility strike expiry spot rate dividend : ℝ) (isCall : Option Bool) : Except String ℝ :=
  optionPrice { volatility, strike, expiry, spot := some spot, discountRate := some rate, dividendRate := some dividend, isCall }

/-! ## Bjerksund and Stensland -/

/-- `beta` L546-547, L646-647. -/
noncomputable def bsBeta (r b sigma : ℝ) : ℝ := (0.5 - b / sigma ^ 2) + Real.sqrt ((b / sigma ^ 2 - 0.5) ^ 2 + 2 * r / sigma ^ 2)

/-- `b0` L615, L630, L699. -/
noncomputable def bsB0 (k r b : ℝ) : ℝ := max k (r / (r - b) * k)

/-- `binfinity` L616, L631, L700. -/
noncomputable def bsBInf (k beta : ℝ) : ℝ := beta / (beta - 1) * k

/-- `_boundary_1993` L692-703 and `_boundary2_2002` L623-635. The code computes NaN if the argument of the square root in `beta` is
negative, and for `beta = 1`: then `binfinity` is infinite, `ht` is zero and the last product is infinity times zero. (For `r = b < 0`
the quotient in `b0` is minus infinity and `b0` is `k`, as here, where it is zero.) -/
noncomputable def bsBoundary (k t r b sigma beta : ℝ) : Option ℝ :=
  let b0 := bsB0 k r b
  let binfinity := bsBInf k beta
  if (b / sigma ^ 2 - 0.5) ^ 2 + 2 * r / sigma ^ 2 < 0 ∨ beta = 1 then none
  else
    let ht := -(b * t + 2 * sigma * Real.sqrt t) * (k ^ 2 / ((binfinity - b0) * b0))
    some (b0 + (binfinity - b0) * (1 - Real.exp ht))

/-- The split of the time L544, L613. -/
noncomputable def bsT1 (t : ℝ) : ℝ := 0.5 * (Real.sqrt 5 - 1) * t

/-- `_boundary1_2002` L603-620. -/
noncomputable def bsBoundary1 (k t r b sigma beta : ℝ) : Option ℝ := bsBoundary k (t - bsT1 t) r b sigma beta

/-- `_phi_1993` L674-689. -/
noncomputable def bsPhi (s t gamma h x r b sigma : ℝ) : ℝ :=
  let kappa := 2 * b / sigma ^ 2 + (2 * gamma - 1)
  let d1 := -(Real.log (s / h) + (b + (gamma - 0.5) * sigma ^ 2) * t) / (sigma * Real.sqrt t)
  let d2 := -(Real.log (x ^ 2 / (s * h)) + (b + (gamma - 0.5) * sigma ^ 2) * t) / (sigma * Real.sqrt t)
  let lambd := -r + gamma * b + 0.5 * gamma * (gamma - 1) * sigma ^ 2
  Real.exp (lambd * t) * s ^ gamma * (ncdf d1 - (x / s) ^ kappa * ncdf d2)

/-- The last branch of `_call_1993` L653-671, for the boundary `x`. -/
noncomputable def bsContinuation1993 (s k t r b sigma beta x : ℝ) : ℝ :=
  let alpha := (x - k) * x ^ (-beta)
  alpha * s ^ beta - alpha * bsPhi s t beta x x r b sigma + bsPhi s t 1 x x r b sigma - bsPhi s t 1 k x r b sigma
    - k * bsPhi s t 0 x x r b sigma + k * bsPhi s t 0 k x r b sigma

/-- `_call_1993` L638-671. -/
noncomputable def bsCall1993 (s k t r b sigma : ℝ) : Option ℝ :=
  let beta := bsBeta r b sigma
  (bsBoundary k t r b sigma beta).map fun x => if s ≥ x then s - k else bsContinuation1993 s k t r b sigma beta x

/-- `_cbnd` L714-781: the bivariate normal distribution function, by a Gauss-Legendre rule with 20 points. -/
noncomputable def cbnd (dh dk rho : ℝ) : ℝ :=
  let h := -dh
  let k := -dk
  let hk := h * k
  let hs := (h * h + k * k) / 2
  let asr := Real.arcsin rho
  let integrand := fun x : ℝ =>
    let sn1 := Real.sin (asr * (1 * x + 1) / 2)
    Real.exp ((hk * sn1 - hs) / (1 - sn1 * sn1))
  ((gaussLegendre integrand (-1) 1 20).getD 0) * asr / (4 * Real.pi) + ncdf (-h) * ncdf (-k)

/-- `_psi_2002` L572-600. -/
noncomputable def bsPsi (s t gamma h x2 x1 t1 r b sigma : ℝ) : ℝ :=
  let d1 := -(Real.log (s / x1) + (b + (gamma - 0.5) * sigma ^ 2) * t1) / (sigma * Real.sqrt t1)
  let d2 := -(Real.log (x2 ^ 2 / (s * x1)) + (b + (gamma - 0.5) * sigma ^ 2) * t1) / (sigma * Real.sqrt t1)
  let d3 := -(Real.log (s / x1) - (b + (gamma - 0.5) * sigma ^ 2) * t1) / (sigma * Real.sqrt t1)
  let d4 := -(Real.log (x2 ^ 2 / (s * x1)) - (b + (gamma - 0.5) * sigma ^ 2) * t1) / (sigma * Real.sqrt t1)
  let f1 := -(Real.log (s / h) + (b + (gamma - 0.5) * sigma ^ 2) * t) / (sigma * Real.sqrt t)
  let f2 := -(Real.log (x2 ^ 2 / (s * h)) + (b + (gamma - 0.5) * sigma ^ 2) * t) / (sigma * Real.sqrt t)
  let f3 := -(Real.log (x1 ^ 2 / (s * h)) + (b + (gamma - 0.5) * sigma ^ 2) * t) / (sigma * Real.sqrt t)
  let f4 := -(Real.log (s * x1 ^ 2 / (h * x2 ^ 2)) + (b + (gamma - 0.5) * sigma ^ 2) * t) / (sigma * Real.sqrt t)
  let kappa := 2 * b / sigma ^ 2 + (2 * gamma - 1)
  let lambd := -r + gamma * b + 0.5 * gamma * (gamma - 1) * sigma ^ 2
  Real.exp (lambd * t) * s ^ gamma *
    (cbnd d1 f1 (Real.sqrt (t1 / t)) - (x2 / s) ^ kappa * cbnd d2 f2 (Real.sqrt (t1 / t))
      - (x1 / s) ^ kappa * cbnd d3 f3 (-Real.sqrt (t1 / t)) + (x1 / x2) ^ kappa * cbnd d4 f4 (-Real.sqrt (t1 / t)))

/-- The last branch of `_call_2002` L558-569, for the boundaries `x1` and `x2`. -/
noncomputable def bsContinuation2002 (s k t r b sigma beta x1 x2 : ℝ) : ℝ :=
  let t1 := bsT1 t
  let alpha1 := (x1 - k) * x1 ^ (-beta)
  let alpha2 := (x2 - k) * x2 ^ (-beta)
  alpha2 * s ^ beta - alpha2 * bsPhi s t1 beta x2 x2 r b sigma
    + bsPhi s t1 1 x2 x2 r b sigma - bsPhi s t1 1 x1 x2 r b sigma
    - k * bsPhi s t1 0 x2 x2 r b sigma + k * bsPhi s t1 0 x1 x2 r b sigma
    + alpha1 * bsPhi s t1 beta x1 x2 r b sigma - alpha1 * bsPsi s t beta x1 x2 x1 t1 r b sigma
    + bsPsi s t 1 x1 x2 x1 t1 r b sigma - bsPsi s t 1 k x2 x1 t1 r b sigma
    - k * bsPsi s t 0 x1 x2 x1 t1 r b sigma + k * bsPsi s t 0 k x2 x1 t1 r b sigma

/-- `_call_2002` L537-569. -/
noncomputable def bsCall2002 (s k t r b sigma : ℝ) : Option ℝ :=
  let beta := bsBeta r b sigma
  (bsBoundary1 k t r b sigma beta).bind fun x1 => (bsBoundary k t r b sigma beta).map fun x2 =>
    if s ≥ x2 then s - k else bsContinuation2002 s k t r b sigma beta x1 x2

/-- The model chosen by `modified_boundary` L502-505. -/
noncomputable def bsCall (modified : Bool) (s k t r b sigma : ℝ) : Option ℝ :=
  if modified then bsCall2002 s k t r b sigma else bsCall1993 s k t r b sigma

/-- `bjerksund_stensland` L353-534. -/
noncomputable def bjerksundStensland (a : BsArgs) (modified : Bool := true) : Except String (Option ℝ) := do
  bsCheck a
  let rate := amRate a
  let dividend := a.dividendRate.getD 0
  let carry := rate - dividend
  let spot := amSpot a
  let isCall := a.isCall.getD true
  if carry ≥ rate ∧ isCall = true then do
    let price ← amEuropean a.volatility a.strike a.expiry spot rate dividend (some isCall)
    return some price
  else if isCall then
    return if a.expiry > 0 then bsCall modified spot a.strike a.expiry rate carry a.volatility else some (max (spot - a.strike) 0)
  else
    return if a.expiry > 0 then bsCall modified a.strike spot a.expiry (rate - carry) (-carry) a.volatility
      else some (max (a.strike - spot) 0)

/-! ## Barone-Adesi and Whaley -/

/-- `_calc_d1` L343-345. -/
noncomputable def awD1 (s x sigma b t : ℝ) : ℝ := (Real.log (s / x) + (b + sigma ^ 2 / 2) * t) / (sigma * Real.sqrt t)

/-- `_calc_q` L348-350; `divide_no_nan` is Lean's division. -/
noncomputable def awQ (n m sign : ℝ) (k : ℝ := 1) : ℝ := ((1 - n) + sign * Real.sqrt ((n - 1) ^ 2 + 4 * m / k)) / 2

/-- `sign` L235-236. -/
def awSign (isCall : Bool) : ℝ := if isCall then 1 else -1

/-- `q` L292-295. -/
noncomputable def awExponent (sigma t r d sign : ℝ) : ℝ :=
  awQ (2 * (r - d) / sigma ^ 2) (2 * r / sigma ^ 2) sign (1 - Real.exp (-r * t))

/-- `a` L335-338. -/
noncomputable def awCoefficient (sigma x t r d sign sCrit : ℝ) : ℝ :=
  sign * (sCrit / awExponent sigma t r d sign) * (1 - Real.exp (-d * t) * ncdf (sign * awD1 sCrit x sigma (r - d) t))

/-- `value_fn` L297-309. -/
noncomputable def awValue (sigma x t r d : ℝ) (isCall : Bool) (sCrit : ℝ) : Except String ℝ := do
  let price ← amEuropean sigma x t sCrit r d (some isCall)
  let sign := awSign isCall
  return price + sign * (1 - Real.exp (-d * t) * ncdf (sign * awD1 sCrit x sigma (r - d) t)) * (sCrit / awExponent sigma t r d sign)
    - sign * (sCrit - x)

/-- `s_inf` L317-319. -/
noncomputable def awSInf (sigma x r d sign : ℝ) : ℝ :=
  x / (1 - 1 / awQ (2 * (r - d) / sigma ^ 2) (2 * r / sigma ^ 2) sign)

/-- `s_seed` L320-326. -/
noncomputable def awSeed (sigma x t r d : ℝ) (isCall : Bool) : ℝ :=
  let sign := awSign isCall
  let sInf := awSInf sigma x r d sign
  let h := -(sign * (r - d) * t + 2 * sigma * Real.sqrt t) * sign * (x / (sInf - x))
  if isCall then x + (sInf - x) * (1 - Real.exp h) else sInf + (x - sInf) * Real.exp h

/-- `value_and_gradient_func` L311-312: the value and its derivative, not finite where the spot is not positive (the logarithm). -/
noncomputable def awValueAndGrad (sigma x t r d : ℝ) (isCall : Bool) : ValueAndGrad ℝ := fun s =>
  if 0 < s then
    (some (((awValue sigma x t r d isCall s).toOption).getD 0),
      some (deriv (fun s => ((awValue sigma x t r d isCall s).toOption).getD 0) s))
  else (none, none)

/-- The root search L328-333, with the relative tolerance of `root_finder`. -/
noncomputable def awCritical (sigma x t r d : ℝ) (isCall : Bool) (rel tol : ℝ) (maxIterations : Nat) : NewtonCell ℝ :=
  ((rootFinder rel tol maxIterations [awValueAndGrad sigma x t r d isCall] [some (awSeed sigma x t r d isCall)])[0]?).getD
    ⟨none, false, true⟩

/-- The continuation value L266. -/
noncomputable def awContinuation (sigma x t r d : ℝ) (isCall : Bool) (sCrit s : ℝ) : Except String ℝ := do
  let price ← amEuropean sigma x t s r d (some isCall)
  return price + awCoefficient sigma x t r d (awSign isCall) sCrit * (s / sCrit) ^ awExponent sigma t r d (awSign isCall)

/-- `_adesi_whaley` L227-271, for a critical value found by the search. -/
noncomputable def awPrice (sigma x t r d : ℝ) (isCall : Bool) (sCrit s : ℝ) : Except String ℝ := do
  let continuation ← awContinuation sigma x t r d isCall sCrit s
  return if t > 0 then (if (if isCall then s < sCrit else s > sCrit) then continuation else (s - x) * awSign isCall)
    else if isCall then max (s - x) 0 else max (x - s) 0

/-- The selection of the price L264-269: a critical value that is not a number compares as false, so the exercise value is returned. -/
noncomputable def awSelect (sigma x t r d : ℝ) (isCall : Bool) (sCrit : Option ℝ) (s : ℝ) : Except String ℝ :=
  match sCrit with
  | some sCrit => awPrice sigma x t r d isCall sCrit s
  | none => .ok (if t > 0 then (s - x) * awSign isCall else if isCall then max (s - x) 0 else max (x - s) 0)

/-- `adesi_whaley` L37-224: price, `converged` and `failed`. -/
noncomputable def adesiWhaley (a : BsArgs) (maxIterations : Nat := 100) (rel tol : ℝ) : Except String (ℝ × Bool × Bool) := do
  bsCheck a
  let rate := amRate a
  let dividend := a.dividendRate.getD 0
  let spot := amSpot a
  let isCall := a.isCall.getD true
  let cell := awCritical a.volatility a.strike a.expiry rate dividend isCall rel tol maxIterations
  let american ← awSelect a.volatility a.strike a.expiry rate dividend isCall cell.parameter spot
  let european ← amEuropean a.volatility a.strike a.expiry spot rate dividend none
  let calculateEu : Bool := isCall && decide (dividend ≤ 0)
  return (if calculateEu then european else american, if calculateEu then true else cell.converged,
    if calculateEu then false else cell.failed)

end Model
