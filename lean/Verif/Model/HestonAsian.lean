import Verif.Model.HestonOption
import Verif.Model.AsianPrices
import Mathlib.Analysis.SpecialFunctions.Trigonometric.Basic

/-!
# Model of `tf_quant_finance/models/heston/approximations/asian_prices.py`

One option, real and complex numbers for the floating point ones; `tf.math.sqrt` and `tf.math.log` of a complex number are the principal values.
-/

namespace Model

/-- The members of `_AsianPricesHandler` L401-420 which are used: `params` holds `variances`, `mean_reversion`, `theta`, `volvol` and `rho`, `times` the sampling
times after the start (the negative ones for past fixings, L306-310, are only counted), `fixingCount` is `k_star`; the start is zero. -/
structure HestonAsian where
  params : HestonOptionParams
  spot : ℝ
  discountRate : ℝ
  dividendRate : ℝ
  strike : ℝ
  expiry : ℝ
  times : List ℝ
  fixingCount : Nat

namespace HestonAsian
variable (h : HestonAsian)

/-- `n` L296. -/
def n : Nat := h.times.length + h.fixingCount

/-- `tau_k` L293: the start, the sampling times and the expiry. -/
noncomputable def tau (q : Nat) : ℝ := (0 :: (h.times ++ [h.expiry])).getD q 0

/-- `d_tau_k` L327. -/
noncomputable def dTau (q : Nat) : ℝ := h.tau (q + 1) - h.tau q

/-- The root in `f` and `f_tilde` L424-425. -/
noncomputable def root (z1 : ℂ) : ℂ := ((h.params.meanReversion : ℂ) ^ 2 - 2 * z1 * (h.params.volvol : ℂ) ^ 2) ^ ((2 : ℕ)⁻¹ : ℂ)

/-- `f` L422-431. If the root is zero the code computes `0 / 0`. -/
noncomputable def f (z1 z2 : ℂ) (tau : ℝ) : ℂ :=
  Complex.cosh (1 / 2 * tau * h.root z1) +
    (h.params.meanReversion - z2 * (h.params.volvol : ℂ) ^ 2) * Complex.sinh (1 / 2 * tau * h.root z1) / h.root z1

/-- `f_tilde` L433-442. -/
noncomputable def fTilde (z1 z2 : ℂ) (tau : ℝ) : ℂ :=
  1 / 2 * h.root z1 * Complex.sinh (1 / 2 * tau * h.root z1) +
    1 / 2 * ((h.params.meanReversion - z2 * (h.params.volvol : ℂ) ^ 2) * Complex.cosh (1 / 2 * tau * h.root z1))

/-- `mod_drift` L446-448. -/
noncomputable def modDrift : ℝ := h.discountRate - h.dividendRate - h.params.rho * h.params.meanReversion * h.params.theta / h.params.volvol

/-- `a` L444-463, with `start_times` zero. -/
noncomputable def a (s w : ℂ) : ℂ :=
  (s * ((h.n : ℂ) - h.fixingCount) / h.n + w) *
      ((Real.log h.spot : ℂ) - h.params.rho * h.params.variance / h.params.volvol - 0 * h.modDrift) +
    (s * (h.times.sum : ℝ) / h.n + w * h.expiry) * h.modDrift

/-- `z` L465-476, the entry `q` (`k = k_star + 1 + q`, L329). -/
noncomputable def z (s w : ℂ) (q : Nat) : ℂ :=
  let k := ((h.n : ℂ) - ((h.fixingCount : ℂ) + 1 + q) + 1) * s + h.n * w
  1 / 2 * ((2 * h.params.rho * h.params.meanReversion - h.params.volvol) * k / (h.params.volvol * h.n) +
    (1 - (h.params.rho : ℂ) ^ 2) * k ^ 2 / (h.n : ℂ) ^ 2)

/-- `omega_k` L478-496, the row `q`: one row for the start, one for each sampling time and one for the expiry. -/
noncomputable def omega (s w : ℂ) (q : Nat) : ℂ :=
  if q = 0 then 0 * s
  else if q ≤ h.n - h.fixingCount then h.params.rho / (h.params.volvol * h.n) * s
  else h.params.rho / h.params.volvol * w

/-- The loop of `omega_tilde_k` L510-533 after `j + 1` passes: the row `x0 - j`, where `x0` is the number of sampling times plus one. -/
noncomputable def omegaLoop (s w : ℂ) : Nat → ℂ
  | 0 => h.omega s w (h.times.length + 1)
  | j + 1 =>
    let q := h.times.length - j
    let last := omegaLoop s w j
    h.omega s w q + h.params.meanReversion / (h.params.volvol : ℂ) ^ 2 -
      2 * h.fTilde (h.z s w q) last (h.dTau q) / (h.f (h.z s w q) last (h.dTau q) * (h.params.volvol : ℂ) ^ 2)

/-- `omega_tilde_k` L498-536, the row `q`. -/
noncomputable def omegaTilde (s w : ℂ) (q : Nat) : ℂ := h.omegaLoop s w (h.times.length + 1 - q)

/-- `phi` L538-555. -/
noncomputable def phi (s w : ℂ) : ℂ :=
  let tte := h.expiry - 0
  let term1 := h.a s w + h.omegaTilde s w 0 * h.params.variance
  let term2 := (h.params.meanReversion : ℂ) ^ 2 * h.params.theta * (tte : ℝ) / (h.params.volvol : ℂ) ^ 2
  let term3 := 2 * h.params.meanReversion * h.params.theta / (h.params.volvol : ℂ) ^ 2
  let summation := ((List.range (h.times.length + 1)).map fun q => Complex.log (h.f (h.z s w q) (h.omegaTilde s w (q + 1)) (h.dTau q))).sum
  Complex.exp (term1 + term2 - term3 * summation)

/-- `integrand` L557-566. -/
noncomputable def integrand (x : ℝ) : ℝ :=
  let term1 := h.phi (1 + x * Complex.I) 0 - h.strike * h.phi (x * Complex.I) 0
  let term2 := Complex.exp (-Complex.I * x * (Real.log h.strike : ℝ)) / (x * Complex.I)
  (term1 * term2).re

open Classical in
/-- `asian_forward` L376-377. If one of the roots is zero it is NaN. -/
noncomputable def forward : Option ℝ :=
  if ∃ q ≤ h.times.length, h.root (h.z 1 0 q) = 0 then none else some (h.phi 1 0).re

end HestonAsian

/-- The arguments of `asian_option_price` L30-52. -/
structure HestonAsianArgs where
  params : HestonOptionParams
  strike : ℝ
  expiry : ℝ
  spot : Option ℝ := none
  forward : Option ℝ := none
  samplingTimes : Option (List ℝ) := none
  pastFixings : Option (List ℝ) := none
  discountRate : Option ℝ := none
  dividendRate : Option ℝ := none
  discountFactor : Option ℝ := none
  isCall : Option Bool := none
  averagingType : AveragingType := .geometric
  averagingFrequency : AveragingFrequency := .discrete
  integration : IntegrationArgs := {}

namespace HestonAsianArgs
variable (a : HestonAsianArgs)

/-- The checks L180-210; returns the sampling times. The index `-1` of an empty tensor is an error. -/
noncomputable def check : Except String (List ℝ) :=
  if a.spot.isNone = a.forward.isNone then .error "Either spots or forwards must be supplied but not both."
  else if a.discountRate.isSome ∧ a.discountFactor.isSome then .error "At most one of discount_rates and discount_factors may be supplied"
  else if a.averagingType = .arithmetic then .error "Cannot price arithmetic averaging asians analytically under Heston model"
  else match a.averagingFrequency, a.samplingTimes with
    | .continuous, _ => .error "Pricing continuous averaging asians not yet supported"
    | .discrete, none => .error "Sampling times required for discrete sampling asians"
    | .discrete, some times => match times.getLast? with
      | none => .error "index out of bounds"
      | some last => if max last a.expiry = a.expiry then .ok times else .error "Sampling times cannot occur after expiry times"

/-- `discount_rates` L242-254. -/
noncomputable def rate : ℝ :=
  match a.discountRate, a.discountFactor with
  | some r, _ => r
  | none, some df => -Real.log df / a.expiry
  | none, none => 0

/-- `spots` L260-265. -/
noncomputable def spotPrice : ℝ :=
  match a.forward with
  | some f => f * Real.exp (-(a.rate - a.dividendRate.getD 0) * a.expiry)
  | none => a.spot.getD 0

/-- `running_accumulator` L282-288. -/
noncomputable def accumulator : ℝ :=
  match a.pastFixings with
  | none => 1
  | some fixings => fixings.prod

/-- `fixing_count` L284, L289. -/
def count : Nat :=
  match a.pastFixings with
  | none => 0
  | some fixings => fixings.length

/-- `prefactor` L298. -/
noncomputable def prefactor (times : List ℝ) : ℝ := a.accumulator ^ (1 / ((times.length + a.count : Nat) : ℝ))

/-- `asian_prices_handler` L339-358. -/
noncomputable def handler (times : List ℝ) : HestonAsian :=
  ⟨a.params, a.spotPrice, a.rate, a.dividendRate.getD 0, a.strike / a.prefactor times, a.expiry, times, a.count⟩

/-- The integral L360-374. -/
noncomputable def integral (f : ℝ → ℝ) : Except String ℝ :=
  integrate f (a.integration.lower.getD (1 / 10 ^ 9)) (a.integration.upper.getD 100) (a.integration.method.getD .gaussLegendre) a.integration.numPoints

/-- The discount factor `dcfs` L378. -/
noncomputable def dcf : ℝ := Real.exp (-a.rate * a.expiry)

end HestonAsianArgs

/-- `asian_option_price` L30-397; `none` is NaN. -/
noncomputable def hestonAsianPrice (a : HestonAsianArgs) : Except String (Option ℝ) := do
  let times ← a.check
  let h := a.handler times
  let integral ← a.integral h.integrand
  return do
    let forward ← h.forward
    let call := a.prefactor times * a.dcf * ((forward - h.strike) / 2 + integral / Real.pi)
    let put := a.prefactor times * a.dcf * ((h.strike - forward) / 2 + integral / Real.pi)
    return match a.isCall with
      | none => call
      | some isCall => if isCall then call else put

end Model
