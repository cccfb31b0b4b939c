import Verif.Model.PathDiscount
import Verif.Model.PrepareGrid

/-!
# Model of options in `tf_quant_finance/models/hjm`

`zero_coupon_bond_option_util.py`, `zero_coupon_bond_option.py`, `cap_floor.py`, `swaption_util.py` and `swaption_pricing.py`.  One model, the
last axis (`dim`) has length one.  The sampler of discount curves is given by the bond prices `bond s t T` and the short rates `rate s t` and
discount factors `discount s t` of the path `s` at the time `t`; it is asked for the sorted times.
-/

namespace Model

/-- `_prepare_indices`, `zero_coupon_bond_option_util.py` L156-165: `tf.repeat` and `tf.tile`. -/
def prepareIndices (idx0 idx1 idx2 idx3 : List Nat) : List (Nat × Nat × Nat × Nat) :=
  let repeatEach := fun (l : List Nat) (k : Nat) => l.flatMap (fun (a : Nat) => List.replicate k a)
  let tile := fun (l : List Nat) (k : Nat) => (List.replicate k l).flatten
  let i0 := repeatEach idx0 (idx1.length * idx3.length)
  let i1 := tile (repeatEach idx1 idx3.length) idx0.length
  let i2 := tile (repeatEach idx2 idx3.length) idx0.length
  let i3 := tile idx3 (idx0.length * idx1.length)
  List.zipWith (fun (a : Nat) (p : Nat × Nat × Nat) => (a, p)) i0 (List.zipWith (fun (b : Nat) (p : Nat × Nat) => (b, p)) i1 (List.zip i2 i3))

/-- An option on a zero coupon bond. -/
structure BondOption where
  strike : ℝ
  expiry : ℝ
  maturity : ℝ
  isCall : Bool

/-- Paths of discount curves. -/
structure CurvePaths where
  bond : Nat → ℝ → ℝ → ℝ
  rate : Nat → ℝ → ℝ

/-- `options_price_from_samples`, `zero_coupon_bond_option_util.py` L84-153; `steps` is the length of `tf.range(time_step, longest, time_step)`. -/
noncomputable def optionsPriceFromSamples (options : List BondOption) (paths : CurvePaths) (numSamples : Nat) (timeStep : ℝ) (steps : Nat) :
    List ℝ :=
  let simTimes := simulationTimes (options.map BondOption.expiry) timeStep steps
  let taus := options.map (fun (o : BondOption) => o.maturity - o.expiry)
  let curveTimes := taus.dedup.mergeSort (fun (a b : ℝ) => decide (a ≤ b))
  let simIndex := options.map (fun (o : BondOption) => searchLeft simTimes o.expiry)
  let curveIndex := taus.map (fun (t : ℝ) => searchLeft curveTimes t)
  let bondPrices := fun (s c t : Nat) => paths.bond s (simTimes.getD t 0) (simTimes.getD t 0 + curveTimes.getD c 0)
  let discounts := fun (s t : Nat) => (pathDiscountFactors simTimes (simTimes.map (paths.rate s))).getD t 0
  let index := prepareIndices (List.range numSamples) curveIndex simIndex [0]
  let payoffDiscounts := index.map (fun (i : Nat × Nat × Nat × Nat) => discounts i.1 i.2.2.1)
  let payoffBonds := index.map (fun (i : Nat × Nat × Nat × Nat) => bondPrices i.1 i.2.1 i.2.2.1)
  options.zipIdx.map (fun (p : BondOption × Nat) =>
    ((List.range numSamples).map (fun (s : Nat) =>
      let b := payoffBonds.getD (s * options.length + p.2) 0
      let payoff := if p.1.isCall then max (b - p.1.strike) 0 else max (p.1.strike - b) 0
      payoffDiscounts.getD (s * options.length + p.2) 0 * payoff)).sum / (numSamples : ℝ))

/-- A caplet or floorlet of `cap_floor.py`. -/
structure HjmCaplet where
  strike : ℝ
  expiry : ℝ
  maturity : ℝ
  daycount : ℝ

/-- `cap_floor_price`, `cap_floor.py` L190-229, for one cap. -/
noncomputable def hjmCapFloor (caplets : List HjmCaplet) (notional : ℝ) (isCap : Bool) (paths : CurvePaths) (numSamples : Nat) (timeStep : ℝ)
    (steps : Nat) : ℝ :=
  let options := caplets.map (fun (c : HjmCaplet) => BondOption.mk (1 / (1 + c.daycount * c.strike)) c.expiry c.maturity (!isCap))
  let prices := optionsPriceFromSamples options paths numSamples timeStep steps
  (List.zipWith (fun (c : HjmCaplet) (p : ℝ) => notional * (1 + c.daycount * c.strike) * (if c.expiry < 0 then 0 else p)) caplets prices).sum

/-- A swaption: payments are `(time, daycount fraction, coupon)`. -/
structure HjmSwaption where
  expiry : ℝ
  payments : List (ℝ × ℝ × ℝ)
  notional : ℝ
  isPayer : Bool

/-- Paths of discount curves with discount factors. -/
structure DiscountPaths where
  bond : Nat → ℝ → ℝ → ℝ
  discount : Nat → ℝ → ℝ

/-- The times that are sampled, `swaption_util.py` L87-93: given times or the sorted expiries, one for each payment. -/
noncomputable def swaptionSimTimes (times : Option (List ℝ)) (swaptions : List HjmSwaption) : List ℝ :=
  match times with
  | some t => t
  | none => (swaptions.flatMap (fun (s : HjmSwaption) => s.payments.map (fun _ => s.expiry))).mergeSort (fun (a b : ℝ) => decide (a ≤ b))

/-- The maturities that are sampled, `swaption_util.py` L96-105. -/
noncomputable def swaptionCurveTimes (curveTimes : Option (List ℝ)) (swaptions : List HjmSwaption) : List ℝ :=
  match curveTimes with
  | some t => t
  | none => (swaptions.flatMap (fun (s : HjmSwaption) => s.payments.map (fun p => p.1 - s.expiry))).dedup.mergeSort
      (fun (a b : ℝ) => decide (a ≤ b))

/-- `_european_swaption_mc`, `swaption_pricing.py` L369-396 with `swaption_util.py` L149-170, for one of the swaptions. -/
noncomputable def swaptionMc (simTimes curveTimes : List ℝ) (paths : DiscountPaths) (numSamples : Nat) (o : HjmSwaption) : ℝ :=
  let t := simTimes.getD (searchLeft simTimes o.expiry) 0
  let bonds := fun (s : Nat) => o.payments.map (fun (p : ℝ × ℝ × ℝ) => paths.bond s t (t + curveTimes.getD (searchLeft curveTimes (p.1 - o.expiry)) 0))
  let payoff := fun (s : Nat) =>
    let fixedLeg := (List.zipWith (fun (p : ℝ × ℝ × ℝ) (b : ℝ) => p.2.2 * p.2.1 * b) o.payments (bonds s)).sum
    let floatLeg := 1 - (bonds s).getLastD 0
    let swap := paths.discount s t * (floatLeg - fixedLeg)
    max (if o.isPayer then swap else -1 * swap) 0
  o.notional * (((List.range numSamples).map payoff).sum / (numSamples : ℝ))

/-- The prices of a batch. -/
noncomputable def swaptionsMc (times curveTimes : Option (List ℝ)) (swaptions : List HjmSwaption) (paths : DiscountPaths) (numSamples : Nat) :
    List ℝ :=
  swaptions.map (swaptionMc (swaptionSimTimes times swaptions) (swaptionCurveTimes curveTimes swaptions) paths numSamples)

section
variable {K : Type} [Field K] [LinearOrder K]

/-- One axis of the grid of `_european_swaption_fd`, `swaption_pricing.py` L407-414. -/
def fdAxis (numPoints : Nat) : List K := tfLinspace (-(1 / 2)) (1 / 2) numPoints

/-- The state whose value is returned, L529-536, on one axis; `none` is outside of the grid. -/
def fdReadPoint (numPoints : Nat) : Option K := (fdAxis numPoints)[searchLeft (fdAxis (K := K) numPoints) 0]?

/-- `_create_pde_time_grid` L552-573: the grid and the steps; `max` is the largest exercise time. -/
def createPdeTimeGrid [FloorRing K] (exerciseTimes : List K) (tolerance : K) (timeStep : Option K) (numTimeSteps : Option Nat) :
    Except String (List K × List K) :=
  let times := exerciseTimes.reverse.dedup.reverse
  let longest := times.foldl max (times.headD 0)
  let timeStep' := match numTimeSteps with
    | some n => some (longest / (n : K))
    | none => timeStep
  let numTimeSteps' := match timeStep', numTimeSteps with
    | none, none => some 100
    | _, n => n
  match timeStep' with
  | none => .error "TypeError"
  | some step =>
    match prepareGrid times step tolerance numTimeSteps' none with
    | none => .error "InvalidArgumentError"
    | some (grid, _, _) => .ok (grid, 100 :: List.zipWith (fun (a b : K) => a - b) grid.tail grid.dropLast)

/-- `_get_index` L467-471. -/
def pdeGridIndex (tolerance : K) (grid : List K) (t : K) : Option Int :=
  let i := searchRight grid (t - tolerance)
  grid[i]?.map (fun (y : K) => if |t - y| < tolerance then (i : Int) else -1)

/-- The payoff of `_get_swap_payoff` L436-465 and L489, for bond prices at one point of the grid; payments are `(daycount fraction, coupon)`. -/
def fdSwaptionPayoff (isPayer : Bool) (payments : List (K × K)) (bonds : List K) : K :=
  let fixedLeg := (List.zipWith (fun (p : K × K) (b : K) => p.2 * p.1 * b) payments bonds).sum
  let floatLeg := 1 - bonds.getLastD 0
  let swap := floatLeg - fixedLeg
  max (if isPayer then swap else -swap) 0

end

end Model
