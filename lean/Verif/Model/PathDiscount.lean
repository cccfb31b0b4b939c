import Mathlib.Analysis.SpecialFunctions.Log.Basic

/-!
# Running sums by matrix algebra and the discount factors of simulated rate paths

`models/utils.py` L329-346, `models/hjm/zero_coupon_bond_option_util.py` L86-114, `models/hjm/swaption_util.py` L125-136 and
`models/hull_white/swaption.py` L562-564, L612-643, L670-678. One path, one dimension, one option.
-/

namespace Model

/-- `tf.linalg.band_part(ones, -1, 0)`, `utils.py` L334: the lower triangle, diagonal included. -/
def lowerTriangle {K : Type} [Zero K] [One K] (n : Nat) : List (List K) :=
  (List.range n).map (fun i => (List.range n).map (fun j => if j ≤ i then 1 else 0))

/-- `tf.linalg.matvec`. -/
def matVec {K : Type} [Zero K] [Add K] [Mul K] (m : List (List K)) (v : List K) : List K :=
  m.map (fun row => (List.zipWith (fun a b => a * b) row v).sum)

/-- `cumsum_using_matvec`, L329-336. -/
def cumsumUsingMatvec {K : Type} [Zero K] [One K] [Add K] [Mul K] (v : List K) : List K := matVec (lowerTriangle v.length) v

/-- `cumprod_using_matvec`, L339-346. -/
noncomputable def cumprodUsingMatvec (v : List ℝ) : List ℝ := (matVec (lowerTriangle v.length) (v.map Real.log)).map Real.exp

/-- The time steps, `zero_coupon_bond_option_util.py` L101-106 and `swaption_util.py` L126: zero, then the differences of the simulation times. -/
def simulationSteps {K : Type} [Zero K] [Sub K] (times : List K) : List K :=
  0 :: List.zipWith (fun a b => a - b) times.tail times.dropLast

/-- The simulation times, `zero_coupon_bond_option_util.py` L86-92 (the same in `hull_white/swaption.py` L612-616): the expiries and the
multiples of `time_step` below the longest expiry, without repetitions, sorted. `tf.range(step, longest, step)` is given by the number `n` of its
elements. -/
def simulationTimes {K : Type} [LinearOrder K] [Semiring K] (expiries : List K) (step : K) (n : Nat) : List K :=
  (expiries ++ (List.range n).map (fun i => ((i + 1 : Nat) : K) * step)).dedup.mergeSort (fun a b => decide (a ≤ b))

/-- The discount factors along a path of short rates, `zero_coupon_bond_option_util.py` L107-114: the running product of `exp(-r dt)`. -/
noncomputable def pathDiscountFactors (times rates : List ℝ) : List ℝ :=
  cumprodUsingMatvec (List.zipWith (fun r dt => Real.exp (-r * dt)) rates (simulationSteps times))

/-- The same, `swaption_util.py` L125-136: the exponential of the running sum of `r dt`. -/
noncomputable def pathDiscountFactorsSum (times rates : List ℝ) : List ℝ :=
  (cumsumUsingMatvec (List.zipWith (fun r dt => r * dt) rates (simulationSteps times))).map (fun c => Real.exp (-c))

/-- The value of exercising a Bermudan swaption, `hull_white/swaption.py` L562-564 and L670-678: `is_payer_swaption = True` replaces the argument.
Payments are `(bond price, daycount fraction, coupon)`. -/
def bermudanExercise {K : Type} [Ring K] [LinearOrder K] (isPayerArgument : Bool) (payments : List (K × K × K)) : K :=
  let _ := isPayerArgument
  let isPayer := true
  let fixedLeg := (payments.map (fun p => p.2.2 * p.2.1 * p.1)).sum
  let floatLeg := 1 - (payments.map (fun p => p.1)).getLastD 0
  let payoff := floatLeg - fixedLeg
  let payoff := if isPayer then payoff else -payoff
  max payoff 0

end Model
