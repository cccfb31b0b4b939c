import Mathlib.Analysis.SpecialFunctions.Log.Basic
import Verif.Model.LinearInterpolation
import Verif.Model.Yields

/-!
# Model of `tf_quant_finance/rates/swap_curve_bootstrap.py`, `swap_curve_fit.py` and `swap_curve_common.py`

Over the reals, one batch element.  The interpolator is any function of the sample points, the values and the point.  The optimizer is
any function of the objective and the starting rates.  `none` in place of a list of discount factors means that some entry is not a
finite number; the entries that are numbers in that case are not kept.  A discount factor of exactly zero, whose rate is infinite,
counts as not a number.
-/

namespace Model

/-- One element of each of the lists that describe the instruments. -/
structure SwapQuote where
  floatStarts : List ℝ
  floatEnds : List ℝ
  fixedStarts : List ℝ
  fixedEnds : List ℝ
  fixedCashflows : List ℝ
  /-- `fixed_leg_daycount_fractions`, if any. -/
  daycounts : Option (List ℝ) := none
  presentValue : ℝ
  settlement : ℝ := 0

/-- L317-320 of `swap_curve_bootstrap.py`: by default the lengths of the periods. -/
noncomputable def SwapQuote.fixedDaycounts (q : SwapQuote) : List ℝ :=
  q.daycounts.getD (List.zipWith (fun (x y : ℝ) => y - x) q.fixedStarts q.fixedEnds)

/-- L671-672: `maximum(float_leg_end_times[i][-1], fixed_leg_end_times[i][-1])`. -/
noncomputable def SwapQuote.expiryTime (q : SwapQuote) : ℝ := max (q.floatEnds.getLastD 0) (q.fixedEnds.getLastD 0)

/-- A curve: times and rates. -/
structure RateNodes where
  times : List ℝ
  rates : List ℝ

/-- `curve_interpolator(xi, x, y)`, for one point: `interp x y xi`. -/
abbrev CurveInterpolator := List ℝ → List ℝ → ℝ → ℝ

/-- L302-305: linear interpolation by default. -/
noncomputable def defaultInterpolator : CurveInterpolator := fun (xs ys : List ℝ) (x : ℝ) => linearInterpolate x xs ys

/-- How the legs are discounted, L341-359: `none` is the curve that is being built. -/
structure SwapDiscounting where
  float : Option RateNodes
  fixed : Option RateNodes

/-- L346-359. -/
def swapDiscounting (floatCurve fixedCurve : Option RateNodes) : SwapDiscounting :=
  match floatCurve, fixedCurve with
  | none, none => ⟨none, none⟩
  | some f, none => ⟨some f, some f⟩
  | none, some x => ⟨none, some x⟩
  | some f, some x => ⟨some f, some x⟩

/-- Group numbers of concatenated parts with these lengths, L674-676 and L688-689. -/
def swapGroups (counts : List Nat) : List Nat :=
  counts.zipIdx.flatMap (fun (p : Nat × Nat) => List.replicate p.1 p.2)

/-- The shape after broadcasting a result of `segment_sum` with the present values. -/
noncomputable def spread (n : Nat) (xs : List ℝ) : List ℝ :=
  if xs.length = 1 then List.replicate n (xs.getD 0 0) else xs

/-- Rate at one time from the discount curve of a leg, or from the curve that is being built. -/
noncomputable def legRate (interp : CurveInterpolator) (curve : Option RateNodes) (times x : List ℝ) (t : ℝ) : ℝ :=
  match curve with
  | none => interp times x t
  | some c => interp c.times c.rates t

/-- `float_pv` L482-519 of `swap_curve_bootstrap.py`, without the last period of each instrument. -/
noncomputable def bootstrapFloatPv (interp : CurveInterpolator) (disc : SwapDiscounting) (swaps : List SwapQuote) (times x : List ℝ) :
    List ℝ :=
  let starts := swaps.flatMap (fun (q : SwapQuote) => q.floatStarts.dropLast)
  let ends := swaps.flatMap (fun (q : SwapQuote) => q.floatEnds.dropLast)
  let cashflows := List.zipWith (fun (s e : ℝ) => Real.exp (e * interp times x e) / Real.exp (s * interp times x s) - 1) starts ends
  let discounts := ends.map (fun (e : ℝ) => Real.exp (-legRate interp disc.float times x e * e))
  segmentSum (List.zipWith (fun (c d : ℝ) => c * d) cashflows discounts)
    (swapGroups (swaps.map (fun (q : SwapQuote) => q.floatStarts.dropLast.length)))

/-- `fixed_pv` L497-522, without the last cashflow of each instrument. -/
noncomputable def bootstrapFixedPv (interp : CurveInterpolator) (disc : SwapDiscounting) (swaps : List SwapQuote) (times x : List ℝ) :
    List ℝ :=
  let ends := swaps.flatMap (fun (q : SwapQuote) => q.fixedEnds.dropLast)
  let cashflows := swaps.flatMap (fun (q : SwapQuote) => q.fixedCashflows.dropLast)
  let daycounts := swaps.flatMap (fun (q : SwapQuote) => q.fixedDaycounts.dropLast)
  let discounts := ends.map (fun (t : ℝ) => Real.exp (-legRate interp disc.fixed times x t * t))
  segmentSum (List.zipWith (fun (c d : ℝ) => c * d) (List.zipWith (fun (a c : ℝ) => a * c) daycounts cashflows) discounts)
    (swapGroups (swaps.map (fun (q : SwapQuote) => q.fixedEnds.dropLast.length)))

/-- `next_discount` L524-537 for one instrument; `none` for a division by zero. -/
noncomputable def bootstrapNext (interp : CurveInterpolator) (disc : SwapDiscounting) (times x : List ℝ) (q : SwapQuote)
    (floatPv fixedPv : ℝ) : Option ℝ :=
  open Classical in
  let lastStart := q.floatStarts.getLastD 0
  let lastEnd := q.floatEnds.getLastD 0
  let lastFixed := q.fixedEnds.getLastD 0
  let p := Real.exp (-interp times x lastStart * lastStart)
  let lastCashflow := q.fixedCashflows.getLastD 0
  let lastDaycount := q.fixedDaycounts.getLastD 0
  match disc.float, disc.fixed with
  | none, none =>
    let scale := lastCashflow * lastDaycount - 1
    if scale = 0 then none else some ((q.presentValue - floatPv - fixedPv - p) / scale)
  | none, some c =>
    let lastFixedPv := lastDaycount * lastCashflow * Real.exp (-lastFixed * interp c.times c.rates lastFixed)
    some (floatPv + (fixedPv + lastFixedPv) - q.presentValue + p)
  | some f, fixedCurve =>
    let lastFixedPv := lastDaycount * lastCashflow * Real.exp (-lastFixed * legRate interp fixedCurve times x lastFixed)
    let lastFloatDiscount := Real.exp (-interp f.times f.rates lastEnd * lastEnd)
    let scale := q.presentValue - floatPv - (fixedPv + lastFixedPv) + lastFloatDiscount
    if scale = 0 then none else some (p * lastFloatDiscount / scale)

/-- `_one_step` L472-543 from the discount factors to the next ones. -/
noncomputable def nextSwapDiscounts (interp : CurveInterpolator) (disc : SwapDiscounting) (swaps : List SwapQuote) (x : List ℝ) :
    Option (List ℝ) :=
  let times := swaps.map SwapQuote.expiryTime
  let floatPv := spread swaps.length (bootstrapFloatPv interp disc swaps times x)
  let fixedPv := spread swaps.length (bootstrapFixedPv interp disc swaps times x)
  swaps.zipIdx.mapM (fun (p : SwapQuote × Nat) =>
    bootstrapNext interp disc times x p.1 (floatPv.getD p.2 0) (fixedPv.getD p.2 0))

/-- `-log(discount_factor) / expiry_times` L475 and L557. -/
noncomputable def swapRates (swaps : List SwapQuote) (discounts : Option (List ℝ)) : Option (List ℝ) :=
  open Classical in
  discounts.bind (fun (ds : List ℝ) =>
    if ∀ d ∈ ds, 0 < d then
      some (List.zipWith (fun (d t : ℝ) => -Real.log d / t) ds (swaps.map SwapQuote.expiryTime))
    else none)

/-- The loop variables of L472 and L552. -/
structure SwapLoop where
  converged : Bool
  failed : Bool
  iteration : Nat
  discounts : Option (List ℝ)

/-- `_one_step` L472-543. -/
noncomputable def swapStep (interp : CurveInterpolator) (disc : SwapDiscounting) (swaps : List SwapQuote) (tolerance : ℝ)
    (s : SwapLoop) : SwapLoop :=
  open Classical in
  match s.discounts, (swapRates swaps s.discounts).bind (nextSwapDiscounts interp disc swaps) with
  | some ds, some next =>
    ⟨decide (∀ p ∈ List.zip next ds, |p.1 - p.2| < tolerance), s.failed, s.iteration + 1, some next⟩
  | _, _ => ⟨false, s.failed, s.iteration + 1, none⟩

/-- The while loop L545-554. -/
noncomputable def swapLoop (interp : CurveInterpolator) (disc : SwapDiscounting) (swaps : List SwapQuote) (tolerance : ℝ) :
    Nat → SwapLoop → SwapLoop
  | 0, s => s
  | fuel + 1, s =>
    if s.converged || s.failed then s
    else swapLoop interp disc swaps tolerance fuel (swapStep interp disc swaps tolerance s)

/-- `SwapCurveBuilderResult`. -/
structure SwapCurveResult where
  times : List ℝ
  rates : Option (List ℝ)
  discountFactors : Option (List ℝ)
  initialRates : List ℝ
  converged : Bool
  failed : Bool
  iterations : Nat
  objective : ℝ

/-- The arguments of `swap_curve_bootstrap` L50-69. -/
structure SwapBootstrapArgs where
  swaps : List SwapQuote
  floatCurve : Option RateNodes := none
  fixedCurve : Option RateNodes := none
  interpolator : CurveInterpolator := defaultInterpolator
  initialRates : Option (List ℝ) := none
  tolerance : ℝ := 1 / 100000000
  maximumIterations : Nat := 50

/-- Whether the results of `segment_sum`, which has as many entries as the last nonempty group, can be broadcast with the present
values. -/
def SwapBootstrapArgs.shapesFit (a : SwapBootstrapArgs) : Bool :=
  let size := fun (counts : List Nat) => (swapGroups counts).getLast?.elim 0 (· + 1)
  let fits := fun (m : Nat) => m == a.swaps.length || m == 1
  fits (size (a.swaps.map (fun (q : SwapQuote) => q.floatStarts.dropLast.length))) &&
    fits (size (a.swaps.map (fun (q : SwapQuote) => q.fixedEnds.dropLast.length)))

/-- `swap_curve_bootstrap` L50-567. -/
noncomputable def swapCurveBootstrap (a : SwapBootstrapArgs) : Except String SwapCurveResult :=
  match a.initialRates with
  | none => .error "Initial state of the curve is not specified."
  | some rates =>
    if a.shapesFit then
      let times := a.swaps.map SwapQuote.expiryTime
      let s := swapLoop a.interpolator (swapDiscounting a.floatCurve a.fixedCurve) a.swaps a.tolerance a.maximumIterations
        ⟨false, false, 0, some (List.zipWith (fun (r t : ℝ) => Real.exp (-r * t)) rates times)⟩
      .ok ⟨times, swapRates a.swaps s.discounts, s.discounts, rates, s.converged, s.failed, s.iteration, 0⟩
    else .error "Incompatible shapes"

/-! ### `swap_curve_fit.py` -/

/-- `matvec(one_hot(groups, n), v)`, L522-531 with L632-640 of `swap_curve_fit.py`. -/
noncomputable def groupMatvec (groups : List Nat) (n : Nat) (v : List ℝ) : List ℝ :=
  (List.range n).map (fun (i : Nat) =>
    (List.zipWith (fun (m x : ℝ) => m * x) (groups.map (fun (g : Nat) => if g = i then (1 : ℝ) else 0)) v).sum)

/-- `float_pv` L485-524 of `swap_curve_fit.py`. -/
noncomputable def fitFloatPv (interp : CurveInterpolator) (disc : SwapDiscounting) (swaps : List SwapQuote) (x : List ℝ) : List ℝ :=
  let times := swaps.map SwapQuote.expiryTime
  let starts := swaps.flatMap SwapQuote.floatStarts
  let ends := swaps.flatMap SwapQuote.floatEnds
  let settles := swaps.flatMap (fun (q : SwapQuote) => List.replicate q.floatStarts.length q.settlement)
  let cashflows := List.zipWith (fun (s e : ℝ) => Real.exp (e * interp times x e - s * interp times x s) - 1) starts ends
  let discounts := List.zipWith (fun (e u : ℝ) =>
    Real.exp (-legRate interp disc.float times x e * e + legRate interp disc.float times x u * u)) ends settles
  groupMatvec (swapGroups (swaps.map (fun (q : SwapQuote) => q.floatStarts.length))) swaps.length
    (List.zipWith (fun (c d : ℝ) => c * d) cashflows discounts)

/-- `fixed_pv` L501-531 of `swap_curve_fit.py`. -/
noncomputable def fitFixedPv (interp : CurveInterpolator) (disc : SwapDiscounting) (swaps : List SwapQuote) (x : List ℝ) : List ℝ :=
  let times := swaps.map SwapQuote.expiryTime
  let ends := swaps.flatMap SwapQuote.fixedEnds
  let settles := swaps.flatMap (fun (q : SwapQuote) => List.replicate q.fixedEnds.length q.settlement)
  let discounts := List.zipWith (fun (t u : ℝ) =>
    Real.exp (-legRate interp disc.fixed times x t * t + legRate interp disc.fixed times x u * u)) ends settles
  groupMatvec (swapGroups (swaps.map (fun (q : SwapQuote) => q.fixedEnds.length))) swaps.length
    (List.zipWith (fun (c d : ℝ) => c * d)
      (List.zipWith (fun (a c : ℝ) => a * c) (swaps.flatMap SwapQuote.fixedDaycounts) (swaps.flatMap SwapQuote.fixedCashflows))
      discounts)

/-- `loss_function` L470-536. -/
noncomputable def fitLoss (interp : CurveInterpolator) (disc : SwapDiscounting) (swaps : List SwapQuote) (weights x : List ℝ) : ℝ :=
  let swapPv := List.zipWith (fun (a b : ℝ) => a + b) (fitFloatPv interp disc swaps x) (fitFixedPv interp disc swaps x)
  (List.zipWith (fun (w d : ℝ) => w * d ^ 2) weights
    (List.zipWith (fun (a b : ℝ) => a - b) swapPv (swaps.map SwapQuote.presentValue))).sum

/-- `_initialize_instrument_weights` L568-578. -/
noncomputable def fitWeights (swaps : List SwapQuote) : List ℝ :=
  swaps.map (fun (q : SwapQuote) => min 1 (max (1 / q.floatEnds.getLastD 0) (1 / q.fixedEnds.getLastD 0)))

/-- What an optimizer returns. -/
structure FitOptimum where
  position : List ℝ
  converged : Bool
  failed : Bool
  iterations : Nat
  objective : ℝ

/-- The arguments of `swap_curve_fit` L48-69. -/
structure SwapFitArgs where
  swaps : List SwapQuote
  initialRates : Option (List ℝ)
  floatCurve : Option RateNodes := none
  fixedCurve : Option RateNodes := none
  interpolator : CurveInterpolator := defaultInterpolator
  weights : Option (List ℝ) := none
  /-- The optimizer, with tolerance and number of iterations. -/
  optimizer : (List ℝ → ℝ) → List ℝ → ℝ → Nat → FitOptimum
  tolerance : ℝ := 1 / 100000000
  maximumIterations : Nat := 50

/-- The objective of `swap_curve_fit`. -/
noncomputable def SwapFitArgs.objective (a : SwapFitArgs) : List ℝ → ℝ :=
  fitLoss a.interpolator (swapDiscounting a.floatCurve a.fixedCurve) a.swaps (a.weights.getD (fitWeights a.swaps))

/-- `swap_curve_fit` L48-553. -/
noncomputable def swapCurveFit (a : SwapFitArgs) : Except String SwapCurveResult :=
  match a.initialRates with
  | none => .error "Initial state of the curve is not specified."
  | some rates =>
    let times := a.swaps.map SwapQuote.expiryTime
    let r := a.optimizer a.objective rates a.tolerance a.maximumIterations
    .ok ⟨times, some r.position, some (List.zipWith (fun (r t : ℝ) => Real.exp (-r * t)) r.position times), rates, r.converged,
      r.failed, r.iterations, r.objective⟩

end Model
