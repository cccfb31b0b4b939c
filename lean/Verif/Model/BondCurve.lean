import Mathlib.Analysis.SpecialFunctions.Log.Basic
import Verif.Model.MonotoneConvex
import Verif.Model.Yields

/-!
# Model of `tf_quant_finance/rates/hagan_west/bond_curve.py`

Over the reals.  The cashflows and times of one bond are lists of the same length, as documented.  `none` in place of a list of
discount factors means that some entry is not a number; the entries that are numbers in that case are not kept.  A discount factor of
exactly zero, whose rate is infinite, is treated like a negative one, whose rate is not a number; the code notices it one iteration
later.
-/

namespace Model

/-- The element-wise view of the four lists of `bond_curve` L79-88. -/
structure BondQuote where
  cashflows : List ℝ
  times : List ℝ
  presentValue : ℝ
  settlement : ℝ

/-- L435: `bond_cashflow_times[i][-1]`. -/
noncomputable def BondQuote.expiryTime (b : BondQuote) : ℝ := b.times.getLastD 0

/-- L436: `bond_cashflows[i][-1]`. -/
noncomputable def BondQuote.expiryCashflow (b : BondQuote) : ℝ := b.cashflows.getLastD 0

/-- L433: `[-present_values[i]]` followed by `bond_cashflows[i][:-1]`. -/
noncomputable def BondQuote.calcCashflows (b : BondQuote) : List ℝ := -b.presentValue :: b.cashflows.dropLast

/-- L434: `[pv_settle_times[i]]` followed by `bond_cashflow_times[i][:-1]`. -/
noncomputable def BondQuote.calcTimes (b : BondQuote) : List ℝ := b.settlement :: b.times.dropLast

/-- The concatenated group numbers of L437 and L443, also L500-505: the number of the bond for each of its cashflows. -/
def bondGroups (bonds : List BondQuote) : List Nat :=
  bonds.zipIdx.flatMap (fun (p : BondQuote × Nat) => List.replicate p.1.cashflows.length p.2)

/-- `-log(discounts) / expiry_times` L447 and L476; `none` if some discount factor is not a number or not positive. -/
noncomputable def expiryRates (bonds : List BondQuote) (discounts : Option (List ℝ)) : Option (List ℝ) :=
  open Classical in
  discounts.bind (fun (ds : List ℝ) =>
    if ∀ d ∈ ds, 0 < d then
      some (List.zipWith (fun (d t : ℝ) => -Real.log d / t) ds (bonds.map BondQuote.expiryTime))
    else none)

/-- `exp(-calc_rates * calc_times)` L450-452. -/
noncomputable def calcDiscounts (bonds : List BondQuote) (rates : List ℝ) : Option (List ℝ) :=
  (bonds.flatMap BondQuote.calcTimes).mapM (fun (t : ℝ) =>
    (mcYield t (bonds.map BondQuote.expiryTime) (some rates) none).map (fun (y : ℝ) => Real.exp (-y * t)))

/-- `next_expiry_discounts` L453-455. -/
noncomputable def nextDiscounts (bonds : List BondQuote) (rates : List ℝ) : Option (List ℝ) :=
  (calcDiscounts bonds rates).map (fun (zs : List ℝ) =>
    List.zipWith (fun (s c : ℝ) => -s / c)
      (segmentSum (List.zipWith (fun (c z : ℝ) => c * z) (bonds.flatMap BondQuote.calcCashflows) zs) (bondGroups bonds))
      (bonds.map BondQuote.expiryCashflow))

/-- The loop variables of L445-460. -/
structure BondLoop where
  converged : Bool
  failed : Bool
  iteration : Nat
  discounts : Option (List ℝ)

/-- `one_step` L445-459. -/
noncomputable def bondStep (bonds : List BondQuote) (tolerance : ℝ) (s : BondLoop) : BondLoop :=
  open Classical in
  match s.discounts, expiryRates bonds s.discounts with
  | some ds, some rates =>
    match nextDiscounts bonds rates with
    | some next =>
      ⟨decide (∀ p ∈ List.zip next ds, |p.1 - p.2| < tolerance), false, s.iteration + 1, some next⟩
    | none => ⟨false, false, s.iteration + 1, none⟩
  | _, _ => ⟨false, true, s.iteration + 1, none⟩

/-- The while loop L461-472: `fuel` is the number of iterations left. -/
noncomputable def bondLoop (bonds : List BondQuote) (tolerance : ℝ) : Nat → BondLoop → BondLoop
  | 0, s => s
  | fuel + 1, s => if s.converged || s.failed then s else bondLoop bonds tolerance fuel (bondStep bonds tolerance s)

/-- `CurveBuilderResult` L30-77. -/
structure BondCurveResult where
  times : List ℝ
  discountRates : Option (List ℝ)
  discountFactors : Option (List ℝ)
  initialDiscountRates : List ℝ
  converged : Bool
  failed : Bool
  iterations : Nat

/-- `_build_discount_curve` L320-486. -/
noncomputable def buildDiscountCurve (bonds : List BondQuote) (initialRates : List ℝ) (tolerance : ℝ) (maximumIterations : Nat) :
    BondCurveResult :=
  let expiryTimes := bonds.map BondQuote.expiryTime
  let initial := List.zipWith (fun (r t : ℝ) => Real.exp (-r * t)) initialRates expiryTimes
  let s := bondLoop bonds tolerance maximumIterations ⟨false, false, 0, some initial⟩
  ⟨expiryTimes, expiryRates bonds s.discounts, s.discounts, initialRates, s.converged, s.failed, s.iteration⟩

/-- `_initial_discount_rates` L489-510, with the default tolerance and number of iterations of `yields_from_pv`. -/
noncomputable def bondYields (bonds : List BondQuote) : List ℝ :=
  yieldsFromPv (bonds.flatMap BondQuote.cashflows) (bonds.flatMap BondQuote.times) (bonds.map BondQuote.presentValue)
    (some (bondGroups bonds)) (1 / 100000000) 10

/-- The arguments of `bond_curve` L79-88. -/
structure BondCurveArgs where
  cashflows : List (List ℝ)
  times : List (List ℝ)
  presentValues : List ℝ
  settlementTimes : Option (List ℝ) := none
  initialRates : Option (List ℝ) := none
  tolerance : ℝ := 1 / 100000000
  maximumIterations : Nat := 50
  validateArgs : Bool := false

/-- L279-282: settlement now unless stated. -/
noncomputable def BondCurveArgs.settlements (a : BondCurveArgs) : List ℝ :=
  a.settlementTimes.getD (a.presentValues.map (fun (_ : ℝ) => 0))

/-- The bonds, number by number. -/
noncomputable def BondCurveArgs.bonds (a : BondCurveArgs) : List BondQuote :=
  List.zipWith (fun (p : List ℝ × List ℝ) (q : ℝ × ℝ) => BondQuote.mk p.1 p.2 q.1 q.2)
    (List.zip a.cashflows a.times) (List.zip a.presentValues a.settlements)

/-- `_perform_static_validation` L513-542. -/
noncomputable def BondCurveArgs.staticCheck (a : BondCurveArgs) : Except String Unit := do
  if a.cashflows.length ≠ a.times.length then
    throw "Cashflow times and bond_cashflows must be of the same length."
  if a.cashflows.length ≠ a.presentValues.length then
    throw "Present values and bond_cashflows must be of the same length."
  if a.presentValues.length ≠ a.settlements.length then
    throw "Present value settlement times and present values must be of the same length."
  if a.cashflows.length < 2 then
    throw "At least two bonds must be supplied to calibrate the curve."

/-- `_validate_args_control_deps` L545-563 for one bond. -/
noncomputable def BondQuote.valid (b : BondQuote) : Bool :=
  open Classical in
  decide (b.settlement < b.times.headD 0) &&
  (List.zipWith (fun (x y : ℝ) => x - y) b.times.tail b.times.dropLast).all (fun (d : ℝ) => decide (0 < d)) &&
  b.cashflows.dropLast.all (fun (c : ℝ) => decide (c < b.expiryCashflow))

/-- `bond_curve` L79-317. -/
noncomputable def bondCurve (a : BondCurveArgs) : Except String BondCurveResult := do
  a.staticCheck
  if a.validateArgs && !a.bonds.all BondQuote.valid then
    throw "InvalidArgumentError"
  pure (buildDiscountCurve a.bonds (a.initialRates.getD (bondYields a.bonds)) a.tolerance a.maximumIterations)

end Model
