import Verif.Model.Piecewise

/-!
# Model of `tf_quant_finance/rates/hagan_west/monotone_convex.py`

One time per call. `none` is either an exception (gather out of range, wrong arguments) or a result that is not a number. The
divisions inside of the regions are partial (`divNan`); those by differences of times are total because times are assumed strictly
increasing wherever it matters. Numbers are exact, so the test for the origin (L261-264), which allows an error of the last digit,
is a test for equality. `times` are not negative and at most the last interval time: otherwise the lookup of the interval fails.
-/

namespace Model

variable {K : Type} [Field K] [LinearOrder K]

/-- Division that is not a number for divisor zero. -/
def divNan (a b : K) : Option K := if b = 0 then none else some (a / b)

/-- `_interpolate_adjacent`, L526-565. -/
def interpolateAdjacent (times values : List K) : Option (List K) := do
  let dt1 := diff times 1 false
  let dt2 := (diff times 2 false).drop 1
  let weightRight := List.zipWith (fun a b => a / b) dt1.dropLast dt2
  let weightLeft := List.zipWith (fun a b => a / b) (dt1.drop 1) dt2
  let interior := List.zipWith (fun a b => a + b)
    (List.zipWith (fun a b => a * b) weightRight (values.drop 1)) (List.zipWith (fun a b => a * b) weightLeft values.dropLast)
  let v0 ← values.head?
  let vn ← values.getLast?
  let i0 ← interior.head?
  let iN ← interior.getLast?
  let value0 := v0 - 1 / 2 * (i0 - v0)
  let valueN := vn - 1 / 2 * (iN - vn)
  pure ([value0] ++ interior ++ [valueN])

/-- `_region_1`, L568-579: condition, value and integrated value. -/
def mcRegion1 (g1plus2g0 g0plus2g1 g0 g1 x : K) : Bool × Option (K × K) :=
  let isRegion := decide ((g1plus2g0 < 0 ∧ g0plus2g1 ≥ 0) ∨ (g1plus2g0 > 0 ∧ g0plus2g1 ≤ 0))
  let a := 3 * (g0 + g1)
  let b := -2 * g1plus2g0
  let c := g0
  let value := (a * x + b) * x + c
  let oneMinusX := 1 - x
  let integrated := x * oneMinusX * (g0 * oneMinusX - g1 * x)
  (isRegion, some (value, integrated))

/-- `_region_2`, L582-595. -/
def mcRegion2 (g1plus2g0 g0 g1 x : K) : Bool × Option (K × K) :=
  let isRegion := decide ((g0 < 0 ∧ g1plus2g0 ≥ 0) ∨ (g0 > 0 ∧ g1plus2g0 ≤ 0))
  (isRegion, do
    let eta ← divNan g1plus2g0 (g1 - g0)
    let xFloor := max x eta
    let ratio ← divNan (xFloor - eta) (1 - eta)
    let value := g0 + (g1 - g0) * ratio ^ 2
    let coeff := (g1 - g0) * (1 - eta) / 3
    let integrated := g0 * x + coeff * ratio ^ 3
    pure (value, integrated))

/-- `_region_3`, L598-610. -/
def mcRegion3 (g0plus2g1 g0 g1 x : K) : Bool × Option (K × K) :=
  let isRegion := decide ((g1 ≤ 0 ∧ g0plus2g1 > 0) ∨ (g1 ≥ 0 ∧ g0plus2g1 < 0))
  (isRegion, do
    let eta ← divNan (3 * g1) (g1 - g0)
    let xCap := min x eta
    let ratio := (divNan (eta - xCap) eta).getD 0
    let value := g1 + (g0 - g1) * ratio ^ 2
    let integrated := g1 * x + eta * (g0 - g1) / 3 * (1 - ratio ^ 3)
    pure (value, integrated))

/-- `_region_4`, L613-632. -/
def mcRegion4 (g0 g1 x : K) : Bool × Option (K × K) :=
  let isRegion := decide ((g0 ≥ 0 ∧ g1 > 0) ∨ (g0 ≤ 0 ∧ g1 < 0))
  (isRegion, do
    let eta ← divNan g1 (g0 + g1)
    let xCap := min x eta
    let xFloor := max x eta
    let shift := -(1 / 2) * (eta * g0 + (1 - eta) * g1)
    let ratioCap ← divNan (eta - xCap) eta
    let ratioFloor ← divNan (xFloor - eta) (1 - eta)
    let value := shift + (g0 - shift) * ratioCap ^ 2 + (g1 - shift) * ratioFloor ^ 2
    let integrated := shift * x + (g0 - shift) * eta * (1 - ratioCap ^ 3) / 3 + (g1 - shift) * (1 - eta) * ratioFloor ^ 3 / 3
    pure (value, integrated))

/-- The selection of the region, L221-267: value and integrated value of the adjustment at `x` in the unit interval. -/
def mcAdjustment (g0 g1 x : K) : Option (K × K) :=
  let g1plus2g0 := g1 + 2 * g0
  let g0plus2g1 := g0 + 2 * g1
  let r0 : Option (K × K) := some (0, 0)
  let p1 := mcRegion1 g1plus2g0 g0plus2g1 g0 g1 x
  let r1 := if p1.1 then p1.2 else r0
  let p2 := mcRegion2 g1plus2g0 g0 g1 x
  let r2 := if p2.1 then p2.2 else r1
  let p3 := mcRegion3 g0plus2g1 g0 g1 x
  let r3 := if p3.1 then p3.2 else r2
  let p4 := mcRegion4 g0 g1 x
  let r4 := if p4.1 then p4.2 else r3
  if g0 = 0 ∧ g1 = 0 then some (0, 0) else r4

/-- Lookup at an index that may be out of range. -/
def gatherAt (l : List K) (i : Int) : Option K := if i < 0 then none else l[i.toNat]?

/-- `interpolate`, L62-269: interpolated value and integral from the left end of the interval. -/
def monotoneConvex (time : K) (intervalValues intervalTimes : List K) : Option (K × K) := do
  let endpointValues ← interpolateAdjacent intervalTimes intervalValues
  let endpointTimes := 0 :: intervalTimes
  let interval := findIntervalIndex time endpointTimes true
  let fLeft ← gatherAt endpointValues interval
  let fRight ← gatherAt endpointValues (interval + 1)
  let fd ← gatherAt intervalValues interval
  let tLeft ← gatherAt endpointTimes interval
  let tRight ← gatherAt endpointTimes (interval + 1)
  let intervalLength := tRight - tLeft
  let x := (time - tLeft) / intervalLength
  let g0 := fLeft - fd
  let g1 := fRight - fd
  let (result, integrated) ← mcAdjustment g0 g1 x
  pure (result + fd, (integrated + fd * x) * intervalLength)

/-- `interpolate_forward_rate`, L272-386. -/
def mcForwardRate (time : K) (referenceTimes : List K) (yields discreteForwards : Option (List K)) : Option K :=
  match yields, discreteForwards with
  | some y, none => (monotoneConvex time (forwardRatesFromYields y referenceTimes none) referenceTimes).map Prod.fst
  | none, some f => (monotoneConvex time f referenceTimes).map Prod.fst
  | _, _ => none

/-- L509-523, common to both kinds of input. -/
def mcYieldFrom (time : K) (referenceTimes referenceYields discreteForwards : List K) : Option K := do
  let (_, integrated) ← monotoneConvex time discreteForwards referenceTimes
  let extendedTimes := 0 :: referenceTimes
  let extendedYields := 0 :: referenceYields
  let interval := findIntervalIndex time extendedTimes true
  let base ← gatherAt (List.zipWith (fun a b => a * b) extendedYields extendedTimes) interval
  pure ((base + integrated) / time)

/-- `interpolate_yields`, L389-523. -/
def mcYield (time : K) (referenceTimes : List K) (yields discreteForwards : Option (List K)) : Option K :=
  match yields, discreteForwards with
  | some y, none => mcYieldFrom time referenceTimes y (forwardRatesFromYields y referenceTimes none)
  | none, some f => mcYieldFrom time referenceTimes (yieldsFromForwardRates f referenceTimes none) f
  | _, _ => none

end Model
