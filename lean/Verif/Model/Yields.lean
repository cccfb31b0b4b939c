import Mathlib.Analysis.SpecialFunctions.Exp
import Mathlib.Algebra.BigOperators.Group.List.Basic

/-!
# Model of `tf_quant_finance/rates/analytics/cashflows.py`: `pv_from_yields` and `yields_from_pv`

Over the reals. `groups` are the segment ids of the cashflows; the documentation requires them to be sorted.
-/

namespace Model

/-- `tf.math.segment_sum`: entry `g` is the sum of the entries whose segment id is `g`; there are as many entries as the last
(largest) id plus one. -/
noncomputable def segmentSum (xs : List ℝ) (groups : List Nat) : List ℝ :=
  (List.range (groups.getLast?.elim 0 (· + 1))).map
    (fun (g : Nat) => ((List.zip xs groups).filter (fun (p : ℝ × Nat) => p.2 == g)).map Prod.fst |>.sum)

/-- `cashflows * exp(-times * yields[groups])`, L161-162 and L275-276. -/
noncomputable def discountedFlows (cashflows times yields : List ℝ) (groups : List Nat) : List ℝ :=
  let cashflowYields := groups.map (fun (g : Nat) => yields.getD g 0)
  List.zipWith (fun (c e : ℝ) => c * e) cashflows
    (List.zipWith (fun (t y : ℝ) => Real.exp (-t * y)) times cashflowYields)

/-- `pv_from_yields` L71-165. Without groups there is one yield (a tensor of one element) and one result. -/
noncomputable def pvFromYields (cashflows times yields : List ℝ) (groups : Option (List Nat)) : List ℝ :=
  match groups with
  | some groups => segmentSum (discountedFlows cashflows times yields groups) groups
  | none => [(List.zipWith (fun (c t : ℝ) => c * Real.exp (-t * yields.getD 0 0)) cashflows times).sum]

/-- `pv_and_duration` L274-279. -/
noncomputable def pvAndDuration (cashflows times : List ℝ) (groups : List Nat) (yields : List ℝ) : List ℝ × List ℝ :=
  let discounted := discountedFlows cashflows times yields groups
  (segmentSum discounted groups, segmentSum (List.zipWith (fun (d t : ℝ) => d * t) discounted times) groups)

/-- The step `delta_yields` of `_body` L289-290. -/
noncomputable def yieldDelta (cashflows times : List ℝ) (groups : List Nat) (presentValues yields : List ℝ) : List ℝ :=
  let pd := pvAndDuration cashflows times groups yields
  List.zipWith (fun (n d : ℝ) => n / d) (List.zipWith (fun (p q : ℝ) => p - q) pd.1 presentValues) pd.2

/-- The while loop L283-301: `fuel` is the number of iterations left. `reduce_max(abs(delta)) <= tolerance` is that all
entries are within the tolerance. -/
noncomputable def yieldLoop (cashflows times : List ℝ) (groups : List Nat) (presentValues : List ℝ) (tolerance : ℝ) :
    Nat → List ℝ → List ℝ
  | 0, yields => yields
  | fuel + 1, yields =>
    let delta := yieldDelta cashflows times groups presentValues yields
    let next := List.zipWith (fun (y d : ℝ) => y + d) yields delta
    open Classical in
    if ∀ d ∈ delta, |d| ≤ tolerance then next
    else yieldLoop cashflows times groups presentValues tolerance fuel next

/-- `yields_from_pv` L168-302. Without groups all cashflows are in group 0 (L269-270). -/
noncomputable def yieldsFromPv (cashflows times presentValues : List ℝ) (groups : Option (List Nat)) (tolerance : ℝ)
    (maxIterations : Nat) : List ℝ :=
  yieldLoop cashflows times (groups.getD (cashflows.map (fun (_ : ℝ) => 0))) presentValues tolerance maxIterations
    (presentValues.map (fun (_ : ℝ) => 0))

end Model
