import Verif.Model.Gauss

/-! # Moments of the quadrature tables -/

namespace Lemmas
open Model

/-- Numerator of the `k`-th moment, with roots and weights in units of `10^-25`. -/
def momentNum (roots weights : List Int) (k : Nat) : Int := (List.zipWith (fun r w => w * r ^ k) roots weights).foldr (· + ·) 0

/-- The moment is exact up to `10^-e`. -/
def momentOk (e : Nat) (roots weights : List Int) (k : Nat) : Bool :=
  decide (((k : Int) + 1) * momentNum roots weights k - (if k % 2 = 0 then 2 * 10 ^ (25 * (k + 1)) else 0) ≤ ((k : Int) + 1) * 10 ^ (25 * (k + 1) - e)) &&
  decide (-(((k : Int) + 1) * 10 ^ (25 * (k + 1) - e)) ≤ ((k : Int) + 1) * momentNum roots weights k - (if k % 2 = 0 then 2 * 10 ^ (25 * (k + 1)) else 0))

def ruleOk (e degree : Nat) (roots weights : List Int) : Bool :=
  decide (roots.length = weights.length) && (List.range (degree + 1)).all (momentOk e roots weights)

/-- All supported numbers of points. -/
def legendreSizes : List Nat := [2, 3, 4, 5, 6, 7, 8, 9, 10, 11, 12, 13, 14, 15, 20, 32]
def kronrodSizes : List Nat := [15, 21, 31]

def legendreOk (n : Nat) : Bool :=
  match legendreRoots n, legendreWeights n with
  | some r, some w => ruleOk 24 (2 * n - 1) r w && decide (r.length = n)
  | _, _ => false

def kronrodOk (n : Nat) : Bool :=
  match legendreRoots ((n - 1) / 2), stieltjesRoots n, kronrodWeights n, legendreWeights ((n - 1) / 2) with
  | some r, some s, some w, some _ => ruleOk 20 (3 * ((n - 1) / 2) + 1) (r ++ s) w
  | _, _, _, _ => false

theorem legendre_table : legendreSizes.all legendreOk = true := by decide +kernel
theorem kronrod_table : kronrodSizes.all kronrodOk = true := by decide +kernel

end Lemmas
