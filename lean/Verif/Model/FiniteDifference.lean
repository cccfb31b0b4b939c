import Mathlib.LinearAlgebra.Matrix.NonsingularInverse
import Mathlib.Data.Rat.Defs

/-!
# Finite difference methods

`experimental/finite_difference/methods.py` without the data frames of errors. An array of dimension `d` is a function of the index; NaN is `none`.
Floats are elements of a field. Integers of `np.power` have 64 bits, all others are unbounded.
-/

namespace Model
open scoped BigOperators

/-- `rosenbrock`, L23-28, for one point. -/
def rosenbrock {K : Type} [Ring K] (x : List K) : K :=
  (List.zipWith (fun current next => 100 * (next - current ^ 2) ^ 2 + (1 - current) ^ 2) x.dropLast x.tail).sum

/-- An integer of 64 bits. -/
def int64 (x : Int) : Int := (x + 2 ^ 63) % 2 ^ 64 - 2 ^ 63

/-- `_check_not_too_large(np.power(num, ndim) * ndim)`, L33-34 and L221-223. -/
def checkNotTooLarge (num ndim : Nat) : Except String Unit :=
  if int64 (int64 ((num : Int) ^ ndim) * ndim) > 10000000 then .error "Attempting to create an array with more than 10M values" else .ok ()

/-- `grid`, L31-39: the points by their index, and the step. -/
def differenceGrid (K : Type) [Field K] (num ndim : Nat) (large : Bool) : Except String (((Fin ndim → Nat) → Fin ndim → K) × K) := do
  if large then pure () else checkNotTooLarge num ndim
  if num = 1 then .error "division by zero"
  else .ok (fun idx a => (idx a : K) / ((num : K) - 1), 1 / ((num : K) - 1))

/-- The bounds of `to_slice(offset)` in an axis with `n` entries, L210-211. -/
def sliceBounds (n : Nat) (offset : Int) : Nat × Nat := if offset ≥ 0 then (min offset.toNat n, n) else (0, (n + offset).toNat)

/-- The index of the entry that is written to index `i`, L215-217. -/
def shiftIndex (n : Nat) (offset : Int) (i : Nat) : Option Nat :=
  let source := sliceBounds n (-offset)
  let target := sliceBounds n offset
  if target.1 ≤ i ∧ i < target.2 then some (source.1 + (i - target.1)) else none

variable {K : Type} {d : Nat}

/-- `shift`, L197-218. -/
def shiftArray (shape : Fin d → Nat) (x : (Fin d → Nat) → Option K) (offsets : Fin d → Int) : (Fin d → Nat) → Option K := fun idx =>
  if ∀ a, (shiftIndex (shape a) (offsets a) (idx a)).isSome then x (fun a => (shiftIndex (shape a) (offsets a) (idx a)).getD 0) else none

/-- An operation on floats, NaN if an argument is. -/
def nanMap2 (f : K → K → K) (x y : Option K) : Option K := x.bind fun a => y.map fun b => f a b

variable [Field K]

/-- `-eye[d]`, L61-62. -/
def minusUnit (a : Fin d) : Fin d → Int := fun b => if a = b then -1 else 0

/-- `central`, L58-77. -/
def centralDifference (shape : Fin d → Nat) (f0 : (Fin d → Nat) → Option K) (ds : List (Fin d)) (w : K) : Except String ((Fin d → Nat) → Option K) :=
  match ds with
  | [] => .ok f0
  | [a] =>
    let i := minusUnit a
    .ok fun idx => (nanMap2 (fun x y => x - y) (shiftArray shape f0 i idx) (shiftArray shape f0 (-i) idx)).map fun x => x / (2 * w)
  | [a, b] =>
    let i := minusUnit a
    let j := minusUnit b
    if a = b then
      .ok fun idx => (nanMap2 (fun x y => x + y) (nanMap2 (fun x y => x - 2 * y) (shiftArray shape f0 i idx) (f0 idx)) (shiftArray shape f0 (-i) idx)).map
        fun x => x / w ^ 2
    else
      .ok fun idx => (nanMap2 (fun x y => x + y) (nanMap2 (fun x y => x - y) (nanMap2 (fun x y => x - y) (shiftArray shape f0 (i + j) idx)
        (shiftArray shape f0 (i - j) idx)) (shiftArray shape f0 (j - i) idx)) (shiftArray shape f0 (-i - j) idx)).map fun x => x / (4 * w ^ 2)
  | _ => .error "NotImplementedError"

/-- `triangular`, L80-82. -/
def triangular (n : Nat) : Nat := n * (n + 1) / 2

/-- `np.triu_indices(ndim, k=1)`. -/
def upperPairs (ndim : Nat) : List (Nat × Nat) := (List.range ndim).flatMap fun i => ((List.range ndim).filter fun j => i < j).map fun j => (i, j)

/-- `derivative_names`, L85-95: the axes of each derivative. -/
def derivativeNames (ndim : Nat) : List (List Nat) :=
  [[]] ++ (List.range ndim).map (fun i => [i]) ++ (List.range ndim).map (fun i => [i, i]) ++ (upperPairs ndim).map (fun p => [p.1, p.2])

/-- The row of `coeffs` of a stencil point, L119-133. -/
def taylorRow (ndim : Nat) (target point : Nat → K) : List K :=
  let delta : Nat → K := fun a => point a - target a
  [1] ++ (List.range ndim).map delta ++ (List.range ndim).map (fun i => delta i * delta i / 2) ++ (upperPairs ndim).map (fun p => delta p.1 * delta p.2)

open Classical in
/-- `taylor_approx`, L98-137, for one target. -/
noncomputable def taylorApprox (ndim : Nat) (target : Nat → K) (stencil : Fin (triangular (ndim + 1)) → Nat → K) (values : Fin (triangular (ndim + 1)) → K) :
    Except String (Fin (triangular (ndim + 1)) → K) :=
  let coeffs : Matrix (Fin (triangular (ndim + 1))) (Fin (triangular (ndim + 1))) K := Matrix.of fun s c => (taylorRow ndim target (stencil s)).getD c 0
  if coeffs.det = 0 then .error "Singular matrix" else .ok (coeffs⁻¹.mulVec values)

/-- `non_uniform_approx_nearest`, L140-147, at point `t`. `nearest t` is the row `np.argpartition(norms, k)[t]`, which exists only if `k` is an index. -/
noncomputable def approxNearest (ndim numPoints : Nat) (points : Nat → Nat → K) (values : Nat → K) (nearest : Nat → Nat → Nat) (t : Nat) :
    Except String (Fin (triangular (ndim + 1)) → K) :=
  if triangular (ndim + 1) < numPoints then
    taylorApprox ndim (points t) (fun s => points (nearest t s.val)) (fun s => values (nearest t s.val))
  else .error "kth out of bounds"

end Model
