import Mathlib.Analysis.SpecialFunctions.Pow.Real
import Mathlib.Analysis.SpecialFunctions.Gamma.Basic
import Mathlib.LinearAlgebra.Matrix.Notation
import Mathlib.Topology.Algebra.InfiniteSum.Defs
import Mathlib.Algebra.Order.Floor.Ring

/-! The SABR model `dF = v F^beta dW`, `dv = volvol v dZ`, `dW dZ = rho dt`, and the noncentral chi-square distribution. -/

namespace Spec

/-- The covariance matrix of `(dF, dv)` for each unit of time. -/
noncomputable def sabrCovariance (beta volvol rho f v : ℝ) : Matrix (Fin 2) (Fin 2) ℝ :=
  !![(v * f ^ beta) ^ 2, rho * (v * f ^ beta) * (volvol * v); rho * (v * f ^ beta) * (volvol * v), (volvol * v) ^ 2]

/-- The distribution function of the chi-square distribution with `k` degrees of freedom. -/
noncomputable def chiSquareCdf (k x : ℝ) : ℝ := (∫ t in (0 : ℝ)..(x / 2), t ^ (k / 2 - 1) * Real.exp (-t)) / Real.Gamma (k / 2)

/-- The distribution function of the noncentral chi-square distribution: the number of additional pairs of degrees of freedom is Poisson
distributed with mean `l / 2`. -/
noncomputable def noncentralCdf (k l x : ℝ) : ℝ := ∑' j : ℕ, Real.exp (-(l / 2)) * (l / 2) ^ j / j.factorial * chiSquareCdf (k + 2 * j) x

/-- Mean and variance of the noncentral chi-square distribution. -/
def noncentralMean (k l : ℝ) : ℝ := k + l
def noncentralVariance (k l : ℝ) : ℝ := 2 * (k + 2 * l)

/-- The state after an interval of length `length` cut into steps of the length `timeStep` with a shorter last one; step `j` uses draw `i + j`. -/
def intervalState {K S : Type} [Field K] [LinearOrder K] [FloorRing K] (step : K → S → Nat → S) (timeStep length : K) (s : S) (i : Nat) : S :=
  (List.range ⌈length / timeStep⌉.toNat).foldl (fun (s : S) (j : Nat) => step (min timeStep (length - (j : K) * timeStep)) s (i + j)) s

/-- The states at the times, each interval starting where the last one has ended. -/
def timesStates {K S : Type} [Field K] [LinearOrder K] [FloorRing K] (step : K → S → Nat → S) (timeStep : K) : List K → K → S → Nat → List S
  | [], _, _, _ => []
  | t :: ts, t0, s, i =>
    let s' := intervalState step timeStep (t - t0) s i
    s' :: timesStates step timeStep ts t s' (i + ⌈(t - t0) / timeStep⌉.toNat)

end Spec
