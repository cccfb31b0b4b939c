import Mathlib.Analysis.SpecialFunctions.Gamma.Basic
import Mathlib.LinearAlgebra.Matrix.Notation
import Verif.Model.NormalCdf

/-!
# Model of `tf_quant_finance/models/sabr/sabr_model.py`

One path over the reals. `tf.math.igamma` is the regularised lower incomplete gamma function. The root finder (`math.root_search.newton_root`) is
a parameter. A result that is not a number is `none`: this is the case for a zero volatility of volatility (`rho / volvol * 0`) and for a zero
integrated variance.
-/

namespace Model

/-- The parameters of the class, L116-124, without time dependence. -/
structure SabrPathParams where
  beta : ℝ
  volvol : ℝ
  rho : ℝ := 0
  shift : ℝ := 0
  psiThreshold : ℝ := 2
  truncation : Nat := 10

/-- L213-253: the assertions on the parameters. -/
noncomputable def sabrPathCheck (p : SabrPathParams) : Except String Unit :=
  open Classical in do
  if ¬ 0 ≤ p.beta then throw "Beta must be greater or equal to zero"
  if ¬ p.beta ≤ 1 then throw "Beta must be less than or equal to 1"
  if ¬ 0 ≤ p.volvol then throw "Volatility of volatility must be greater or equal to zero"
  if ¬ -1 < p.rho then throw "Correlation coefficient `rho` must be in (-1, 1)"
  if ¬ p.rho < 1 then throw "Correlation coefficient `rho` must be in (-1, 1)"
  if ¬ 1 ≤ p.psiThreshold then throw "Psi threshold must be in [1, 2]"
  if ¬ p.psiThreshold ≤ 2 then throw "Psi threshold must be in [1, 2]"

/-- `drift_fn`, L180. -/
def sabrDrift (_x : Fin 2 → ℝ) : Fin 2 → ℝ := fun _ => 0

open Classical in
/-- `_vol_fn`, L182-210. -/
noncomputable def sabrVol (p : SabrPathParams) (x : Fin 2 → ℝ) : Matrix (Fin 2) (Fin 2) ℝ :=
  let f := x 0
  let v := x 1
  let fb := f ^ p.beta
  let m11 := v * fb * Real.sqrt (1 - p.rho ^ 2)
  let m12 := v * fb * p.rho
  let m22 := p.volvol * v
  if p.beta ≠ 0 ∧ f ≤ 0 then 0 else !![m11, m12; 0, m22]

/-- `tf.math.igamma`. -/
noncomputable def igamma (s x : ℝ) : ℝ := (∫ t in (0 : ℝ)..x, t ^ (s - 1) * Real.exp (-t)) / Real.Gamma s

/-- `tf.math.igammac`. -/
noncomputable def igammac (s x : ℝ) : ℝ := 1 - igamma s x

/-- `ncx2cdf_and_gradient`, L540-571: value and gradient; for `l = 0` the gradient contains `0 * 0 ** -1`, which is not a number. -/
noncomputable def ncx2Terms (x k l : ℝ) : Nat → ℝ × ℝ × ℝ
  | 0 => (1, (1 - igammac ((k + 2 * 0) / 2) (x / 2)) / 1 * (l * 0.5) ^ 0, 0)
  | j + 1 =>
    let prev := ncx2Terms x k l j
    let factorial := prev.1 * ((j + 1 : Nat) : ℝ)
    let h := (1 - igammac ((k + 2 * ((j + 1 : Nat) : ℝ)) / 2) (x / 2)) / factorial
    (factorial, prev.2.1 + h * (l * 0.5) ^ (j + 1), prev.2.2 + h * 0.5 * ((j + 1 : Nat) : ℝ) * (l * 0.5) ^ j)

open Classical in
noncomputable def ncx2CdfAndGradient (x k l : ℝ) (truncation : Nat) : ℝ × Option ℝ :=
  let sums := ncx2Terms x k l truncation
  let f := Real.exp (-0.5 * l)
  let df := -0.5 * f
  (f * sums.2.1, if l = 0 then none else some (df * sums.2.1 + f * sums.2.2))

/-- `_sample_next_volatilities`, L487-489. -/
noncomputable def sabrNextVol (p : SabrPathParams) (vol dt dwv : ℝ) : ℝ :=
  vol * Real.exp (p.volvol * dwv * Real.sqrt dt - p.volvol ^ 2 * dt * 0.5)

/-- `_sample_integrated_variance`, L491-492. -/
noncomputable def sabrIntegratedVariance (p : SabrPathParams) (vol nextVol dt : ℝ) : ℝ :=
  (1 - p.rho ^ 2) * dt * (vol ^ 2 + nextVol ^ 2) / 2

/-- `uniforms`, L469. -/
noncomputable def sabrUniform (z : ℝ) : ℝ := 0.5 * (1 + erf z)

/-- `a`, L496-498. -/
noncomputable def sabrA (p : SabrPathParams) (forward vol nextVol iv : ℝ) : ℝ :=
  1 / iv * (forward ^ (1 - p.beta) / (1 - p.beta) + p.rho / p.volvol * (nextVol - vol)) ^ 2

/-- `b`, L499-502. -/
noncomputable def sabrB (p : SabrPathParams) : ℝ :=
  2 - (1 - 2 * p.beta - p.rho ^ 2 * (1 - p.beta)) / ((1 - p.beta) * (1 - p.rho ^ 2))

/-- `absorption_prob`, L504. -/
noncomputable def sabrAbsorption (p : SabrPathParams) (a : ℝ) : ℝ := 1 - igamma (sabrB p / 2) (a / 2)

/-- `m` and `psi`, L509-512. -/
noncomputable def sabrM (p : SabrPathParams) (a : ℝ) : ℝ := 2 - sabrB p + a
noncomputable def sabrPsi (p : SabrPathParams) (a : ℝ) : ℝ := 2 * (2 - sabrB p + 2 * a) / sabrM p a ^ 2

/-- `d * (e + z)**2`, L513-517. -/
noncomputable def sabrQuadratic (m psi z : ℝ) : ℝ :=
  let e2 := 2 / psi - 1 + Real.sqrt (2 / psi) * Real.sqrt (2 / psi - 1)
  let e := Real.sqrt e2
  let d := m / (1 + e2)
  d * (e + z) ^ 2

/-- `next_forward_cond_1`, L516-517, from the quadratic. -/
noncomputable def sabrForwardQuadratic (p : SabrPathParams) (iv q : ℝ) : ℝ := ((1 - p.beta) ^ 2 * iv * q) ^ (0.5 / (1 - p.beta))

/-- `_root_chi2`, L529-537; `root f x` is the result of the root finder for the function `f` with its gradient from `x`. -/
noncomputable def sabrRootChi2 (root : (ℝ → ℝ × Option ℝ) → ℝ → ℝ) (p : SabrPathParams) (a b u : ℝ) : ℝ :=
  let equation := fun c : ℝ =>
    let q := ncx2CdfAndGradient a b c p.truncation
    (1 - q.1 - u, q.2.map (fun g => -g))
  max (root equation a) 0

/-- `next_forward_cond_2`, L519-521. -/
noncomputable def sabrForwardRoot (p : SabrPathParams) (iv c : ℝ) : ℝ := (c * (1 - p.beta) ^ 2 * iv) ^ (1 / (2 - 2 * p.beta))

open Classical in
/-- `_sample_forwards`, L494-527. -/
noncomputable def sabrNextForward (root : (ℝ → ℝ × Option ℝ) → ℝ → ℝ) (p : SabrPathParams) (forward vol nextVol iv u z : ℝ) : Option ℝ :=
  if p.beta ≠ 0 ∧ forward ≤ 0 then some 0
  else if p.volvol = 0 ∨ iv = 0 then none
  else
    let a := sabrA p forward vol nextVol iv
    if p.beta ≠ 0 ∧ sabrAbsorption p a > u then some 0
    else if sabrM p a ≥ 0 ∧ sabrPsi p a ≤ p.psiThreshold then some (sabrForwardQuadratic p iv (sabrQuadratic (sabrM p a) (sabrPsi p a) z))
    else some (sabrForwardRoot p iv (sabrRootChi2 root p a (sabrB p) u))

/-- The body of `_propagate_to_time`, L456-480, without the time: the state is forward and volatility. -/
noncomputable def sabrStep (root : (ℝ → ℝ × Option ℝ) → ℝ → ℝ) (p : SabrPathParams) (dt : ℝ) (s : Option ℝ × ℝ) (draw : ℝ × ℝ × ℝ) : Option ℝ × ℝ :=
  let nextVol := sabrNextVol p s.2 dt draw.1
  let iv := sabrIntegratedVariance p s.2 nextVol dt
  (s.1.bind fun f => sabrNextForward root p f s.2 nextVol iv (sabrUniform draw.2.1) draw.2.2, nextVol)

/-- The loop of `_propagate_to_time`, L451-485, for any step: `fuel` is `maximum_iterations`; time, state and index of the next draw. -/
def propagateLoop {K S : Type} [Field K] [LinearOrder K] (step : K → S → Nat → S) (endTime timeStep : K) : Nat → K × S × Nat → K × S × Nat
  | 0, s => s
  | fuel + 1, (t, s, i) =>
    if t < endTime then
      let timeToEnd := endTime - t
      let dt := if timeToEnd ≤ timeStep then timeToEnd else timeStep
      propagateLoop step endTime timeStep fuel (t + dt, step dt s i, i + 1)
    else (t, s, i)

/-- The loop of `_sabr_sample_paths`, L413-435: the states at the requested times and the number of draws used. The next interval starts at the
requested time, L428-429. -/
def propagateTimes {K S : Type} [Field K] [LinearOrder K] (step : K → S → Nat → S) (timeStep : K) (fuel : Nat) : List K → K × S × Nat → List S × Nat
  | [], s => ([], s.2.2)
  | t :: ts, s =>
    let r := propagateLoop step t timeStep fuel s
    let rest := propagateTimes step timeStep fuel ts (t, r.2.1, r.2.2)
    (r.2.1 :: rest.1, rest.2)

/-- L460: the element `(i, j)` of the draws `[num_samples, 3]` reshaped to `[3, num_samples]`, as `(sample, dimension)`. -/
def sabrDrawIndex (numSamples i j : Nat) : Nat × Nat := ((i * numSamples + j) / 3, (i * numSamples + j) % 3)

/-- `num_time_steps`, L396-398, which is bound only if the draws are made in advance and is read in L418; `listed` says whether the random type is one
of L393-395. -/
def sabrNumSteps {K : Type} [Field K] [LinearOrder K] [FloorRing K] (precompute listed : Bool) (timeStep : K) (times : List K) : Except String Int :=
  if precompute || listed then .ok (⌈times.getLastD 0 / timeStep⌉ + times.length)
  else .error "NameError: free variable 'num_time_steps' referenced before assignment in enclosing scope"

/-- L333-356 with the shift: the forwards returned. `unbiased` says whether the scheme of `_sabr_sample_paths` is used, L335-337. -/
noncomputable def sabrUnbiased (enable callable : Bool) (p : SabrPathParams) : Bool :=
  open Classical in enable && !(callable || decide (p.beta = 1))

end Model
