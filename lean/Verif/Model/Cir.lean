import Mathlib.Analysis.SpecialFunctions.Exp
import Mathlib.Analysis.SpecialFunctions.Pow.Real

/-!
# Model of `tf_quant_finance/models/cir/cir_model.py`

One path. The Poisson and gamma draws are parameters: at each step a number drawn with the mean `cirPoissonMean` and a value drawn with the shape
`cirGammaShape` and the rate `cirGammaRate`.
-/

namespace Model

/-- `CirModel.__init__`, L46-93. -/
structure Cir where
  theta : ℝ
  meanReversion : ℝ
  sigma : ℝ

namespace Cir
variable (m : Cir)

/-- `_drift_fn`, L98-107. -/
def drift (x : ℝ) : ℝ := m.theta - m.meanReversion * x

/-- `_volatility_fn`, L109-116. -/
noncomputable def vol (x : ℝ) : ℝ := m.sigma * Real.sqrt x

/-- `zeta`, L255-257. -/
noncomputable def zeta (dt : ℝ) : ℝ := if m.meanReversion = 0 then dt else (1 - Real.exp (-m.meanReversion * dt)) / m.meanReversion

/-- `c`, L258-259. -/
noncomputable def c (dt : ℝ) : ℝ := 4 / (m.sigma ^ 2 * m.zeta dt)

/-- `d`, L260. -/
noncomputable def d (dt : ℝ) : ℝ := m.c dt * Real.exp (-m.meanReversion * dt)

/-- `lam`, L264. -/
noncomputable def poissonMean (dt x : ℝ) : ℝ := m.d dt * x / 2

/-- `gamma_param_alpha`, L268. -/
noncomputable def gammaShape (n : ℕ) : ℝ := n + 2 * m.theta / m.sigma ^ 2

/-- `gamma_param_beta`, L269. -/
noncomputable def gammaRate (dt : ℝ) : ℝ := m.c dt / 2

/-- `new_x`, L278. -/
noncomputable def next (dt x gamma : ℝ) : ℝ := if m.c dt > 0 then gamma else x

/-- The loop L252-292 with the time increments L247-248: `draws` gives the two draws of step `i` from the parameters. -/
noncomputable def loop (poisson : ℕ → ℝ → ℕ) (gamma : ℕ → ℝ → ℝ → ℝ) : List ℝ → ℕ → ℝ → ℝ → List ℝ
  | [], _, _, _ => []
  | t' :: rest, i, t, x =>
    let dt := t' - t
    let n := poisson i (m.poissonMean dt x)
    let new := m.next dt x (gamma i (m.gammaShape n) (m.gammaRate dt))
    new :: loop poisson gamma rest (i + 1) t' new

/-- `_sample_paths`, L230-300, for one path. -/
noncomputable def samplePath (poisson : ℕ → ℝ → ℕ) (gamma : ℕ → ℝ → ℝ → ℝ) (times : List ℝ) (x0 : ℝ) : List ℝ := m.loop poisson gamma times 0 0 x0

end Cir

/-- `poisson_seed_fn`, L332. -/
def cirPoissonSeed (seed : Int × Int) (i : Nat) : Int × Int := (seed.1, seed.2 + i)

/-- `gamma_seed_fn`, L333. -/
def cirGammaSeed (seed : Int × Int) (i : Nat) : Int × Int := (seed.1 + 1, seed.2 + i)

end Model
