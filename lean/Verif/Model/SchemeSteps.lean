import Verif.Model.Sampling
import Verif.Model.Gbm

/-!
# Steps of the Milstein sampler, `tf_quant_finance/models/milstein_sampling.py`

One path, as in the model of the samplers. The gradients of the volatility are parameters.
-/

namespace Model

/-- `_milstein_step` for `dim == 1`, L596-642. -/
noncomputable def milsteinStepOne (drift vol gradVol : ℝ → ℝ → ℝ) (currentTime dt x z : ℝ) : ℝ :=
  milstein1d z dt x (drift currentTime x) (vol currentTime x) (gradVol currentTime x)

/-- `_milstein_step` for `dim > 1`, L596-666. The draws of a step are the normal draws and the three sets of `stratonovich_draws`. -/
noncomputable def milsteinStepMany {d p : Nat} (drift : ℝ → (Fin d → ℝ) → Fin d → ℝ) (vol : ℝ → (Fin d → ℝ) → Matrix (Fin d) (Fin d) ℝ)
    (gradVol : ℝ → (Fin d → ℝ) → Fin d → Matrix (Fin d) (Fin d) ℝ) (currentTime dt : ℝ) (x : Fin d → ℝ)
    (z : (Fin d → ℝ) × (Fin 3 → Fin d → Fin (p + 1) → ℝ)) : Fin d → ℝ :=
  milsteinNd z.1 dt x (drift currentTime x) (vol currentTime x) (gradVol currentTime x) (z.2 0) (z.2 1) (z.2 2)

/-- `drift_fn` of the multivariate process, `multivariate_geometric_brownian_motion.py` L130-136. -/
noncomputable def multiGbmDrift {d : Nat} (means : Fin d → ℝ) (x : Fin d → ℝ) (k : Fin d) : ℝ := means k * x k

end Model
