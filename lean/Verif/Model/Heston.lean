import Verif.Model.Gbm
import Verif.Model.NormalCdf
import Verif.Model.Sampling

/-!
# Model of `tf_quant_finance/models/heston/heston_model.py`

One path over the reals; the two normal draws of each step are a parameter. `steps_num` is static. `math.erf` is the error function.
-/

namespace Model

/-- The parameters in force in a step. -/
structure HestonParams where
  meanReversion : ℝ
  theta : ℝ
  volvol : ℝ
  rho : ℝ

/-- The attributes of the class, L125-141. -/
structure Heston where
  meanReversion : TimeParam
  theta : TimeParam
  volvol : TimeParam
  rho : TimeParam

/-- `_drift_fn`, L164-173. -/
noncomputable def hestonDrift (p : HestonParams) (x : Fin 2 → ℝ) : Fin 2 → ℝ := ![-x 1 / 2, p.meanReversion * (p.theta - x 1)]

/-- `_vol_fn`, L143-162. -/
noncomputable def hestonVol (p : HestonParams) (x : Fin 2 → ℝ) : Matrix (Fin 2) (Fin 2) ℝ :=
  let vol := Real.sqrt |x 1|
  !![vol, 0; p.volvol * p.rho * vol, p.volvol * Real.sqrt (1 - p.rho ^ 2) * vol]

/-- `expected_total_variance`, L462-508, for constant parameters. -/
noncomputable def expectedTotalVariance (meanReversion theta initialVar futureTime : ℝ) : ℝ :=
  let reversionStrength := (1 - Real.exp (-meanReversion * futureTime)) / meanReversion
  (initialVar - theta) * reversionStrength + theta * futureTime

/-- `m` in `_update_variance`, L528-530. -/
noncomputable def hestonMean (p : HestonParams) (v dt : ℝ) : ℝ :=
  let scaledTime := Real.exp (-p.meanReversion * dt)
  p.theta + (v - p.theta) * scaledTime

/-- `s_squared` in `_update_variance`, L528-534. -/
noncomputable def hestonVariance (p : HestonParams) (v dt : ℝ) : ℝ :=
  let scaledTime := Real.exp (-p.meanReversion * dt)
  let volvolSquared := p.volvol ^ 2
  v * volvolSquared * scaledTime / p.meanReversion * (1 - scaledTime) + p.theta * volvolSquared / 2 / p.meanReversion * (1 - scaledTime) ^ 2

/-- The quadratic scheme, L539-543. -/
noncomputable def quadraticVariance (m psi z : ℝ) : ℝ :=
  let psiInv := 2 / psi
  let bSquared := psiInv - 1 + Real.sqrt (psiInv * (psiInv - 1))
  let a := m / (1 + bSquared)
  a * (Real.sqrt bSquared + z) ^ 2

/-- The exponential scheme, L536, L545-549. -/
noncomputable def exponentialVariance (m psi z : ℝ) : ℝ :=
  let uniform := 0.5 * (1 + erf (z / Real.sqrt 2))
  let p := (psi - 1) / (psi + 1)
  let beta := (1 - p) / m
  (if uniform > p then Real.log (1 - p) - Real.log (1 - uniform) else 0) / beta

open Classical in
/-- `_update_variance`, L522-551. -/
noncomputable def updateVariance (p : HestonParams) (v dt z : ℝ) : ℝ :=
  let m := hestonMean p v dt
  let psi := hestonVariance p v dt / m ^ 2
  if psi < 1.5 then quadraticVariance m psi z else exponentialVariance m psi z

/-- `_update_log_spot`, L554-572. -/
noncomputable def updateLogSpot (p : HestonParams) (v v' logSpot dt z : ℝ) : ℝ :=
  let k0 := -p.rho * p.meanReversion * p.theta / p.volvol * dt
  let k1 := 0.5 * dt * (p.meanReversion * p.rho / p.volvol - 0.5) - p.rho / p.volvol
  let k2 := 0.5 * dt * (p.meanReversion * p.rho / p.volvol - 0.5) + p.rho / p.volvol
  let k3 := 0.5 * dt * (1 - p.rho ^ 2)
  let k4 := 0.5 * dt * (1 - p.rho ^ 2)
  logSpot + k0 + k1 * v + k2 * v' + Real.sqrt (k3 * v + k4 * v') * z

open Classical in
/-- One step, L405-429. The state is the logarithm of the spot and the variance. -/
noncomputable def hestonStep (tolerance : ℝ) (_t dt : ℝ) (x : ℝ × ℝ) (d : HestonParams × ℝ × ℝ) : ℝ × ℝ :=
  let (p, z0, z1) := d
  let nextVol := if dt > tolerance then updateVariance p x.2 dt z0 else x.2
  let nextLogSpot := if dt > tolerance then updateLogSpot p x.2 nextVol x.1 dt z1 else x.1
  (nextLogSpot, nextVol)

namespace TimeParam

/-- The jumps that are added to the grid, L612-615. -/
def jumpList : TimeParam → List ℝ
  | constant _ => []
  | piecewise jumps _ => jumps

end TimeParam

namespace Heston
variable (h : Heston)

noncomputable def jumps : List ℝ := h.meanReversion.jumpList ++ h.theta.jumpList ++ h.volvol.jumpList ++ h.rho.jumpList

/-- `_prepare_grid` without a supplied grid, L612-632. In `sample_paths` the argument `time_step` is always set (L294), so the branch L620-623 is
not taken. The sort is stable. -/
noncomputable def grid (times : List ℝ) (timeStep : ℝ) : List (ℝ × Bool) :=
  let grid := tfRange (times.getLastD 0) timeStep
  (grid.map (fun t => (t, false)) ++ times.map (fun t => (t, true)) ++ h.jumps.map (fun t => (t, false))).insertionSort (fun a b => a.1 ≤ b.1)

/-- `_get_parameters`, L511-519, at one time. -/
noncomputable def params (t : ℝ) : HestonParams := ⟨h.meanReversion.eval t, h.theta.eval t, h.volvol.eval t, h.rho.eval t⟩

/-- `tf.reduce_min(dt)`, L337, L341. -/
noncomputable def minStep (times : List ℝ) : ℝ :=
  let dt := List.zipWith (fun a b => a - b) times.tail times.dropLast
  dt.tail.foldl min (dt.headD 0)

/-- `_sample_paths`, L322-460. The loop starts with the count zero (L445), whatever the mask. -/
noncomputable def samplePaths (requested : Nat) (grid : List (ℝ × Bool)) (tolerance : ℝ) (x0 : ℝ × ℝ) (draws : List (ℝ × ℝ)) : List (Option (ℝ × ℝ)) :=
  let times := grid.map Prod.fst
  let parameters := times.map (fun t => h.params (t + minStep times / 2))
  let first := times.headD 0
  if requested = 1 then [some (lastLoop (hestonStep tolerance) requested grid.tail (parameters.zip draws) first 0 x0)]
  else recordingLoop (hestonStep tolerance) requested grid.tail (parameters.zip draws) first 0 x0 ((List.replicate requested none).set 0 (some x0))

/-- `sample_paths`, L177-320. -/
noncomputable def sample (times : List ℝ) (timeStep tolerance : ℝ) (timesGrid : Option (List ℝ)) (x0 : ℝ × ℝ) (draws : List (ℝ × ℝ)) :
    Option (List (Option (ℝ × ℝ))) :=
  match timesGrid with
  | none => some (h.samplePaths times.length (h.grid times timeStep) tolerance x0 draws)
  | some g => (prepareGrid times timeStep 0 none (some g)).map fun (all, mask, _) => h.samplePaths times.length (all.zip mask) tolerance x0 draws

end Heston

end Model
