import Verif.Model.RandomOps
import Verif.Model.PrepareGrid

/-!
# Model of `tf_quant_finance/models/legacy`: `brownian_motion.py`, `brownian_motion_utils.py`, `ito_process.py`

The coefficients are tensors or functions of tensors of times. The derivation of drift or volatility from integrated ones (`brownian_motion_utils.py` L87-92, L143-145) is left out,
since the constructor refuses these arguments.
-/

namespace Model

abbrev TimeFn := NdArray ℝ → Except String (NdArray ℝ)
abbrev TimeFn2 := NdArray ℝ → NdArray ℝ → Except String (NdArray ℝ)

/-- A drift or volatility: missing, constant or a function of time. -/
inductive BmCoefficient
  | missing
  | const (c : NdArray ℝ)
  | fn (f : TimeFn)

/-- `outer_multiply`, brownian_motion_utils.py L32-53. -/
noncomputable def outerMultiply (x y : NdArray ℝ) : Except String (NdArray ℝ) :=
  NdArray.map2 (· * ·) (x.reshape (x.shape ++ List.replicate y.shape.length 1)) y

def onesTensor (shape : List Nat) : NdArray ℝ := ⟨shape, fun _ => 1⟩
def zerosTensor (shape : List Nat) : NdArray ℝ := ⟨shape, fun _ => 0⟩
def eyeTensor (dim : Nat) : NdArray ℝ := ⟨[dim, dim], fun idx => if idx.getD 0 0 = idx.getD 1 0 then 1 else 0⟩

/-- `_make_drift_fn_from_const`, L162-167. -/
noncomputable def constDriftFn (drift : NdArray ℝ) (dim : Nat) : TimeFn := fun t => do
  let c ← NdArray.map2 (· * ·) (onesTensor [dim]) drift
  outerMultiply (onesTensor t.shape) c

/-- `total_drift`, L79-81. -/
noncomputable def constTotalDrift (drift : NdArray ℝ) (dim : Nat) : TimeFn2 := fun t1 t2 => do
  let dt ← NdArray.map2 (· - ·) t2 t1
  let c ← NdArray.map2 (· * ·) (onesTensor [dim]) drift
  outerMultiply dt c

/-- `_default_drift_data`, L185-193. -/
def zeroDrift (dim : Nat) : TimeFn := fun t => .ok (zerosTensor (t.shape ++ [dim]))

/-- `construct_drift_data`, L56-98, without case 4. -/
noncomputable def constructDriftData (drift : BmCoefficient) (total : Option TimeFn2) (dim : Nat) : TimeFn × Option TimeFn2 :=
  match total with
  | none => match drift with
    | .missing => (zeroDrift dim, some fun t1 _ => zeroDrift dim t1)
    | .fn f => (f, none)
    | .const c => (constDriftFn c dim, some (constTotalDrift c dim))
  | some g => match drift with
    | .missing => (zeroDrift dim, some g)
    | .fn f => (f, some g)
    | .const c => (constDriftFn c dim, some g)

/-- `_ensure_matrix`, L211-220. -/
noncomputable def ensureMatrix (v : NdArray ℝ) (dim : Nat) : Except String (NdArray ℝ) :=
  if v.shape.length = 0 then NdArray.map2 (· * ·) (eyeTensor dim) v
  else if v.shape.length = 1 then
    .ok ⟨v.shape ++ v.shape, fun idx => if idx.getD 0 0 = idx.getD 1 0 then v.get [idx.getD 0 0] else 0⟩
  else .ok v

open scoped BigOperators in
/-- `_covar_from_vol`, L223-229; a matrix has rank two. -/
noncomputable def covarFromVol (v : NdArray ℝ) (dim : Nat) : Except String (NdArray ℝ) :=
  if v.shape.length = 0 then do
    let s ← NdArray.map2 (· * ·) v v
    NdArray.map2 (· * ·) s (eyeTensor dim)
  else if v.shape.length = 1 then
    .ok ⟨v.shape ++ v.shape, fun idx => if idx.getD 0 0 = idx.getD 1 0 then v.get [idx.getD 0 0] * v.get [idx.getD 0 0] else 0⟩
  else .ok ⟨[v.shape.getD 0 0, v.shape.getD 0 0], fun idx => ∑ k ∈ Finset.range (v.shape.getD 1 0), v.get [idx.getD 0 0, k] * v.get [idx.getD 1 0, k]⟩

/-- `vol_fn` L236-237. -/
noncomputable def constVolFn (v : NdArray ℝ) (dim : Nat) : TimeFn := fun t => do
  let m ← ensureMatrix v dim
  outerMultiply (onesTensor t.shape) m

/-- `covar_fn` L243-244. -/
noncomputable def constCovarFn (v : NdArray ℝ) (dim : Nat) : TimeFn2 := fun t1 t2 => do
  let m ← covarFromVol v dim
  let dt ← NdArray.map2 (· - ·) t2 t1
  outerMultiply dt m

/-- `unit_vol` L199-202. -/
def unitVol (dim : Nat) : TimeFn := fun t => .ok (onesTensor (t.shape ++ [dim, dim]))

/-- `covar` L204-206. -/
noncomputable def unitCovar (dim : Nat) : TimeFn2 := fun t1 t2 => do
  let dt ← NdArray.map2 (· - ·) t2 t1
  outerMultiply dt (eyeTensor dim)

/-- `construct_vol_data`, L101-159, without case 2. -/
noncomputable def constructVolData (vol : BmCoefficient) (total : Option TimeFn2) (dim : Nat) : TimeFn × Option TimeFn2 :=
  match total with
  | none => match vol with
    | .missing => (unitVol dim, some (unitCovar dim))
    | .fn f => (f, none)
    | .const c => (constVolFn c dim, some (constCovarFn c dim))
  | some g => match vol with
    | .missing => (unitVol dim, some g)
    | .fn f => (f, some g)
    | .const c => (constVolFn c dim, some g)

/-- The attributes of a `BrownianMotion`. -/
structure LegacyBrownian where
  dim : Nat
  driftFn : TimeFn
  totalDrift : Option TimeFn2
  volFn : TimeFn
  totalCovariance : Option TimeFn2

def BmCoefficient.isMissing : BmCoefficient → Bool
  | .missing => true
  | _ => false

/-- `BrownianMotion.__init__`, brownian_motion.py L43-199. -/
noncomputable def LegacyBrownian.make (dim : Nat) (drift vol : BmCoefficient) (totalDrift totalCovariance : Option TimeFn2) : Except String LegacyBrownian :=
  if dim < 1 then .error "Dimension must be 1 or greater."
  else if drift.isMissing ∧ totalDrift.isSome then .error "total_drift_fn must not be supplied if drift is not supplied."
  else if vol.isMissing ∧ totalCovariance.isSome then .error "total_covariance_fn must not be supplied if drift is not supplied."
  else
    let d := constructDriftData drift totalDrift dim
    let v := constructVolData vol totalCovariance dim
    .ok ⟨dim, d.1, d.2, v.1, v.2⟩

/-- A list as a tensor of rank one. -/
def vecTensor (l : List ℝ) : NdArray ℝ := ⟨[l.length], fun idx => l.getD (idx.headD 0) 0⟩

open scoped BigOperators in
/-- `tf.cumsum` along the second of three dimensions. -/
def cumsum1 (t : NdArray ℝ) : NdArray ℝ :=
  ⟨t.shape, fun idx => ∑ m ∈ Finset.range (idx.getD 1 0 + 1), t.get [idx.getD 0 0, m, idx.getD 2 0]⟩

open Classical in
/-- `_exact_sampling` L320-340 with the start times L311-313. -/
noncomputable def exactSampling (src : RandomSource) (cholesky : NdArray ℝ → NdArray ℝ) (totalDrift totalCovariance : TimeFn2) (times : List ℝ) (numSamples : Nat)
    (type : Option RandomType) (seed : Option Seed) : Except String (NdArray ℝ) :=
  let startTimes := 0 :: times.dropLast
  if ∃ p ∈ List.zip startTimes times, p.2 < p.1 then .error "Sampling times must be non-decreasing"
  else if ∃ t ∈ startTimes, t < 0 then .error "Sampling times must not be < 0."
  else do
    let drifts ← totalDrift (vecTensor startTimes) (vecTensor times)
    let covars ← totalCovariance (vecTensor startTimes) (vecTensor times)
    let deltas ← multivariateNormal src cholesky 0 [numSamples] (some drifts) (some covars) none type seed
    .ok (cumsum1 deltas)

/-- `sample_paths` L258-318 where both integrated coefficients are known. -/
noncomputable def legacySamplePaths (src : RandomSource) (cholesky : NdArray ℝ → NdArray ℝ) (totalDrift totalCovariance : TimeFn2) (times : List ℝ) (numSamples : Nat)
    (initial : Option (NdArray ℝ)) (type : Option RandomType) (seed : Option Seed) : Except String (NdArray ℝ) := do
  let paths ← exactSampling src cholesky totalDrift totalCovariance times numSamples type seed
  match initial with
  | none => .ok paths
  | some x => NdArray.map2 (· + ·) paths x

variable {K : Type} [Field K] [LinearOrder K]

/-- `_prepare_grid`, ito_process.py L364-392: times with their mask. -/
def legacyGrid [FloorRing K] (times : List K) (gridStep : K) : Option (List (K × Bool)) :=
  times.getLast?.map fun last =>
    ((tfRange last gridStep).map (fun t => (t, false)) ++ times.map (fun t => (t, true))).insertionSort (fun a b => a.1 ≤ b.1)

/-- The loop of `_sample_paths`, L322-360, for one path: the states that are written; `step i t0 t1 state` is the step number `i` from `t0` to `t1`. The bound
on the number of iterations is at least the number of points and is left out. -/
def legacyLoop {S : Type} (step : Nat → K → K → S → S) : Nat → K → List (K × Bool) → S → List S
  | _, _, [], _ => []
  | i, t0, (t, keep) :: rest, s =>
    let next := step i t0 t s
    if keep then next :: legacyLoop step (i + 1) t rest next else legacyLoop step (i + 1) t rest next

/-- `_sample_paths`, L312-362, for one path: states that are not written stay at zero. -/
def legacyEuler {S : Type} [FloorRing K] (step : Nat → K → K → S → S) (zero x0 : S) (times : List K) (gridStep : K) : Option (List S) :=
  (legacyGrid times gridStep).map fun grid =>
    let written := match grid with
      | [] => []
      | (t0, _) :: rest => legacyLoop step 0 t0 rest x0
    written ++ List.replicate (times.length - written.length) zero

open scoped BigOperators in
/-- `step_fn`, L324-335, of one path with components below `dim`: coefficients at the end of the step, `dw i` are the normal numbers drawn in step `i`. -/
noncomputable def legacyEulerStep (dim : Nat) (drift : ℝ → (Nat → ℝ) → Nat → ℝ) (vol : ℝ → (Nat → ℝ) → Nat → Nat → ℝ) (dw : Nat → Nat → ℝ) (i : Nat) (t0 t1 : ℝ) (x : Nat → ℝ) : Nat → ℝ :=
  fun j => x j + (t1 - t0) * drift t1 x j + ∑ l ∈ Finset.range dim, vol t1 x j l * (dw i l * Real.sqrt (t1 - t0))

/-- The draws of step `i` for the paths, L320 and L327-330: the mean has shape `[dim, 1]`. -/
noncomputable def legacyDraws (src : RandomSource) (cholesky : NdArray ℝ → NdArray ℝ) (dim numSamples : Nat) (type : Option RandomType) (seed : Option Seed) (i : Nat) :
    Except String (NdArray ℝ) :=
  multivariateNormal src cholesky i [numSamples] (some (zerosTensor [dim, 1])) none none type seed

end Model
