import Verif.Model.RandomOps

/-!
# Model of `tf_quant_finance/models/utils.py`: draws for simulations and updates along an axis

Also the split of the draws by `milstein_sampling.py` L276-299, L612-617.
-/

namespace Model

/-- L98-99. -/
def RandomType.isAntithetic (type : Option RandomType) : Bool := type = some .pseudoAntithetic || type = some .statelessAntithetic

/-- `sample_shape` L98-107. -/
def mcSampleShape (type : Option RandomType) (batch : List Nat) (paths : Nat) : List Nat :=
  if RandomType.isAntithetic type then paths :: batch else batch ++ [paths]

/-- The permutation L119-126. -/
def mcPermutation (type : Option RandomType) (rank : Nat) : List Nat :=
  if RandomType.isAntithetic type && decide (rank > 3) then [rank - 2] ++ List.range' 1 (rank - 3) ++ [0, rank - 1]
  else [rank - 2] ++ List.range (rank - 2) ++ [rank - 1]

/-- `generate_mc_normal_draws` L20-128. -/
noncomputable def mcNormalDraws (src : RandomSource) (cholesky : NdArray ℝ → NdArray ℝ) (call draws steps paths : Nat) (type : Option RandomType)
    (batch : List Nat) (skip : Option Nat) (seed : Option Seed) : Except String (NdArray ℝ) := do
  let total : NdArray ℝ := ⟨[steps * draws], fun _ => 0⟩
  let sample := mcSampleShape type batch paths
  let x ← multivariateNormal src cholesky call sample (some total) none none type seed (skip.getD 0)
  let r := x.reshape (sample ++ [steps, draws])
  return r.transpose (mcPermutation type r.shape.length)

/-- The number of draws which the Milstein scheme asks for, L283. -/
def milsteinNumDraws (dim order : Nat) : Nat := dim + 3 * dim * order

/-- The increments of the Brownian motions, `all_normal_draws[:, :, :dim]` L290 and `normal_draws[i]` L605. -/
def milsteinIncrement {K : Type} (all : NdArray K) (step path i : Nat) : K := all.get [step, path, i]

/-- The starts of the three sets of auxiliary draws, L295-299. -/
def milsteinStart (dim order : Nat) : Nat → Nat
  | 0 => dim
  | j + 1 => milsteinStart dim order j + dim * order

/-- The auxiliary draws of a set, L296-299 and the reshape to `[num_samples, dim, order]` L613-617. -/
def milsteinAux {K : Type} (all : NdArray K) (dim order : Nat) (set step path i r : Nat) : K :=
  let slice : NdArray K := ⟨[all.shape.getD 1 0, dim * order], fun idx => all.get [step, idx.getD 0 0, milsteinStart dim order set + idx.getD 1 0]⟩
  (slice.reshape [all.shape.getD 1 0, dim, order]).get [path, i, r]

/-- The mask L193-198: `tf.one_hot` is zero for an index outside of the depth. -/
def axisMask (rank axis size : Nat) (ind : Int) : NdArray Bool :=
  let oneHot : NdArray Bool := ⟨[size], fun idx => decide ((idx.getD 0 0 : Int) = ind)⟩
  oneHot.reshape (List.replicate axis 1 ++ [size] ++ List.replicate (rank - axis - 1) 1)

/-- `tf.where` with broadcasting. -/
def ndWhere {K : Type} (mask : NdArray Bool) (a b : NdArray K) : Except String (NdArray K) :=
  match (broadcastShape mask.shape a.shape).bind (fun s => broadcastShape s b.shape) with
  | some s => .ok ⟨s, fun idx => if mask.get (broadcastIndex mask.shape idx) then a.get (broadcastIndex a.shape idx) else b.get (broadcastIndex b.shape idx)⟩
  | none => .error "Incompatible shapes"

/-- `maybe_update_along_axis` L131-206 for static shapes and an axis which is not negative. -/
def maybeUpdateAlongAxis {K : Type} (tensor new : NdArray K) (axis : Nat) (ind : Int) (doUpdate : Bool) : Except String (NdArray K) :=
  match tensor.shape[axis]? with
  | none => .error "list index out of range"
  | some size =>
    if size > 1 then
      if doUpdate then ndWhere (axisMask tensor.shape.length axis size ind) new tensor else .ok tensor
    else .ok new

end Model
