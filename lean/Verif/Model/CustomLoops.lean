import Mathlib.Data.Matrix.Mul
import Mathlib.Data.Real.Basic
import Mathlib.Algebra.BigOperators.Fin

/-!
# Model of `tf_quant_finance/math/custom_loops.py`

One element of the batch (the batch elements do not interact). A state is a sequence of `n` vectors, the `i`-th one of length
`d i`; nested lists of known sizes are functions on `Fin`. What the gradient tape returns for one step is a parameter of the
model (`stepJac`); the theorems assume it to be the derivative of the body.
-/

namespace Model

variable {n p : Nat} {d : Fin n → Nat}

/-- The state: `n` vectors. -/
abbrev LoopState (d : Fin n → Nat) : Type := (i : Fin n) → Fin (d i) → ℝ

/-- A pair of block matrices: derivative with respect to the state and to the parameters, L114-146. -/
structure LoopJac (d : Fin n → Nat) (p : Nat) where
  js : (i j : Fin n) → Matrix (Fin (d i)) (Fin (d j)) ℝ
  jp : (i : Fin n) → Fin p → Matrix (Fin (d i)) (Fin 1) ℝ

/-- `_make_unit_jacobian`, L217-240. -/
def unitJacobian (d : Fin n → Nat) (p : Nat) : LoopJac d p where
  js := fun i j => Matrix.of fun a b => if i ≠ j then 0 else if a.val = b.val then 1 else 0
  jp := fun _ _ => Matrix.of fun _ _ => 0

/-- `_block_matmul`, L297-315, at the level of nested lists; the blocks are multiplied with `tf.matmul`. -/
def blockMatmul {m k q : Nat} {r : Fin m → Nat} {s : Fin k → Nat} {t : Fin q → Nat}
    (m1 : (i : Fin m) → (l : Fin k) → Matrix (Fin (r i)) (Fin (s l)) ℝ)
    (m2 : (l : Fin k) → (j : Fin q) → Matrix (Fin (s l)) (Fin (t j)) ℝ) (i : Fin m) (j : Fin q) :
    Matrix (Fin (r i)) (Fin (t j)) ℝ :=
  ∑ l, m1 i l * m2 l j

/-- `_block_add`, L318-335, for two block matrices. -/
def blockAdd {m q : Nat} {r : Fin m → Nat} {t : Fin q → Nat}
    (m1 m2 : (i : Fin m) → (j : Fin q) → Matrix (Fin (r i)) (Fin (t j)) ℝ) (i : Fin m) (j : Fin q) :
    Matrix (Fin (r i)) (Fin (t j)) ℝ :=
  m1 i j + m2 i j

/-- `_multiply_jacobians`, L290-294. -/
def multiplyJacobians (jac1 jac2 : LoopJac d p) : LoopJac d p where
  js := blockMatmul jac1.js jac2.js
  jp := blockAdd (t := fun _ => 1) (blockMatmul (t := fun _ => 1) jac1.js jac2.jp) jac1.jp

/-- The variables of the loop. -/
structure LoopVars (d : Fin n → Nat) (p : Nat) where
  i : Nat
  state : LoopState d
  jac : LoopJac d p

/-- `while_body`, L174-181. -/
def loopBody (body : Nat → LoopState d → LoopState d) (stepJac : Nat → LoopState d → LoopJac d p) (v : LoopVars d p) :
    LoopVars d p where
  i := v.i + 1
  state := body v.i v.state
  jac := multiplyJacobians (stepJac v.i v.state) v.jac

/-- `tf.while_loop` with a condition on the loop variables and `maximum_iterations`. -/
def whileLoop {S : Type} (cond : S → Bool) (body : S → S) : Nat → S → S
  | 0, s => s
  | k + 1, s => if cond s then whileLoop cond body k (body s) else s

/-- `for_loop`, L163-187, for a scalar number of iterations: final state and Jacobian. -/
def forLoop (body : Nat → LoopState d → LoopState d) (stepJac : Nat → LoopState d → LoopJac d p) (init : LoopState d)
    (numIterations : Nat) : LoopVars d p :=
  whileLoop (fun v => decide (v.i < numIterations)) (loopBody body stepJac) numIterations
    { i := 0, state := init, jac := unitJacobian d p }

/-- `gradient`, L189-208. -/
def loopGradient (jac : LoopJac d p) (ws : LoopState d) : LoopState d × (Fin p → ℝ) :=
  let w : Fin 1 → (l : Fin n) → Matrix (Fin 1) (Fin (d l)) ℝ := fun _ l => Matrix.of fun _ b => ws l b
  let wsJs := blockMatmul (r := fun _ => 1) w jac.js
  let wsJp := blockMatmul (r := fun _ => 1) (t := fun _ => 1) w jac.jp
  (fun j b => wsJs 0 j 0 b, fun j => ∑ a, ∑ b, wsJp 0 j a b)

/-- Variables of the accumulating loop; `none` is an entry of the `TensorArray` that was never written. -/
structure AccVars (d : Fin n → Nat) (p : Nat) where
  i : Nat
  accIndex : Nat
  state : LoopState d
  jac : LoopJac d p
  acc : List (Option (LoopState d × LoopJac d p))

/-- `while_body` of the accumulating loop, L367-378. `mask[i]` is the number of times that `i` is requested (`scatter_nd` adds up
duplicates, L355-357). -/
def accBody (body : Nat → LoopState d → LoopState d) (stepJac : Nat → LoopState d → LoopJac d p) (numIterations : List Nat)
    (v : AccVars d p) : AccVars d p :=
  let nextState := body v.i v.state
  let nextJac := multiplyJacobians (stepJac v.i v.state) v.jac
  let accIndex := v.accIndex + numIterations.count v.i
  { i := v.i + 1
    accIndex := accIndex
    state := nextState
    jac := nextJac
    acc := v.acc.set accIndex (some (nextState, nextJac)) }

/-- `_accumulating_for_loop`, L342-396. -/
def accumulatingForLoop (body : Nat → LoopState d → LoopState d) (stepJac : Nat → LoopState d → LoopJac d p)
    (init : LoopState d) (numIterations : List Nat) : List (Option (LoopState d × LoopJac d p)) :=
  let maxIterations := numIterations.foldl max 0
  let acc := List.replicate numIterations.length none
  let v := whileLoop (fun v => decide (v.i < maxIterations)) (accBody body stepJac numIterations) maxIterations
    { i := 0
      accIndex := 0
      state := init
      jac := unitJacobian d p
      acc := acc.set 0 (some (init, unitJacobian d p)) }
  v.acc

/-- `gradient` of the accumulating loop, L398-418: `ws` has one entry per requested number of iterations. -/
def accGradient (jacs : List (LoopJac d p)) (ws : List (LoopState d)) : LoopState d × (Fin p → ℝ) :=
  let gs := List.zipWith (fun jac w => loopGradient jac w) jacs ws
  (fun j b => (gs.map fun g => g.1 j b).sum, fun j => (gs.map fun g => g.2 j).sum)

end Model
