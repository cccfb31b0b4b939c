import Verif.Model.Parabolic
import Mathlib.Algebra.BigOperators.Group.Finset.Basic
import Mathlib.Data.Fintype.BigOperators
import Mathlib.Data.Fin.Basic

/-!
# Model of `tf_quant_finance/math/pde/steppers/multidim_parabolic_equation_stepper.py` and `tf_quant_finance/math/pde/steppers/douglas_adi.py`

No batch. Tensors on the grid are functions of the index in the whole grid; the slices of the code (`_trim_boundaries`, `_slice`, `_append_first`,
`tf.pad`) become conditions on the index, and values at other indices have no meaning. What the coefficient callables return is already broadcast to the
grid. Coefficients of boundary conditions are read at the index of the boundary point. A condition with neither `alpha` nor `beta` raises an exception
in the code; here its discretization is zero. A zero pivot gives the value zero here. The grid has a constant step in each dimension. The signs are
those of the code: the equation is `V_t = A V + b` with `A` minus the spatial operator.
-/

namespace Model
open scoped BigOperators

abbrev GridIndex (n : Nat) := Fin n → Nat

/-- What a boundary condition callable returns: `alpha V + beta V_n = gamma`. -/
structure AdiBc (n : Nat) (K : Type) where
  alpha : Option (GridIndex n → K)
  beta : Option (GridIndex n → K)
  gamma : GridIndex n → K

/-- What the coefficient callables return at a time. -/
structure AdiCoeffs (n : Nat) (K : Type) where
  second : Fin n → Fin n → Option (GridIndex n → K)
  first : Fin n → Option (GridIndex n → K)
  zeroth : Option (GridIndex n → K)
  innerSecond : Fin n → Fin n → Option (GridIndex n → K)
  innerFirst : Fin n → Option (GridIndex n → K)

/-- The grid: numbers of points, `_get_grid_delta`, and the boundary conditions; absent is the default. -/
structure AdiGrid (n : Nat) (K : Type) where
  size : Fin n → Nat
  delta : Fin n → K
  lower : Fin n → Option (K → AdiBc n K)
  upper : Fin n → Option (K → AdiBc n K)

variable {K : Type} [Field K] [LinearOrder K] {n : Nat}

/-- The index shifted in a dimension. -/
def GridIndex.up (p : GridIndex n) (d : Fin n) : GridIndex n := Function.update p d (p d + 1)
def GridIndex.down (p : GridIndex n) (d : Fin n) : GridIndex n := Function.update p d (p d - 1)

namespace AdiGrid
variable (g : AdiGrid n K)

/-- `lower_trim_indices`, `upper_trim_indices`, L269-286: the first and last index of the inner grid. -/
def lo (d : Fin n) : Nat := if (g.lower d).isNone then 0 else 1
def hi (d : Fin n) : Nat := if (g.upper d).isNone then g.size d - 1 else g.size d - 2

/-- Product of a weight with the outer coefficient at `p` and the inner coefficient at `q`, zero if both are absent, L488-558. -/
def weighted (w : K) (outer inner : Option (GridIndex n → K)) (p q : GridIndex n) : K :=
  match outer, inner with
  | none, none => 0
  | outer, inner => w * outer.elim 1 (fun c => c p) * inner.elim 1 (fun c => c q)

/-- `_construct_tridiagonal_matrix` L450-563: superdiagonal, diagonal and subdiagonal at the point `p`. -/
def innerSuper (c : AdiCoeffs n K) (d : Fin n) (p : GridIndex n) : K :=
  weighted (-1 / (2 * g.delta d)) (c.first d) (c.innerFirst d) p (p.up d) +
    weighted (-1 / (g.delta d * g.delta d)) (c.second d d) (c.innerSecond d d) p (p.up d)
def innerDiag (c : AdiCoeffs n K) (d : Fin n) (p : GridIndex n) : K :=
  weighted (-(-1 / (2 * g.delta d)) - 1 / (2 * g.delta d)) (c.first d) (c.innerFirst d) p p +
    weighted (-(-1 / (g.delta d * g.delta d)) - -1 / (g.delta d * g.delta d)) (c.second d d) (c.innerSecond d d) p p
def innerSub (c : AdiCoeffs n K) (d : Fin n) (p : GridIndex n) : K :=
  weighted (1 / (2 * g.delta d)) (c.first d) (c.innerFirst d) p (p.down d) +
    weighted (-1 / (g.delta d * g.delta d)) (c.second d d) (c.innerSecond d d) p (p.down d)

/-- `extra_first_order_coeff`, L726-737, L780-791. -/
def extraFirst (c : AdiCoeffs n K) (d : Fin n) (p : GridIndex n) : K :=
  match c.first d, c.innerFirst d with
  | none, none => 0
  | none, some _ => 1
  | some b, _ => b p

/-- `inner_coeff`, L717-725, L772-779. -/
def innerFirstAt (c : AdiCoeffs n K) (d : Fin n) (p : GridIndex n) : K := (c.innerFirst d).elim 1 (fun b => b p)

/-- `_apply_default_boundary` L656-809: the diagonals with the rows of the default boundaries. -/
def defaultSuper (c : AdiCoeffs n K) (d : Fin n) (p : GridIndex n) : K :=
  if (g.lower d).isNone ∧ p d = 0 then -(innerFirstAt c d (p.up d) * extraFirst c d p / g.delta d)
  else if (g.upper d).isNone ∧ p d = g.size d - 1 then 0 else g.innerSuper c d p
def defaultDiag (c : AdiCoeffs n K) (d : Fin n) (p : GridIndex n) : K :=
  if (g.lower d).isNone ∧ p d = 0 then -(-innerFirstAt c d p * extraFirst c d p / g.delta d)
  else if (g.upper d).isNone ∧ p d = g.size d - 1 then -(innerFirstAt c d p * extraFirst c d p / g.delta d) else g.innerDiag c d p
def defaultSub (c : AdiCoeffs n K) (d : Fin n) (p : GridIndex n) : K :=
  if (g.lower d).isNone ∧ p d = 0 then 0
  else if (g.upper d).isNone ∧ p d = g.size d - 1 then -(-innerFirstAt c d (p.down d) * extraFirst c d p / g.delta d) else g.innerSub c d p

/-- The condition at a boundary point, as numbers. -/
def bcAt (b : AdiBc n K) (q : GridIndex n) : Option K × Option K × K := (b.alpha.map (fun f => f q), b.beta.map (fun f => f q), b.gamma q)

/-- `_discretize_boundary_conditions`, L1103-1126, at the boundary point `q` orthogonal to `d`. -/
def discretized (d : Fin n) (b : AdiBc n K) (q : GridIndex n) : K × K × K :=
  (discretizeBoundary (g.delta d) (g.delta d) (bcAt b q)).getD (0, 0, 0)

/-- The boundary points of the line through `p`. -/
def lowerPoint (d : Fin n) (p : GridIndex n) : GridIndex n := Function.update p d 0
def upperPoint (d : Fin n) (p : GridIndex n) : GridIndex n := Function.update p d (g.size d - 1)

/-- `beta_l is None and beta_u is None`, L882. -/
def noBeta (d : Fin n) (t : K) : Bool :=
  ((g.lower d).bind (fun f => (f t).beta)).isNone && ((g.upper d).bind (fun f => (f t).beta)).isNone

/-- `xi1, xi2, eta` of the lower and of the upper boundary, L912-933; zero for the default. -/
def lowerXi (d : Fin n) (t : K) (p : GridIndex n) : K × K × K := (g.lower d).elim (0, 0, 0) (fun f => g.discretized d (f t) (lowerPoint d p))
def upperXi (d : Fin n) (t : K) (p : GridIndex n) : K × K × K := (g.upper d).elim (0, 0, 0) (fun f => g.discretized d (f t) (g.upperPoint d p))

/-- `gamma / alpha` in the shortcut L885-894. -/
def lowerDirichlet (d : Fin n) (t : K) (p : GridIndex n) (entry : K) : K :=
  (g.lower d).elim 0 (fun f => entry * (f t).gamma (lowerPoint d p) / ((f t).alpha.elim 0 (fun a => a (lowerPoint d p))))
def upperDirichlet (d : Fin n) (t : K) (p : GridIndex n) (entry : K) : K :=
  (g.upper d).elim 0 (fun f => entry * (f t).gamma (g.upperPoint d p) / ((f t).alpha.elim 0 (fun a => a (g.upperPoint d p))))

/-- `_apply_robin_boundary_conditions` L812-950, with the zeroth order term of L426-428. -/
def super (c : K → AdiCoeffs n K) (t : K) (d : Fin n) (p : GridIndex n) : K :=
  if g.noBeta d t then g.defaultSuper (c t) d p
  else g.defaultSuper (c t) d p + if p d = g.lo d then g.defaultSub (c t) d p * (g.lowerXi d t p).2.1 else 0
def diag (c : K → AdiCoeffs n K) (t : K) (d : Fin n) (p : GridIndex n) : K :=
  (if g.noBeta d t then g.defaultDiag (c t) d p
   else g.defaultDiag (c t) d p + (if p d = g.lo d then g.defaultSub (c t) d p * (g.lowerXi d t p).1 else 0) +
     (if p d = g.hi d then g.defaultSuper (c t) d p * (g.upperXi d t p).1 else 0)) +
  (c t).zeroth.elim 0 (fun z => -z p / n)
def sub (c : K → AdiCoeffs n K) (t : K) (d : Fin n) (p : GridIndex n) : K :=
  if g.noBeta d t then g.defaultSub (c t) d p
  else g.defaultSub (c t) d p + if p d = g.hi d then g.defaultSuper (c t) d p * (g.upperXi d t p).2.1 else 0

/-- `inhomog_term`, L837, L895-898, L946-949. -/
def inhomog (c : K → AdiCoeffs n K) (t : K) (d : Fin n) (p : GridIndex n) : K :=
  if p d = g.lo d then
    (if g.noBeta d t then g.lowerDirichlet d t p (g.defaultSub (c t) d p) else g.defaultSub (c t) d p * (g.lowerXi d t p).2.2)
  else if p d = g.hi d then
    (if g.noBeta d t then g.upperDirichlet d t p (g.defaultSuper (c t) d p) else g.defaultSuper (c t) d p * (g.upperXi d t p).2.2)
  else 0

/-- The point lies on a default boundary of the dimension. -/
def onDefault (d : Fin n) (p : GridIndex n) : Prop := ((g.lower d).isNone ∧ p d = 0) ∨ ((g.upper d).isNone ∧ p d = g.size d - 1)

instance (d : Fin n) (p : GridIndex n) : Decidable (g.onDefault d p) := by unfold onDefault; infer_instance

/-- `_construct_contribution_of_mixed_term` L566-653 with `_apply_mixed_term_explicitly`, `douglas_adi.py` L205-254, without the factor `delta_t`. -/
def mixed (c : AdiCoeffs n K) (i j : Fin n) (values : GridIndex n → K) (p : GridIndex n) : K :=
  let w := -1 / (2 * g.delta i * g.delta j)
  let term (s : K) (q : GridIndex n) : K := weighted (s * w) (c.second i j) (c.innerSecond i j) p q * values q
  if g.onDefault i p ∨ g.onDefault j p then 0
  else term 1 ((p.down i).down j) + term (-1) ((p.down i).up j) + term (-1) ((p.up i).down j) + term 1 ((p.up i).up j)

/-- `_apply_tridiag_matrix_explicitly`, `douglas_adi.py` L257-277. The entries outside of the inner grid are ignored by `tridiagonal_matmul`. -/
def applyTridiag (c : K → AdiCoeffs n K) (t : K) (d : Fin n) (values : GridIndex n → K) (p : GridIndex n) : K :=
  (if p d = g.lo d then 0 else g.sub c t d p * values (p.down d)) + g.diag c t d p * values p +
    (if p d = g.hi d then 0 else g.super c t d p * values (p.up d))

/-- `_append_boundary`, L979-1041, and `_append_boundaries`, L953-976: the dimensions in order. -/
def appendBoundary (t : K) (values : GridIndex n → K) (d : Fin n) : GridIndex n → K := fun p =>
  if (g.lower d).isSome ∧ p d = 0 then
    let xi := g.lowerXi d t p
    xi.1 * values (Function.update p d 1) + xi.2.1 * values (Function.update p d 2) + xi.2.2
  else if (g.upper d).isSome ∧ p d = g.size d - 1 then
    let xi := g.upperXi d t p
    xi.1 * values (Function.update p d (g.size d - 2)) + xi.2.1 * values (Function.update p d (g.size d - 3)) + xi.2.2
  else values p
def appendBoundaries (t : K) (values : GridIndex n → K) : GridIndex n → K := (List.finRange n).foldl (g.appendBoundary t) values

/-- The rows of the system for the line through `p` in dimension `d`, `douglas_adi.py` L295-301. -/
def solveLine (c : K → AdiCoeffs n K) (theta t1 t2 : K) (d : Fin n) (p : GridIndex n) (rhs : List K) : Option (List K) :=
  let line := (List.range (g.hi d + 1 - g.lo d)).map (fun k => Function.update p d (g.lo d + k))
  tridiagonalSolve (line.map fun q => -theta * g.super c t2 d q * (t2 - t1)) (line.map fun q => 1 - theta * g.diag c t2 d q * (t2 - t1))
    (line.map fun q => -theta * g.sub c t2 d q * (t2 - t1)) rhs

/-- `_apply_correction`, `douglas_adi.py` L280-306; the transpositions only choose the line. -/
def correction (c : K → AdiCoeffs n K) (theta t1 t2 : K) (explicit : GridIndex n → K) (values : GridIndex n → K) (d : Fin n) : GridIndex n → K := fun p =>
  let rhs := fun q => values q - theta * explicit q + theta * (g.inhomog c t2 d q - g.inhomog c t1 d q) * (t2 - t1)
  let line := (List.range (g.hi d + 1 - g.lo d)).map (fun k => Function.update p d (g.lo d + k))
  ((g.solveLine c theta t1 t2 d p (line.map rhs)).getD []).getD (p d - g.lo d) 0

/-- The explicit substep of `douglas_adi_scheme`, L158-185. -/
def explicitStep (c : K → AdiCoeffs n K) (t1 t2 : K) (values : GridIndex n → K) : GridIndex n → K := fun p =>
  let withBoundaries := g.appendBoundaries t1 values
  values p + (∑ i, ∑ j, if i < j then g.mixed (c t1) i j withBoundaries p * (t2 - t1) else 0) +
    (∑ i, g.applyTridiag c t1 i values p * (t2 - t1)) + ∑ i, g.inhomog c t1 i p * (t2 - t1)

/-- `douglas_adi_scheme`, L73-202. -/
def douglas (c : K → AdiCoeffs n K) (theta t1 t2 : K) (values : GridIndex n → K) : GridIndex n → K :=
  let current := g.explicitStep c t1 t2 values
  if theta = 0 then current
  else (List.finRange n).foldl (fun y d => g.correction c theta t1 t2 (fun p => g.applyTridiag c t1 d values p * (t2 - t1)) y d) current

/-- `multidim_parabolic_equation_step`, L231-337, with `douglas_adi_scheme(theta)`. -/
def step (c : K → AdiCoeffs n K) (theta time nextTime : K) (values : GridIndex n → K) : Option (GridIndex n → K) :=
  if theta < 0 ∨ 1 < theta then none else some (g.appendBoundaries nextTime (g.douglas c theta time nextTime values))

end AdiGrid
end Model
