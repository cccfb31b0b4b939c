import Verif.Model.Parabolic

/-! # Boundary conditions, `tf_quant_finance/math/pde/boundary_conditions.py`

The functions of the library get the grid as a second argument; here they are functions of time for a given grid. -/

namespace Model

/-- `dirichlet`, L19-75. -/
def dirichletCondition {K : Type} [One K] (boundaryValues : K → K) : BoundaryFn K := fun t => (some 1, none, boundaryValues t)

/-- `neumann`, L78-134. -/
def neumannCondition {K : Type} [One K] (normalDerivative : K → K) : BoundaryFn K := fun t => (none, some 1, normalDerivative t)

end Model
