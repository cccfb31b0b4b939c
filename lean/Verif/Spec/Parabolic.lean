import Verif.Model.Parabolic

/-! # Difference equations and boundary conditions on a grid -/

namespace Spec

/-- A parabola `c0 + c1 x + c2 x^2`. -/
structure Parabola (K : Type) where
  c0 : K
  c1 : K
  c2 : K

open Model

variable {K : Type} [Field K]

def Parabola.eval (p : Parabola K) (x : K) : K := p.c0 + p.c1 * x + p.c2 * x ^ 2
/-- First and second derivative. -/
def Parabola.slope (p : Parabola K) (x : K) : K := p.c1 + 2 * p.c2 * x
def Parabola.curvature (p : Parabola K) : K := 2 * p.c2

/-- The parabola goes through the three points `(x i, u i)`, `(x (i+1), u (i+1))`, `(x (i+2), u (i+2))`. -/
def Parabola.Through (p : Parabola K) (x u : Nat → K) (i : Nat) : Prop :=
  p.eval (x i) = u i ∧ p.eval (x (i + 1)) = u (i + 1) ∧ p.eval (x (i + 2)) = u (i + 2)

/-- The outer and inner coefficient of a term at a grid point: if both are absent the term is absent, if one is absent it is one. -/
def outerAt (outer inner : Option (List K)) (i : Nat) : K :=
  match outer, inner with
  | none, none => 0
  | none, some _ => 1
  | some a, _ => a.getD i 0
def innerAt (inner : Option (List K)) (i : Nat) : K := inner.elim 1 (fun a => a.getD i 0)

/-- Right hand side of `V_t = -(a (A V)_xx + b (B V)_x + c V)` at the inner grid point `i + 1`, the derivatives being those of the
parabolas through three points. -/
def PdeAt (c : PdeCoeffs K) (x u : Nat → K) (i : Nat) (r : K) : Prop :=
  ∀ p q : Parabola K, p.Through x (fun k => innerAt c.innerSecond k * u k) i →
    q.Through x (fun k => innerAt c.innerFirst k * u k) i →
    r = -(outerAt c.second c.innerSecond (i + 1) * p.curvature + outerAt c.first c.innerFirst (i + 1) * q.slope (x (i + 1)) +
      c.zeroth.elim 0 (fun z => z.getD (i + 1) 0) * u (i + 1))

/-- `alpha V + beta V_n = gamma` at the lower boundary (exterior normal to the left) for the parabola through the first three points. -/
def LowerBc (x u : Nat → K) (bc : Option K × Option K × K) : Prop :=
  ∀ p : Parabola K, p.Through x u 0 → bc.1.getD 0 * p.eval (x 0) + bc.2.1.getD 0 * (-p.slope (x 0)) = bc.2.2

/-- The same at the upper boundary `x (i + 2)`, with the last three points. -/
def UpperBc (x u : Nat → K) (i : Nat) (bc : Option K × Option K × K) : Prop :=
  ∀ p : Parabola K, p.Through x u i → bc.1.getD 0 * p.eval (x (i + 2)) + bc.2.1.getD 0 * p.slope (x (i + 2)) = bc.2.2

/-- The condition can be solved for the boundary value: Dirichlet, Neumann or Robin with coefficients of the same sign. -/
def ProperBc [LinearOrder K] (bc : Option K × Option K × K) : Prop :=
  match bc with
  | (none, none, _) => False
  | (some alpha, none, _) => alpha ≠ 0
  | (none, some beta, _) => beta ≠ 0
  | (some alpha, some beta, _) => beta ≠ 0 ∧ 0 ≤ alpha * beta

/-- The coefficients live on the grid. -/
structure OnGrid (c : PdeCoeffs K) (n : Nat) : Prop where
  second : ∀ l, c.second = some l → l.length = n
  first : ∀ l, c.first = some l → l.length = n
  zeroth : ∀ l, c.zeroth = some l → l.length = n
  innerSecond : ∀ l, c.innerSecond = some l → l.length = n
  innerFirst : ∀ l, c.innerFirst = some l → l.length = n

/-- Right hand side of `V_t = -(b (B V)_x + c V)` at the lower and upper boundary with one-sided differences: the default conditions. -/
def DefaultLower (c : PdeCoeffs K) (x u : Nat → K) : K :=
  -(outerAt c.first c.innerFirst 0 * ((innerAt c.innerFirst 1 * u 1 - innerAt c.innerFirst 0 * u 0) / (x 1 - x 0)) +
    c.zeroth.elim 0 (fun z => z.getD 0 0) * u 0)
def DefaultUpper (c : PdeCoeffs K) (x u : Nat → K) (k : Nat) : K :=
  -(outerAt c.first c.innerFirst (k + 3) * ((innerAt c.innerFirst (k + 3) * u (k + 3) - innerAt c.innerFirst (k + 2) * u (k + 2)) / (x (k + 3) - x (k + 2))) +
    c.zeroth.elim 0 (fun z => z.getD (k + 3) 0) * u (k + 3))

variable [LinearOrder K]

/-- Conditions that hold for a function on the grid at time `t`. -/
structure BcAt (x u : Nat → K) (k : Nat) (lower upper : Option (BoundaryFn K)) (t : K) : Prop where
  lower : ∀ f, lower = some f → LowerBc x u (f t)
  upper : ∀ f, upper = some f → UpperBc x u (k + 1) (f t)

/-- The conditions are solvable at time `t`. -/
structure ProperAt (lower upper : Option (BoundaryFn K)) (t : K) : Prop where
  lower : ∀ f, lower = some f → ProperBc (f t)
  upper : ∀ f, upper = some f → ProperBc (f t)

/-- The grid `x 0, .., x (k + 3)` is increasing. -/
def Increasing (x : Nat → K) (k : Nat) : Prop := ∀ i, i < k + 3 → x i < x (i + 1)

end Spec
