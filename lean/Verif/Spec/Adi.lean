import Verif.Model.Adi
import Verif.Spec.Parabolic

/-! # Difference equations and boundary conditions on a grid in several dimensions -/

namespace Spec
open Model
open scoped BigOperators

variable {K : Type} [Field K] {n : Nat}

/-- Central differences of a function on the grid. -/
def centralFirst (h : K) (f : GridIndex n → K) (d : Fin n) (p : GridIndex n) : K :=
  (f (Function.update p d (p d + 1)) - f (Function.update p d (p d - 1))) / (2 * h)
def centralSecond (h : K) (f : GridIndex n → K) (d : Fin n) (p : GridIndex n) : K :=
  (f (Function.update p d (p d + 1)) - 2 * f p + f (Function.update p d (p d - 1))) / h ^ 2

/-- The mixed difference is the central difference in one dimension of the central difference in the other. -/
def centralMixed (hi hj : K) (f : GridIndex n → K) (i j : Fin n) (p : GridIndex n) : K := centralFirst hi (centralFirst hj f j) i p

/-- One-sided differences. -/
def forwardFirst (h : K) (f : GridIndex n → K) (d : Fin n) (p : GridIndex n) : K := (f (Function.update p d (p d + 1)) - f p) / h
def backwardFirst (h : K) (f : GridIndex n → K) (d : Fin n) (p : GridIndex n) : K := (f p - f (Function.update p d (p d - 1))) / h

/-- Outer and inner coefficients of a term: if both are absent the term is absent, if one is absent it is one. -/
def outerCoeff (outer inner : Option (GridIndex n → K)) (p : GridIndex n) : K :=
  match outer, inner with
  | none, none => 0
  | none, some _ => 1
  | some a, _ => a p
def innerCoeff (inner : Option (GridIndex n → K)) (p : GridIndex n) : K := inner.elim 1 (fun a => a p)

/-- The part of `a (A V)_dd + b (B V)_d + c V / n` for dimension `d`: in the interior with central differences; on a default boundary of this dimension without
the second order term and with a one-sided difference. -/
def partAt (g : AdiGrid n K) (c : AdiCoeffs n K) (d : Fin n) (v : GridIndex n → K) (p : GridIndex n) : K :=
  let zeroth := c.zeroth.elim 0 (fun z => z p) * v p / n
  let b := outerCoeff (c.first d) (c.innerFirst d) p
  let f := fun q => innerCoeff (c.innerFirst d) q * v q
  if g.lower d = none ∧ p d = 0 then b * forwardFirst (g.delta d) f d p + zeroth
  else if g.upper d = none ∧ p d + 1 = g.size d then b * backwardFirst (g.delta d) f d p + zeroth
  else outerCoeff (c.second d d) (c.innerSecond d d) p * centralSecond (g.delta d) (fun q => innerCoeff (c.innerSecond d d) q * v q) d p +
    b * centralFirst (g.delta d) f d p + zeroth

/-- `2 a_ij (A_ij V)_ij`, zero on default boundaries. -/
def mixedAt (g : AdiGrid n K) (c : AdiCoeffs n K) (i j : Fin n) (v : GridIndex n → K) (p : GridIndex n) : K :=
  if (g.lower i = none ∧ p i = 0) ∨ (g.upper i = none ∧ p i + 1 = g.size i) ∨ (g.lower j = none ∧ p j = 0) ∨ (g.upper j = none ∧ p j + 1 = g.size j) then 0
  else 2 * outerCoeff (c.second i j) (c.innerSecond i j) p *
    centralMixed (g.delta i) (g.delta j) (fun q => innerCoeff (c.innerSecond i j) q * v q) i j p

/-- The spatial operator. -/
def spaceAt (g : AdiGrid n K) (c : AdiCoeffs n K) (v : GridIndex n → K) (p : GridIndex n) : K :=
  (∑ d, partAt g c d v p) + ∑ i, ∑ j, if i < j then mixedAt g c i j v p else 0

/-- A point that is on the grid and on no boundary with an explicit condition, in dimension `d`. -/
def InnerIn (g : AdiGrid n K) (d : Fin n) (p : GridIndex n) : Prop :=
  p d < g.size d ∧ (g.lower d ≠ none → p d ≠ 0) ∧ (g.upper d ≠ none → p d + 1 ≠ g.size d)
def Inner (g : AdiGrid n K) (p : GridIndex n) : Prop := ∀ d, InnerIn g d p

/-- The values at a boundary condition callable at a point. -/
def conditionAt (b : AdiBc n K) (q : GridIndex n) : Option K × Option K × K := (b.alpha.map (fun f => f q), b.beta.map (fun f => f q), b.gamma q)

/-- The boundary conditions of dimension `d` at time `t` hold on the line through `p`. -/
structure LineBc (g : AdiGrid n K) (t : K) (d : Fin n) (v : GridIndex n → K) (p : GridIndex n) : Prop where
  lower : ∀ f, g.lower d = some f →
    LowerBc (fun k => k * g.delta d) (fun k => v (Function.update p d k)) (conditionAt (f t) (Function.update p d 0))
  upper : ∀ f, g.upper d = some f →
    UpperBc (fun k => k * g.delta d) (fun k => v (Function.update p d k)) (g.size d - 3) (conditionAt (f t) (Function.update p d (g.size d - 1)))

/-- `w` is `v` in the inner grid, and on the boundaries it is given by the conditions at time `t`: at an edge by the condition of the last of its dimensions. -/
structure Extends (g : AdiGrid n K) (t : K) (v w : GridIndex n → K) : Prop where
  inner : ∀ p, Inner g p → w p = v p
  bc : ∀ d p, (∀ d', d' < d → p d' < g.size d') → (∀ d', d < d' → InnerIn g d' p) → LineBc g t d w p

variable [LinearOrder K]

/-- At least four points and a positive step in each dimension. -/
def ProperGrid (g : AdiGrid n K) : Prop := ∀ d, 4 ≤ g.size d ∧ 0 < g.delta d

/-- The conditions at time `t` can be solved for the boundary value. -/
structure ProperConditions (g : AdiGrid n K) (t : K) : Prop where
  lower : ∀ d f q, g.lower d = some f → ProperBc (conditionAt (f t) q)
  upper : ∀ d f q, g.upper d = some f → ProperBc (conditionAt (f t) q)

end Spec
