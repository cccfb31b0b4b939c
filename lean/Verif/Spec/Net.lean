import Mathlib.Algebra.Field.Defs
import Mathlib.Algebra.Order.Ring.Defs
import Mathlib.Algebra.BigOperators.Group.Finset.Defs
import Mathlib.Data.Finset.Card
import Mathlib.Data.Fintype.Basic

/-! Stratification (equidistribution) of sequences and point sets in the unit interval and the unit cube. -/

namespace Spec
variable {K : Type} [Field K] [LinearOrder K]

/-- `x` lies in the elementary interval `[k / base^m, (k + 1) / base^m)`. -/
def InCell (base m k : Nat) (x : K) : Prop :=
  (k : K) / (base : K) ^ m ≤ x ∧ x < ((k : K) + 1) / (base : K) ^ m

/-- The points `x lo, ..., x (hi - 1)` are stratified in base `base`: in every aligned block of `base^m` indices within
`[lo, hi)` each of the `base^m` elementary intervals of length `base^(-m)` contains exactly one point. -/
def Stratified (base lo hi : Nat) (x : Nat → K) : Prop :=
  ∀ m b, lo ≤ b * base ^ m → (b + 1) * base ^ m ≤ hi → ∀ k, k < base ^ m →
    ∃! n, (b * base ^ m ≤ n ∧ n < (b + 1) * base ^ m) ∧ InCell base m k (x n)

/-- A point set `x 0, ..., x (N-1)` in the `s`-dimensional unit cube is a `(t, m, s)`-net in base 2: every elementary
box of volume `2^(t-m)` contains exactly `2^t` points. -/
def IsNet (t m s N : Nat) (x : Nat → Nat → K) : Prop :=
  ∀ d : Fin s → Nat, (∑ j, d j) + t = m → ∀ k : Fin s → Nat, (∀ j, k j < 2 ^ d j) →
    ∃ S : Finset Nat, S.card = 2 ^ t ∧
      ∀ n, n ∈ S ↔ (n < N ∧ ∀ j : Fin s, InCell 2 (d j) (k j) (x n j))

end Spec
