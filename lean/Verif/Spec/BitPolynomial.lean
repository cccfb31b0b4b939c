import Mathlib.Algebra.Polynomial.Basic
import Mathlib.RingTheory.Coprime.Basic
import Mathlib.Data.ZMod.Defs
import Mathlib.Algebra.Field.ZMod
import Mathlib.Data.Nat.Log
import Mathlib.Algebra.BigOperators.Group.Finset.Defs

/-! Polynomials over the field with two elements coded by the bits of a number. -/

namespace Spec
open Polynomial

/-- A truth value as an element of the field with two elements. -/
def bitF (b : Bool) : ZMod 2 := if b then 1 else 0

/-- The polynomial whose coefficient of `x^i` is bit `i` of `a`. -/
noncomputable def bitPoly (a : Nat) : (ZMod 2)[X] := ∑ i ∈ Finset.range (Nat.log 2 a + 1), C (bitF (a.testBit i)) * X ^ i

/-- The codes of the polynomials of the coordinates: `x` for the first, the table for the others. -/
def polyCode (table : List (Nat × List Nat)) (c : Nat) : Nat := if c = 0 then 2 else (table.getD (c - 1) (0, [])).1

/-- The polynomials of the first `s` coordinates have pairwise no common factor. -/
def CoprimeCodes (table : List (Nat × List Nat)) (s : Nat) : Prop :=
  ∀ c c', c < c' → c' < s → IsCoprime (bitPoly (polyCode table c)) (bitPoly (polyCode table c'))

/-- The quality parameter of the first `s` coordinates: the sum of the degrees minus one. -/
def netQuality (table : List (Nat × List Nat)) (s : Nat) : Nat := ∑ c ∈ Finset.range s, (Nat.log 2 (polyCode table c) - 1)

end Spec
