import Mathlib.Algebra.BigOperators.Group.Finset.Basic
import Mathlib.Data.Real.Basic
import Mathlib.Data.List.Forall2

/-! Draws from normal distributions, arranged in a tensor. -/

namespace Spec
open scoped BigOperators

/-- `out` is `mean + scale * z` for each sample and each element of the batch: `sample`, `batch` are shapes, `k` is the dimension, tensors are functions of
lists of indices. -/
def IsAffineDraw (sample batch : List Nat) (k : Nat) (mean : List Nat → Nat → ℝ) (scale : List Nat → Nat → Nat → ℝ) (z out : List Nat → ℝ) : Prop :=
  ∀ s b i, List.Forall₂ (· < ·) s sample → List.Forall₂ (· < ·) b batch → i < k →
    out (s ++ (b ++ [i])) = mean b i + ∑ j ∈ Finset.range k, scale b i j * z (s ++ (b ++ [j]))

end Spec
