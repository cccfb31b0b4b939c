import Verif.Model.Crr
import Mathlib.Data.Nat.Choose.Sum
import Mathlib.Algebra.BigOperators.NatAntidiagonal
import Mathlib.Tactic.LinearCombination
import Mathlib.Tactic.Linarith
import Mathlib.Tactic.Ring
import Mathlib.Tactic.FieldSimp

/-! The lists of the binomial tree as functions on nodes. -/

namespace Lemmas
open Model

/-- Up-move of the logarithm. -/
noncomputable def crrLnUp (o : CrrOption) : ℝ := o.volatility * Real.sqrt (o.expiry / o.numSteps)
/-- Probability of an up-move. -/
noncomputable def crrPUp (o : CrrOption) : ℝ :=
  (Real.exp ((o.discountRate - o.dividendRate) * (o.expiry / o.numSteps) + crrLnUp o) - 1) / (Real.exp (2 * crrLnUp o) - 1)
/-- Discount factor of one step. -/
noncomputable def crrDf (o : CrrOption) : ℝ := Real.exp (-o.discountRate * (o.expiry / o.numSteps))
/-- Log spot at a node: `m` steps before expiry, `i`-th from above. -/
noncomputable def crrLog (o : CrrOption) (m i : ℕ) : ℝ :=
  Real.log o.spot + crrLnUp o * ((o.numSteps : ℝ) - m - 2 * i)

/-- Value at a node. -/
noncomputable def crrValue (o : CrrOption) : ℕ → ℕ → ℝ
  | 0, i => crrPayoff o.strike o.isCall (Real.exp (crrLog o 0 i))
  | m + 1, i => crrDf o * crrModifier o.isAmerican (crrPayoff o.strike o.isCall)
      (crrValue o m (i + 1) * (1 - crrPUp o) + crrValue o m i * crrPUp o) (Real.exp (crrLog o (m + 1) i))

theorem zipWith_mapRange {α β γ : Type} (f : α → β → γ) (g : ℕ → α) (h : ℕ → β) (n : ℕ) :
    List.zipWith f ((List.range n).map g) ((List.range n).map h) = (List.range n).map (fun i => f (g i) (h i)) := by
  induction n with
  | zero => rfl
  | succ n ih => simp [List.range_succ, List.zipWith_append, ih]

theorem drop_mapRange {α : Type} (g : ℕ → α) (n : ℕ) :
    ((List.range (n + 1)).map g).drop 1 = (List.range n).map (fun i => g (i + 1)) := by
  rw [List.range_succ_eq_map]; simp [Function.comp_def]

theorem dropLast_mapRange {α : Type} (g : ℕ → α) (n : ℕ) :
    ((List.range (n + 1)).map g).dropLast = (List.range n).map g := by
  rw [List.range_succ]; simp

theorem crr_stepBack (o : CrrOption) (m k : ℕ) (hk : m + (k + 1) = o.numSteps) :
    crrStepBack o.isAmerican (crrPayoff o.strike o.isCall) (crrPUp o) (1 - crrPUp o) (crrDf o) (crrLnUp o)
      ((List.range (k + 2)).map (crrValue o m), (List.range (k + 2)).map (crrLog o m)) =
    ((List.range (k + 1)).map (crrValue o (m + 1)), (List.range (k + 1)).map (crrLog o (m + 1))) := by
  have hl : ((List.range (k + 2)).map (crrLog o m)).dropLast.map (fun x => x - crrLnUp o) =
      (List.range (k + 1)).map (crrLog o (m + 1)) := by
    rw [dropLast_mapRange, List.map_map]
    apply List.map_congr_left
    intro i _
    simp only [Function.comp_apply, crrLog]
    push_cast
    ring
  unfold crrStepBack
  simp only [hl]
  rw [drop_mapRange, dropLast_mapRange, zipWith_mapRange, List.map_map, zipWith_mapRange, List.map_map]
  rfl

theorem crr_iterate (o : CrrOption) (m k : ℕ) (hk : m + k = o.numSteps) :
    (crrStepBack o.isAmerican (crrPayoff o.strike o.isCall) (crrPUp o) (1 - crrPUp o) (crrDf o) (crrLnUp o))^[m]
      ((List.range (o.numSteps + 1)).map (crrValue o 0), (List.range (o.numSteps + 1)).map (crrLog o 0)) =
    ((List.range (k + 1)).map (crrValue o m), (List.range (k + 1)).map (crrLog o m)) := by
  induction m generalizing k with
  | zero => obtain rfl : k = o.numSteps := by omega
            rfl
  | succ m ih =>
    rw [Function.iterate_succ_apply', ih (k + 1) (by omega), crr_stepBack o m k (by omega)]

/-- For a positive expiry the price is the value at the root. -/
theorem optionPriceBinomial_value (o : CrrOption) (hT : 0 < o.expiry) :
    optionPriceBinomial o = crrValue o o.numSteps 0 := by
  have h := crr_iterate o o.numSteps 0 (by omega)
  have hgrid : ((List.range (o.numSteps + 1)).map (fun i : ℕ => (i : ℝ))).map (fun i =>
      Real.log o.spot + crrLnUp o * o.numSteps + (-crrLnUp o - crrLnUp o) * i) =
      (List.range (o.numSteps + 1)).map (crrLog o 0) := by
    rw [List.map_map]
    apply List.map_congr_left
    intro i _
    simp only [Function.comp_apply, crrLog]
    push_cast
    ring
  have hval : ((List.range (o.numSteps + 1)).map (crrLog o 0)).map (fun x => crrPayoff o.strike o.isCall (Real.exp x)) =
      (List.range (o.numSteps + 1)).map (crrValue o 0) := by
    rw [List.map_map]; rfl
  unfold optionPriceBinomial
  simp only [gt_iff_lt, hT, if_true]
  change ((crrStepBack o.isAmerican (crrPayoff o.strike o.isCall) (crrPUp o) (1 - crrPUp o) (crrDf o) (crrLnUp o))^[o.numSteps]
    ((((List.range (o.numSteps + 1)).map (fun i : ℕ => (i : ℝ))).map (fun i =>
      Real.log o.spot + crrLnUp o * o.numSteps + (-crrLnUp o - crrLnUp o) * i)).map
        (fun x => crrPayoff o.strike o.isCall (Real.exp x)),
      ((List.range (o.numSteps + 1)).map (fun i : ℕ => (i : ℝ))).map (fun i =>
      Real.log o.spot + crrLnUp o * o.numSteps + (-crrLnUp o - crrLnUp o) * i))).1.getD 0 0 = _
  rw [hgrid, hval, h]
  rfl

/-- European values are discounted binomial expectations. -/
theorem crrValue_european (o : CrrOption) (hE : o.isAmerican = false) (m i : ℕ) :
    crrValue o m i = crrDf o ^ m * ∑ ij ∈ Finset.antidiagonal m, (m.choose ij.1 : ℝ) *
      ((1 - crrPUp o) ^ ij.1 * crrPUp o ^ ij.2 * crrPayoff o.strike o.isCall (Real.exp (crrLog o 0 (i + ij.1)))) := by
  induction m generalizing i with
  | zero => simp [crrValue]
  | succ m ih =>
    rw [Finset.sum_antidiagonal_choose_succ_mul (fun a b => (1 - crrPUp o) ^ a * crrPUp o ^ b *
      crrPayoff o.strike o.isCall (Real.exp (crrLog o 0 (i + a))))]
    have h2 : ∑ ij ∈ Finset.antidiagonal m, (m.choose ij.2 : ℝ) * ((1 - crrPUp o) ^ (ij.1 + 1) * crrPUp o ^ ij.2 *
        crrPayoff o.strike o.isCall (Real.exp (crrLog o 0 (i + (ij.1 + 1))))) =
      (1 - crrPUp o) * ∑ ij ∈ Finset.antidiagonal m, (m.choose ij.1 : ℝ) * ((1 - crrPUp o) ^ ij.1 * crrPUp o ^ ij.2 *
        crrPayoff o.strike o.isCall (Real.exp (crrLog o 0 (i + 1 + ij.1)))) := by
      rw [Finset.mul_sum]
      apply Finset.sum_congr rfl
      intro ij hij
      rw [Finset.mem_antidiagonal] at hij
      rw [← Nat.choose_symm_of_eq_add (n := m) (a := ij.1) (b := ij.2) (by omega), show i + 1 + ij.1 = i + (ij.1 + 1) by omega]
      ring
    have h1 : ∑ ij ∈ Finset.antidiagonal m, (m.choose ij.1 : ℝ) * ((1 - crrPUp o) ^ ij.1 * crrPUp o ^ (ij.2 + 1) *
        crrPayoff o.strike o.isCall (Real.exp (crrLog o 0 (i + ij.1)))) =
      crrPUp o * ∑ ij ∈ Finset.antidiagonal m, (m.choose ij.1 : ℝ) * ((1 - crrPUp o) ^ ij.1 * crrPUp o ^ ij.2 *
        crrPayoff o.strike o.isCall (Real.exp (crrLog o 0 (i + ij.1)))) := by
      rw [Finset.mul_sum]
      apply Finset.sum_congr rfl
      intro ij hij
      ring
    rw [h1, h2, crrValue, ih, ih]
    simp only [crrModifier, hE, Bool.false_eq_true, if_false]
    ring

end Lemmas
