import Verif.Model.Piecewise
import Verif.Lemmas.SearchSorted
import Verif.Lemmas.Segments
import Mathlib.Algebra.Order.Field.Basic
import Mathlib.Tactic.Ring
import Mathlib.Tactic.Linarith
import Mathlib.Tactic.LinearCombination
import Mathlib.Algebra.BigOperators.Ring.Finset

/-! Antiderivative of a piecewise constant function. -/

namespace Lemmas
open Model

section
variable {K : Type} [Field K] [LinearOrder K] [IsStrictOrderedRing K]

/-- Antiderivative: `v_0 x + ∑ (v_{j+1} - v_j) max(x - t_j, 0)`. -/
def primitive (jumps values : List K) (x : K) : K :=
  values.getD 0 0 * x + (Finset.range jumps.length).sum
    (fun j => (values.getD (j + 1) 0 - values.getD j 0) * max (x - jumps.getD j 0) 0)

theorem telescope (v : Nat → K) (n : Nat) : (Finset.range n).sum (fun j => v (j + 1) - v j) = v n - v 0 := by
  rw [Finset.sum_range_sub]

/-- Points of one closed cell `[t_{i-1}, t_i]`: the primitive is linear with slope `v_i`. -/
theorem primitive_cell (jumps values : List K) (i : Nat) (hi : i ≤ jumps.length) (x y : K)
    (hx : ∀ j, j < i → jumps.getD j 0 ≤ x ∧ jumps.getD j 0 ≤ y)
    (hy : ∀ j, i ≤ j → j < jumps.length → x ≤ jumps.getD j 0 ∧ y ≤ jumps.getD j 0) :
    primitive jumps values y - primitive jumps values x = (y - x) * values.getD i 0 := by
  have key : (Finset.range jumps.length).sum
      (fun j => (values.getD (j + 1) 0 - values.getD j 0) * max (y - jumps.getD j 0) 0 -
        (values.getD (j + 1) 0 - values.getD j 0) * max (x - jumps.getD j 0) 0) =
      (Finset.range i).sum (fun j => (values.getD (j + 1) 0 - values.getD j 0) * (y - x)) := by
    rw [← Finset.sum_range_add_sum_Ico _ hi]
    have h2 : (Finset.Ico i jumps.length).sum
      (fun j => (values.getD (j + 1) 0 - values.getD j 0) * max (y - jumps.getD j 0) 0 -
        (values.getD (j + 1) 0 - values.getD j 0) * max (x - jumps.getD j 0) 0) = 0 := by
      apply Finset.sum_eq_zero
      intro j hj
      rw [Finset.mem_Ico] at hj
      obtain ⟨h1, h2⟩ := hy j hj.1 hj.2
      rw [max_eq_right (by linarith), max_eq_right (by linarith)]
      ring
    rw [h2, add_zero]
    apply Finset.sum_congr rfl
    intro j hj
    rw [Finset.mem_range] at hj
    obtain ⟨h1, h2⟩ := hx j hj
    rw [max_eq_left (by linarith), max_eq_left (by linarith)]
    ring
  rw [Finset.sum_sub_distrib, ← Finset.sum_mul, telescope (fun j => values.getD j 0)] at key
  unfold primitive
  linear_combination key

omit [IsStrictOrderedRing K] in
theorem getD_of_some (l : List K) (i : Nat) (a : K) (h : l[i]? = some a) : l.getD i 0 = a := by
  rw [List.getD_eq_getElem?_getD, h]; rfl

omit [IsStrictOrderedRing K] in
theorem getD_some (l : List K) (i : Nat) (h : i < l.length) : l[i]? = some (l.getD i 0) := by
  rw [List.getD_eq_getElem?_getD, List.getElem?_eq_getElem h]; rfl

omit [IsStrictOrderedRing K] in
theorem getD_mono (l : List K) (hs : l.Pairwise (· ≤ ·)) (i j : Nat) (hij : i ≤ j) (hj : j < l.length) :
    l.getD i 0 ≤ l.getD j 0 :=
  getElem_sorted_le l hs i j _ _ hij (getD_some l i (by omega)) (getD_some l j hj)

/-- Entries of the table of cumulative integrals. -/
theorem cumulativeIntegrals_getD (jumps values : List K) (hs : jumps.Pairwise (· ≤ ·))
    (hl : values.length = jumps.length + 1) (j : Nat) (hj : j < jumps.length) :
    (cumulativeIntegrals jumps values).getD j 0 =
      primitive jumps values (jumps.getD j 0) - primitive jumps values (jumps.getD 0 0) := by
  have hlen : (List.zipWith (· * ·) ((values.take (values.length - 1)).drop 1)
      (List.zipWith (· - ·) jumps.tail jumps.dropLast)).length = jumps.length - 1 := by
    simp; omega
  have hterm : ∀ k, k + 1 < jumps.length → (List.zipWith (· * ·) ((values.take (values.length - 1)).drop 1)
      (List.zipWith (· - ·) jumps.tail jumps.dropLast)).getD k 0 =
      values.getD (k + 1) 0 * (jumps.getD (k + 1) 0 - jumps.getD k 0) := by
    intro k hk
    rw [List.getD_eq_getElem?_getD, List.getElem?_zipWith, List.getElem?_drop, List.getElem?_take,
      if_pos (by omega), getD_some values (1 + k) (by omega), List.getElem?_zipWith, List.getElem?_tail,
      List.getElem?_dropLast, if_pos (by omega), getD_some jumps (k + 1) hk, getD_some jumps k (by omega)]
    rw [Nat.add_comm 1 k]; rfl
  induction j with
  | zero => rw [sub_self]; rfl
  | succ j ih =>
    have ih := ih (by omega)
    have hval : ∀ m, m + 1 < jumps.length → (cumulativeIntegrals jumps values).getD (m + 1) 0 =
        (Finset.range (m + 1)).sum (fun k => values.getD (k + 1) 0 * (jumps.getD (k + 1) 0 - jumps.getD k 0)) := by
      intro m hm
      unfold cumulativeIntegrals
      simp only [List.cons_append, List.nil_append, List.getD_cons_succ]
      rw [List.getD_eq_getElem?_getD, List.getElem?_append_left]
      · have := cumsum_getElem? (List.zipWith (· * ·) ((values.take (values.length - 1)).drop 1)
          (List.zipWith (· - ·) jumps.tail jumps.dropLast)) false m (by omega)
        unfold segmentCumsum at this
        simp only [Bool.false_eq_true, if_false] at this
        rw [this, Option.getD_some]
        apply Finset.sum_congr rfl
        intro k hk
        rw [Finset.mem_range] at hk
        exact hterm k (by omega)
      · have := cumsum_length (List.zipWith (· * ·) ((values.take (values.length - 1)).drop 1)
          (List.zipWith (· - ·) jumps.tail jumps.dropLast)) false
        unfold segmentCumsum at this
        simp only at this
        rw [this]; omega
    have hstep : (cumulativeIntegrals jumps values).getD (j + 1) 0 =
        (cumulativeIntegrals jumps values).getD j 0 +
          values.getD (j + 1) 0 * (jumps.getD (j + 1) 0 - jumps.getD j 0) := by
      rw [hval j hj]
      cases j with
      | zero => simp [cumulativeIntegrals]
      | succ m => rw [hval m (by omega), Finset.sum_range_succ (n := m + 1)]
    have hcell := primitive_cell jumps values (j + 1) (by omega) (jumps.getD j 0) (jumps.getD (j + 1) 0)
      (fun k hk => ⟨getD_mono jumps hs k j (by omega) (by omega), getD_mono jumps hs k (j + 1) (by omega) hj⟩)
      (fun k hk hk' => ⟨getD_mono jumps hs j k (by omega) hk', getD_mono jumps hs (j + 1) k (by omega) hk'⟩)
    rw [hstep, ih]
    linear_combination -hcell

/-- The model's integral is the increment of the primitive (also for `x1 > x2`). -/
theorem piecewiseIntegrate_eq (jumps values : List K) (hs : jumps.Pairwise (· ≤ ·)) (hne : jumps ≠ [])
    (hl : values.length = jumps.length + 1) (x1 x2 : K) :
    piecewiseIntegrate jumps values x1 x2 = primitive jumps values x2 - primitive jumps values x1 := by
  have hpos := List.length_pos_iff.2 hne
  obtain ⟨hle1, hsp1⟩ := searchLeft_spec jumps hs x1
  obtain ⟨hle2, hsp2⟩ := searchRight_spec jumps hs x2
  unfold piecewiseIntegrate getIndicesAndValues
  simp only [if_true, Bool.false_eq_true, if_false]
  have e1 : (min (searchLeft jumps x1 : Int) ((values.length : Int) - 2)).toNat =
      min (searchLeft jumps x1) (jumps.length - 1) := by omega
  have e2 : (max ((searchRight jumps x2 : Int) - 1) 0).toNat = searchRight jumps x2 - 1 := by omega
  rw [e1, e2, cumulativeIntegrals_getD jumps values hs hl _ (by omega),
    cumulativeIntegrals_getD jumps values hs hl _ (by omega)]
  have c1 := primitive_cell jumps values (searchLeft jumps x1) hle1 x1
    (jumps.getD (min (searchLeft jumps x1) (jumps.length - 1)) 0)
    (fun j hj => ⟨((hsp1 j _ (getD_some jumps j (by omega))).1 hj).le, getD_mono jumps hs _ _ (by omega) (by omega)⟩)
    (fun j hj hj' => ⟨by
      by_contra hc
      have := (hsp1 j _ (getD_some jumps j (by omega))).2 (not_le.1 hc)
      omega, getD_mono jumps hs _ _ (by omega) (by omega)⟩)
  have c2 := primitive_cell jumps values (searchRight jumps x2) hle2
    (jumps.getD (searchRight jumps x2 - 1) 0) x2
    (fun j hj => ⟨getD_mono jumps hs _ _ (by omega) (by omega), (hsp2 j _ (getD_some jumps j (by omega))).1 hj⟩)
    (fun j hj hj' => ⟨getD_mono jumps hs _ _ (by omega) (by omega), by
      by_contra hc
      have := (hsp2 j _ (getD_some jumps j (by omega))).2 (not_le.1 hc).le
      omega⟩)
  linear_combination -c1 - c2

end

end Lemmas
