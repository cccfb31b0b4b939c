import Verif.Model.LegacyBrownian
import Verif.Lemmas.NdArray

/-! Lemmas on the coefficients of the legacy Brownian motion. -/

namespace LegacyBrownian
open Model
open NdArray (Valid)

theorem outer_get (x y : Model.NdArray ℝ) : ∃ r, outerMultiply x y = .ok r ∧ r.shape = x.shape ++ y.shape ∧
    ∀ a b, Valid x.shape a → Valid y.shape b → r.get (a ++ b) = x.get a * y.get b := by
  have e := NdArray.broadcastShape_ones x.shape y.shape
  refine ⟨_, by simp only [outerMultiply, Model.NdArray.map2, Model.NdArray.reshape, e]; rfl, rfl, fun a b ha hb => ?_⟩
  dsimp only
  have hl : b.length = y.shape.length := NdArray.valid_length hb
  have e1 : broadcastIndex (x.shape ++ List.replicate y.shape.length 1) (a ++ b) = a ++ List.replicate b.length 0 := by
    unfold broadcastIndex
    rw [List.length_append, List.length_append, List.length_replicate, NdArray.valid_length ha, hl, Nat.sub_self, List.drop_zero,
      List.zipWith_append (NdArray.valid_length ha), NdArray.zip_valid ha, ← hl, NdArray.zip_ones]
  rw [e1, NdArray.flat_append ha, NdArray.flat_zeros, List.prod_replicate, one_pow, Nat.mul_one, Nat.add_zero, NdArray.unflat_flat ha, NdArray.broadcastIndex_suffix hb]

theorem valid_one {i k : Nat} (h : i < k) : Valid [k] [i] := .cons h .nil

theorem valid_two {i j k l : Nat} (h : i < k) (h2 : j < l) : Valid [k, l] [i, j] := .cons h (.cons h2 .nil)

/-- The components of a constant drift, a scalar or a vector. -/
noncomputable def driftValue (c : Model.NdArray ℝ) (j : Nat) : ℝ := if c.shape = [] then c.get [] else c.get [j]

/-- The entries of a constant volatility, a scalar, a vector or a matrix. -/
noncomputable def volValue (c : Model.NdArray ℝ) (i j : Nat) : ℝ :=
  if c.shape = [] then if i = j then c.get [] else 0
  else if c.shape.length = 1 then if i = j then c.get [i] else 0
  else c.get [i, j]

theorem drift_const {c : Model.NdArray ℝ} {dim : Nat} (hc : c.shape = [] ∨ c.shape = [dim]) :
    ∃ r, Model.NdArray.map2 (· * ·) (onesTensor [dim]) c = .ok r ∧ r.shape = [dim] ∧ ∀ j, j < dim → r.get [j] = driftValue c j := by
  rcases hc with hc | hc
  · obtain ⟨r, h1, h2, h3⟩ := NdArray.map2_suffix (fun x y : ℝ => x * y) (a := onesTensor [dim]) (b := c) (s := [dim]) (t := []) rfl hc
    refine ⟨r, h1, h2, fun j hj => ?_⟩
    have := h3 [j] [] (valid_one hj) .nil
    rw [List.append_nil] at this
    rw [this]
    simp [onesTensor, driftValue, hc]
  · obtain ⟨r, h1, h2, h3⟩ := NdArray.map2_same (fun x y : ℝ => x * y) (a := onesTensor [dim]) (b := c) hc.symm
    refine ⟨r, h1, h2, fun j hj => ?_⟩
    rw [h3 [j] (valid_one hj)]
    simp [onesTensor, driftValue, hc]

theorem matrix_const {c : Model.NdArray ℝ} {dim : Nat} (hc : c.shape = [] ∨ c.shape = [dim] ∨ c.shape = [dim, dim]) :
    ∃ r, ensureMatrix c dim = .ok r ∧ r.shape = [dim, dim] ∧ ∀ i j, i < dim → j < dim → r.get [i, j] = volValue c i j := by
  rcases hc with hc | hc | hc
  · obtain ⟨r, h1, h2, h3⟩ := NdArray.map2_suffix (fun x y : ℝ => x * y) (a := eyeTensor dim) (b := c) (s := [dim, dim]) (t := []) rfl hc
    refine ⟨r, ?_, h2, fun i j hi hj => ?_⟩
    · unfold ensureMatrix
      rw [if_pos (by simp [hc])]
      exact h1
    · have := h3 [i, j] [] (valid_two hi hj) .nil
      rw [List.append_nil] at this
      rw [this]
      simp [eyeTensor, volValue, hc]
  · refine ⟨_, by unfold ensureMatrix; rw [if_neg (by simp [hc]), if_pos (by simp [hc])], by simp [hc], fun i j hi hj => ?_⟩
    simp [volValue, hc]
  · refine ⟨_, by unfold ensureMatrix; rw [if_neg (by simp [hc]), if_neg (by simp [hc])], hc, fun i j hi hj => ?_⟩
    simp [volValue, hc]

open scoped BigOperators in
theorem covar_const {c : Model.NdArray ℝ} {dim : Nat} (hc : c.shape = [] ∨ c.shape = [dim] ∨ c.shape = [dim, dim]) :
    ∃ r, covarFromVol c dim = .ok r ∧ r.shape = [dim, dim] ∧ ∀ i j, i < dim → j < dim → r.get [i, j] = ∑ l ∈ Finset.range dim, volValue c i l * volValue c j l := by
  have hdiag : ∀ (g : Nat → ℝ) (i j : Nat), i < dim → (∑ l ∈ Finset.range dim, (if i = l then g i else 0) * (if j = l then g j else 0)) = if i = j then g i * g i else 0 := by
    intro g i j hi
    rw [Finset.sum_eq_single i]
    · by_cases hij : i = j
      · simp [hij]
      · simp [hij, Ne.symm hij]
    · intro l _ hl
      rw [if_neg (Ne.symm hl), zero_mul]
    · intro hn
      exact absurd (Finset.mem_range.2 hi) hn
  rcases hc with hc | hc | hc
  · obtain ⟨s, g1, g2, g3⟩ := NdArray.map2_same (fun x y : ℝ => x * y) (a := c) (b := c) rfl
    obtain ⟨r, h1, h2, h3⟩ := NdArray.map2_scalar_left (fun x y : ℝ => x * y) (a := s) (b := eyeTensor dim) (g2.trans hc)
    refine ⟨r, ?_, h2, fun i j hi hj => ?_⟩
    · unfold covarFromVol
      rw [if_pos (by simp [hc])]
      simp only [g1, bind, Except.bind]
      exact h1
    · rw [h3 [i, j] (valid_two hi hj), g3 [] (by rw [hc]; exact .nil)]
      have := hdiag (fun _ => c.get []) i j hi
      simp only [volValue, hc, if_true]
      rw [this]
      simp [eyeTensor]
  · refine ⟨_, by unfold covarFromVol; rw [if_neg (by simp [hc]), if_pos (by simp [hc])], by simp [hc], fun i j hi hj => ?_⟩
    have := hdiag (fun l => c.get [l]) i j hi
    simp only [volValue, hc, List.length_singleton, if_true, reduceCtorEq, if_false]
    rw [this]
    simp
  · refine ⟨_, by unfold covarFromVol; rw [if_neg (by simp [hc]), if_neg (by simp [hc])], by simp [hc], fun i j hi hj => ?_⟩
    simp [volValue, hc]

end LegacyBrownian
