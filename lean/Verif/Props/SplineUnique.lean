import Verif.Props.CubicSpline
import Mathlib.Analysis.Calculus.MeanValue

/-! # C38 The cubic spline is the only one with its boundary -/

namespace Lemmas
open Model Spec

/-- A function whose second derivative vanishes on an interval and which is zero at its ends is zero, and so is its derivative. -/
theorem zero_of_second_zero (e e1 : ℝ → ℝ) (a b : ℝ) (hab : a < b)
    (h1 : ∀ t ∈ Set.Icc a b, HasDerivWithinAt e (e1 t) (Set.Icc a b) t) (h2 : ∀ t ∈ Set.Icc a b, HasDerivWithinAt e1 0 (Set.Icc a b) t)
    (ha : e a = 0) (hb : e b = 0) : (∀ t ∈ Set.Icc a b, e t = 0) ∧ e1 a = 0 ∧ e1 b = 0 := by
  have hau : a ∈ Set.Icc a b := Set.left_mem_Icc.2 hab.le
  have hbu : b ∈ Set.Icc a b := Set.right_mem_Icc.2 hab.le
  have const : ∀ (f : ℝ → ℝ), (∀ t ∈ Set.Icc a b, HasDerivWithinAt f 0 (Set.Icc a b) t) → ∀ t ∈ Set.Icc a b, f t = f a := by
    intro f hf t ht
    have := (convex_Icc a b).norm_image_sub_le_of_norm_hasDerivWithin_le (C := 0) hf (fun _ _ => by simp) hau ht
    rw [zero_mul, norm_le_zero_iff, sub_eq_zero] at this
    exact this
  have c1 := const e1 h2
  have c2 := const (fun t => e t - e1 a * (t - a)) (by
    intro t ht
    have := (h1 t ht).sub ((((hasDerivAt_id t).sub_const a).const_mul (e1 a)).hasDerivWithinAt (s := Set.Icc a b))
    refine this.congr_deriv ?_
    rw [c1 t ht]
    ring)
  have hb' := c2 b hbu
  simp only [ha, hb, sub_self, mul_zero, zero_sub, neg_eq_zero, mul_eq_zero] at hb'
  have h0 : e1 a = 0 := hb'.resolve_right (by linarith)
  refine ⟨fun t ht => ?_, h0, ?_⟩
  · have := c2 t ht
    simpa [ha, h0] using this
  · rw [c1 b hbu, h0]

/-- A cubic spline consists of the cubics the code evaluates, with half of its second derivatives at the knots as coefficients. -/
theorem spline_pieces (xs ys : List ℝ) (m : Nat) (hx : xs.length = m + 2) (hy : ys.length = m + 2) (hs : xs.Pairwise (· < ·))
    (s s1 s2 : ℝ → ℝ) (h : IsCubicSpline xs ys (xs.getD 0 0) (xs.getD (m + 1) 0) s s1 s2) (k : Nat) (hk : k ≤ m) :
    let cs := xs.map fun x => s2 x / 2
    (∀ t ∈ Set.Icc (xs.getD k 0) (xs.getD (k + 1) 0), s t = pieceAt xs ys cs k t) ∧
      s1 (xs.getD k 0) = slope xs ys k - gap xs k * (cs.getD (k + 1) 0 + 2 * cs.getD k 0) / 3 ∧
      s1 (xs.getD (k + 1) 0) = slope xs ys k + gap xs k * (2 * cs.getD (k + 1) 0 + cs.getD k 0) / 3 := by
  intro cs
  have hlt := strict_getD xs m hx hs k (k + 1) (by omega) (by omega)
  have hc : ∀ j, j < m + 2 → cs.getD j 0 = s2 (xs.getD j 0) / 2 := by
    intro j hj
    have : cs[j]? = some (s2 (xs.getD j 0) / 2) := by
      change (xs.map _)[j]? = _
      rw [List.getElem?_map, getD_some xs j (by omega)]
      rfl
    exact getD_of_some cs j _ this
  have hsub : Set.Icc (xs.getD k 0) (xs.getD (k + 1) 0) ⊆ Set.Icc (xs.getD 0 0) (xs.getD (m + 1) 0) :=
    Set.Icc_subset_Icc (le_getD xs m hx hs 0 k (by omega) (by omega)) (le_getD xs m hx hs (k + 1) (m + 1) (by omega) le_rfl)
  obtain ⟨p, q, hpq⟩ := h.cubic k _ _ (getD_some xs k (by omega)) (getD_some xs (k + 1) (by omega))
  have key := zero_of_second_zero (fun t => s t - pieceAt xs ys cs k t) (fun t => s1 t - pieceAt1 xs ys cs k t) _ _ hlt
    (fun t ht => ((h.first t (hsub ht)).mono hsub).sub (cubicPiece_deriv _ _ _ _ _ _ t hlt).hasDerivWithinAt)
    (fun t ht => by
      have := ((h.second t (hsub ht)).mono hsub).sub (cubicPiece1_deriv (xs.getD k 0) (xs.getD (k + 1) 0) (ys.getD k 0) (ys.getD (k + 1) 0)
        (cs.getD k 0) (cs.getD (k + 1) 0) t hlt).hasDerivWithinAt
      refine this.congr_deriv ?_
      unfold cubicPiece2
      dsimp only
      rw [hc k (by omega), hc (k + 1) (by omega), hpq t ht, hpq _ (Set.left_mem_Icc.2 hlt.le), hpq _ (Set.right_mem_Icc.2 hlt.le)]
      have : xs.getD (k + 1) 0 - xs.getD k 0 ≠ 0 := (sub_pos.2 hlt).ne'
      field_simp
      ring)
    (by
      rw [piece_left, h.knots k _ _ (getD_some xs k (by omega)) (getD_some ys k (by omega)), sub_self])
    (by
      rw [piece_right xs ys cs m hx hs k hk, h.knots (k + 1) _ _ (getD_some xs (k + 1) (by omega)) (getD_some ys (k + 1) (by omega)), sub_self])
  obtain ⟨k1, k2, k3⟩ := key
  refine ⟨fun t ht => sub_eq_zero.1 (k1 t ht), ?_, ?_⟩
  · rw [← piece1_left]
    exact sub_eq_zero.1 k2
  · rw [← piece1_right xs ys cs m hx hs k hk]
    exact sub_eq_zero.1 k3

/-- The homogeneous equations of the interior knots, with zero at both ends, have only the zero solution. -/
theorem tridiagonal_unique (d g : ℕ → ℝ) (m : ℕ) (hg : ∀ i, i ≤ m → 0 < g i) (h0 : d 0 = 0) (h1 : d (m + 1) = 0)
    (h : ∀ i, i < m → g i * d i + 2 * (g i + g (i + 1)) * d (i + 1) + g (i + 1) * d (i + 2) = 0) :
    ∀ i, i ≤ m + 1 → d i = 0 := by
  obtain ⟨j, hj, hmax⟩ := Finset.exists_max_image (Finset.range (m + 2)) (fun i => |d i|) ⟨0, by simp⟩
  have hj' := Finset.mem_range.1 hj
  have hz : |d j| = 0 := by
    rcases j with _ | j
    · rw [h0, abs_zero]
    · by_cases hjm : j = m
      · rw [hjm, h1, abs_zero]
      · have e := h j (by omega)
        have b1 := hmax j (Finset.mem_range.2 (by omega))
        have b2 := hmax (j + 2) (Finset.mem_range.2 (by omega))
        have g1 := hg j (by omega)
        have g2 := hg (j + 1) (by omega)
        have e' : 2 * (g j + g (j + 1)) * d (j + 1) = -(g j * d j) - g (j + 1) * d (j + 2) := by linarith
        have e'' : 2 * (g j + g (j + 1)) * |d (j + 1)| ≤ g j * |d j| + g (j + 1) * |d (j + 2)| := by
          rw [← abs_of_pos (show 0 < 2 * (g j + g (j + 1)) by linarith), ← abs_mul, e']
          refine (abs_sub _ _).trans ?_
          rw [abs_neg, abs_mul, abs_mul, abs_of_pos g1, abs_of_pos g2]
        have := mul_le_mul_of_nonneg_left b1 g1.le
        have := mul_le_mul_of_nonneg_left b2 g2.le
        have := abs_nonneg (d (j + 1))
        nlinarith
  intro i hi
  have := hmax i (Finset.mem_range.2 (by omega))
  rw [hz] at this
  exact abs_eq_zero.1 (le_antisymm this (abs_nonneg _))

end Lemmas

namespace Props
open Model Spec Lemmas

/-- C38: the natural cubic spline is unique, so the interpolant of the code agrees with every natural cubic spline through the data. -/
theorem C38_unique (xs ys : List ℝ) (hn : 3 ≤ xs.length) (hy : ys.length = xs.length) (hs : xs.Pairwise (· < ·)) (a b : ℝ)
    (ha : xs.head? = some a) (hb : xs.getLast? = some b) (tpu : Bool) (s s1 s2 : ℝ → ℝ) (h : IsCubicSpline xs ys a b s s1 s2)
    (h0 : s2 a = 0) (h1 : s2 b = 0) :
    ∃ c, splineBuild xs ys none none none = some c ∧ ∀ t ∈ Set.Icc a b, cubicInterpolate t xs ys c tpu = s t := by
  obtain ⟨m, hx⟩ : ∃ m, xs.length = m + 2 := ⟨xs.length - 2, by omega⟩
  have ea := head_getD xs a ha
  have eb := last_getD xs m hx b hb
  rw [← ea, ← eb] at h
  have hyl : ys.length = m + 2 := by omega
  have hp := spline_pieces xs ys m hx hyl hs s s1 s2 h
  set cs := xs.map (fun x => s2 x / 2) with hcs
  obtain ⟨c, hc, hcl, c0, c1, heq⟩ := spline_natural xs ys m hx hyl (gap_pos xs m hx hs) 0 0
  have hcv : ∀ j, j < m + 2 → cs.getD j 0 = s2 (xs.getD j 0) / 2 := by
    intro j hj
    have : cs[j]? = some (s2 (xs.getD j 0) / 2) := by
      rw [hcs, List.getElem?_map, getD_some xs j (by omega)]
      rfl
    exact getD_of_some cs j _ this
  have heq' : ∀ i, i < m → gap xs i * cs.getD i 0 + 2 * (gap xs i + gap xs (i + 1)) * cs.getD (i + 1) 0 +
        gap xs (i + 1) * cs.getD (i + 2) 0 = -3 * (slope xs ys i - slope xs ys (i + 1)) := by
    intro i hi
    have e1 := (hp i (by omega)).2.2
    have e2 := (hp (i + 1) (by omega)).2.1
    rw [e1] at e2
    linarith
  have hd := tridiagonal_unique (fun i => c.getD i 0 - cs.getD i 0) (gap xs) m (gap_pos xs m hx hs)
    (by simp only [c0]; rw [hcv 0 (by omega), ea, h0]; norm_num)
    (by simp only [c1]; rw [hcv (m + 1) (by omega), eb, h1]; norm_num)
    (fun i hi => by
      have := heq i hi
      have := heq' i hi
      linarith)
  refine ⟨c, hc, ?_⟩
  intro t ht
  rw [← ea, ← eb] at ht
  -- the interval of `t`
  obtain ⟨k, hk, htk⟩ : ∃ k, k ≤ m ∧ t ∈ Set.Icc (xs.getD k 0) (xs.getD (k + 1) 0) := by
    have main : ∀ n, n ≤ m → t ≤ xs.getD (n + 1) 0 → ∃ k, k ≤ m ∧ t ∈ Set.Icc (xs.getD k 0) (xs.getD (k + 1) 0) := by
      intro n
      induction n with
      | zero => exact fun hn h => ⟨0, hn, ht.1, h⟩
      | succ n ih =>
        intro hn h
        by_cases h' : t ≤ xs.getD (n + 1) 0
        · exact ih (by omega) h'
        · exact ⟨n + 1, hn, (not_le.1 h').le, h⟩
    exact main m le_rfl ht.2
  rw [cubic_piece xs ys c m hx hs tpu k (by omega) t htk, (hp k hk).1 t htk]
  unfold pieceAt
  rw [sub_eq_zero.1 (hd k (by omega)), sub_eq_zero.1 (hd (k + 1) (by omega))]

/-- C38: data on a straight line are reproduced between the first and the last knot. -/
theorem C38_affine (xs : List ℝ) (hn : 3 ≤ xs.length) (hs : xs.Pairwise (· < ·)) (a b : ℝ)
    (ha : xs.head? = some a) (hb : xs.getLast? = some b) (tpu : Bool) (p q : ℝ) :
    ∃ c, splineBuild xs (xs.map fun x => p + q * x) none none none = some c ∧
      ∀ t ∈ Set.Icc a b, cubicInterpolate t xs (xs.map fun x => p + q * x) c tpu = p + q * t := by
  refine C38_unique xs _ hn (by simp) hs a b ha hb tpu (fun t => p + q * t) (fun _ => q) (fun _ => 0) ⟨?_, ?_, ?_, ?_, ?_⟩ rfl rfl
  · intro i x y h1 h2
    rw [List.getElem?_map, h1] at h2
    exact Option.some.inj h2
  · intro t _
    have := (((hasDerivAt_id t).const_mul q).const_add p).hasDerivWithinAt (s := Set.Icc a b)
    simpa using this
  · intro t _
    exact hasDerivWithinAt_const _ _ _
  · exact continuousOn_const
  · intro i x0 x1 _ _
    exact ⟨0, 0, fun t _ => by ring⟩

example : splineBuild [0, 1, (3 : ℚ)] [5, 7, 11] none none none = some [0, 0, 0] ∧
    cubicInterpolate (2 : ℚ) [0, 1, 3] [5, 7, 11] [0, 0, 0] = 9 := by decide +kernel

end Props
