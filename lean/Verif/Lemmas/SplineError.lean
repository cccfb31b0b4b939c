import Verif.Props.SplineUnique
import Verif.Lemmas.TaylorBound

/-! # Errors of chords and cubic splines -/

namespace Lemmas
open Set Model Spec

/-- Between two points a function with second derivative at most `M` differs from its chord by at most `M (t - p) (q - t) / 2`, and its
derivative from the slope by at most `M (q - p) / 2`. -/
theorem chord_error (p q M : ℝ) (hpq : p < q) (E : ℕ → ℝ → ℝ)
    (h : ∀ k, k < 2 → ∀ y ∈ Icc p q, HasDerivWithinAt (E k) (E (k + 1) y) (Icc p q) y) (hM : ∀ y ∈ Icc p q, |E 2 y| ≤ M)
    (t : ℝ) (ht : t ∈ Icc p q) :
    |E 0 t - (E 0 p + (t - p) * ((E 0 q - E 0 p) / (q - p)))| ≤ M * ((t - p) * (q - t)) / 2 ∧
      |E 1 t - (E 0 q - E 0 p) / (q - p)| ≤ M * (q - p) / 2 := by
  have h1 := taylor_bound p q M 2 E h hM t p ht (left_mem_Icc.2 hpq.le)
  have h2 := taylor_bound p q M 2 E h hM t q ht (right_mem_Icc.2 hpq.le)
  simp only [Finset.sum_range_succ, Finset.sum_range_zero, zero_add, pow_zero, mul_one, Nat.factorial, Nat.cast_one, div_one, pow_one, one_mul,
    Nat.cast_ofNat, sq_abs, Nat.mul_one, Nat.reduceMul, Nat.reduceAdd, mul_one] at h1 h2
  have hd : 0 < q - p := sub_pos.2 hpq
  have hM0 : 0 ≤ M := (abs_nonneg _).trans (hM t ht)
  obtain ⟨t0, t1⟩ := ht
  rw [abs_le] at h1 h2
  set A := E 0 p - (E 0 t + E 1 t * (p - t)) with hA
  set B := E 0 q - (E 0 t + E 1 t * (q - t)) with hB
  constructor
  · have e : E 0 t - (E 0 p + (t - p) * ((E 0 q - E 0 p) / (q - p))) = -((q - t) * A + (t - p) * B) / (q - p) := by
      rw [hA, hB]
      field_simp
      ring
    have e2 : M * ((t - p) * (q - t)) / 2 = ((q - t) * (M * (p - t) ^ 2 / 2) + (t - p) * (M * (q - t) ^ 2 / 2)) / (q - p) := by
      field_simp
      ring
    rw [e, e2, abs_div, abs_of_pos hd, abs_neg]
    refine div_le_div_of_nonneg_right ?_ hd.le
    refine (abs_add_le _ _).trans (add_le_add ?_ ?_)
    · rw [abs_mul, abs_of_nonneg (by linarith : 0 ≤ q - t)]
      exact mul_le_mul_of_nonneg_left (abs_le.2 h1) (by linarith)
    · rw [abs_mul, abs_of_nonneg (by linarith : 0 ≤ t - p)]
      exact mul_le_mul_of_nonneg_left (abs_le.2 h2) (by linarith)
  · have e : E 1 t - (E 0 q - E 0 p) / (q - p) = (A - B) / (q - p) := by
      rw [hA, hB]
      field_simp
      ring
    rw [e, abs_div, abs_of_pos hd, div_le_iff₀ hd]
    have : |A - B| ≤ M * (p - t) ^ 2 / 2 + M * (q - t) ^ 2 / 2 := abs_le.2 ⟨by linarith, by linarith⟩
    have : M * ((q - p) * (q - p)) - M * (p - t) ^ 2 - M * (q - t) ^ 2 = 2 * (M * ((t - p) * (q - t))) := by ring
    have : 0 ≤ M * ((t - p) * (q - t)) := mul_nonneg hM0 (mul_nonneg (by linarith) (by linarith))
    linarith

/-- The product of the distances from the ends of an interval. -/
theorem distances_le (p q t h : ℝ) (ht : t ∈ Icc p q) (hh : q - p ≤ h) : (t - p) * (q - t) ≤ h ^ 2 / 4 := by
  have h0 : 0 ≤ q - p := by linarith [ht.1, ht.2]
  nlinarith [sq_nonneg ((t - p) - (q - t)), mul_self_le_mul_self h0 hh]

/-- A tridiagonal system with the matrix of a cubic spline has a solution that is as small as its right hand side. -/
theorem spline_system_bound (d g : ℕ → ℝ) (m : ℕ) (B : ℝ) (hg : ∀ i, i ≤ m → 0 < g i)
    (h0 : |d 0| ≤ B ∨ |2 * d 0 + d 1| ≤ B) (h1 : |d (m + 1)| ≤ B ∨ |d m + 2 * d (m + 1)| ≤ B)
    (h : ∀ i, i < m → |g i * d i + 2 * (g i + g (i + 1)) * d (i + 1) + g (i + 1) * d (i + 2)| ≤ B * (g i + g (i + 1))) :
    ∀ i, i ≤ m + 1 → |d i| ≤ B := by
  obtain ⟨j, hj, hmax⟩ := Finset.exists_max_image (Finset.range (m + 2)) (fun i => |d i|) ⟨0, by simp⟩
  have hj' := Finset.mem_range.1 hj
  have dom : ∀ u v : ℝ, |2 * u + v| ≤ B → |v| ≤ |u| → |u| ≤ B := by
    intro u v h1 h2
    have : |2 * u| ≤ |2 * u + v| + |v| := by
      have := abs_sub (2 * u + v) v
      rwa [add_sub_cancel_right] at this
    rw [abs_mul, abs_two] at this
    linarith
  have hz : |d j| ≤ B := by
    rcases j with _ | j
    · rcases h0 with h0 | h0
      · exact h0
      · exact dom _ _ h0 (hmax 1 (Finset.mem_range.2 (by omega)))
    · by_cases hjm : j = m
      · subst hjm
        rcases h1 with h1 | h1
        · exact h1
        · exact dom _ (d j) (by rwa [add_comm]) (hmax j (Finset.mem_range.2 (by omega)))
      · have e := h j (by omega)
        have b1 := hmax j (Finset.mem_range.2 (by omega))
        have b2 := hmax (j + 2) (Finset.mem_range.2 (by omega))
        have g1 := hg j (by omega)
        have g2 := hg (j + 1) (by omega)
        have e'' : 2 * (g j + g (j + 1)) * |d (j + 1)| ≤ B * (g j + g (j + 1)) + g j * |d j| + g (j + 1) * |d (j + 2)| := by
          rw [← abs_of_pos (show 0 < 2 * (g j + g (j + 1)) by linarith), ← abs_mul]
          have e' : 2 * (g j + g (j + 1)) * d (j + 1) = (g j * d j + 2 * (g j + g (j + 1)) * d (j + 1) + g (j + 1) * d (j + 2)) -
            g j * d j - g (j + 1) * d (j + 2) := by ring
          rw [e']
          refine (abs_sub _ _).trans (add_le_add ((abs_sub _ _).trans (add_le_add e ?_)) ?_)
          · rw [abs_mul, abs_of_pos g1]
          · rw [abs_mul, abs_of_pos g2]
        have c1 := mul_le_mul_of_nonneg_left b1 g1.le
        have c2 := mul_le_mul_of_nonneg_left b2 g2.le
        have : (g j + g (j + 1)) * |d (j + 1)| ≤ (g j + g (j + 1)) * B := by linarith
        exact le_of_mul_le_mul_left this (by linarith)
  intro i hi
  exact (hmax i (Finset.mem_range.2 (by omega))).trans hz

section
variable (xs ys : List ℝ) (m : Nat) (hx : xs.length = m + 2) (hy : ys.length = m + 2) (hs : xs.Pairwise (· < ·))
  (s s1 s2 : ℝ → ℝ) (hsp : IsCubicSpline xs ys (xs.getD 0 0) (xs.getD (m + 1) 0) s s1 s2)

include hx hy hs hsp

/-- The equations of the second derivatives of a spline at the knots. -/
theorem spline_moments :
    (∀ i, i < m → gap xs i * s2 (xs.getD i 0) + 2 * (gap xs i + gap xs (i + 1)) * s2 (xs.getD (i + 1) 0) + gap xs (i + 1) * s2 (xs.getD (i + 2) 0) =
      6 * (slope xs ys (i + 1) - slope xs ys i)) ∧
    gap xs 0 * (2 * s2 (xs.getD 0 0) + s2 (xs.getD 1 0)) = 6 * (slope xs ys 0 - s1 (xs.getD 0 0)) ∧
    gap xs m * (s2 (xs.getD m 0) + 2 * s2 (xs.getD (m + 1) 0)) = 6 * (s1 (xs.getD (m + 1) 0) - slope xs ys m) := by
  have hp := spline_pieces xs ys m hx hy hs s s1 s2 hsp
  have hcv : ∀ j, j < m + 2 → (xs.map (fun x => s2 x / 2)).getD j 0 = s2 (xs.getD j 0) / 2 := by
    intro j hj
    have : (xs.map (fun x => s2 x / 2))[j]? = some (s2 (xs.getD j 0) / 2) := by
      rw [List.getElem?_map, getD_some xs j (by omega)]
      rfl
    exact getD_of_some _ j _ this
  refine ⟨fun i hi => ?_, ?_, ?_⟩
  · have e1 := (hp i (by omega)).2.2
    have e2 := (hp (i + 1) (by omega)).2.1
    rw [hcv i (by omega), hcv (i + 1) (by omega)] at e1
    rw [hcv (i + 1) (by omega), show i + 1 + 1 = i + 2 from rfl, hcv (i + 2) (by omega)] at e2
    linarith
  · have e2 := (hp 0 (by omega)).2.1
    rw [zero_add, hcv 0 (by omega), hcv 1 (by omega)] at e2
    linarith
  · have e1 := (hp m (by omega)).2.2
    rw [hcv m (by omega), hcv (m + 1) (by omega)] at e1
    linarith

/-- The second derivative is the chord between the knots. -/
theorem spline_second (k : Nat) (hk : k ≤ m) (t : ℝ) (ht : t ∈ Icc (xs.getD k 0) (xs.getD (k + 1) 0)) :
    s2 t = s2 (xs.getD k 0) + (t - xs.getD k 0) * ((s2 (xs.getD (k + 1) 0) - s2 (xs.getD k 0)) / gap xs k) := by
  have hlt := strict_getD xs m hx hs k (k + 1) (by omega) (by omega)
  obtain ⟨p, q, hpq⟩ := hsp.cubic k _ _ (getD_some xs k (by omega)) (getD_some xs (k + 1) (by omega))
  rw [hpq t ht, hpq _ (left_mem_Icc.2 hlt.le), hpq _ (right_mem_Icc.2 hlt.le)]
  have : xs.getD (k + 1) 0 - xs.getD k 0 ≠ 0 := (sub_pos.2 hlt).ne'
  unfold gap
  field_simp
  ring

end

/-- Every point between the first and the last knot is between two neighbouring knots. -/
theorem knot_interval (xs : List ℝ) (m : Nat) (t : ℝ) (ht : t ∈ Icc (xs.getD 0 0) (xs.getD (m + 1) 0)) :
    ∃ k, k ≤ m ∧ t ∈ Icc (xs.getD k 0) (xs.getD (k + 1) 0) := by
  have main : ∀ n, n ≤ m → t ≤ xs.getD (n + 1) 0 → ∃ k, k ≤ m ∧ t ∈ Icc (xs.getD k 0) (xs.getD (k + 1) 0) := by
    intro n
    induction n with
    | zero => exact fun hn h => ⟨0, hn, ht.1, h⟩
    | succ n ih =>
      intro hn h
      by_cases h' : t ≤ xs.getD (n + 1) 0
      · exact ih (by omega) h'
      · exact ⟨n + 1, hn, (not_le.1 h').le, h⟩
  exact main m le_rfl ht.2

/-- A point on a chord between two values of size at most `B`. -/
theorem chord_le (p q u v B t : ℝ) (hpq : p < q) (ht : t ∈ Icc p q) (hu : |u| ≤ B) (hv : |v| ≤ B) : |u + (t - p) * ((v - u) / (q - p))| ≤ B := by
  have hd : 0 < q - p := sub_pos.2 hpq
  have e : u + (t - p) * ((v - u) / (q - p)) = ((q - t) * u + (t - p) * v) / (q - p) := by
    field_simp
    ring
  rw [e, abs_div, abs_of_pos hd, div_le_iff₀ hd]
  obtain ⟨t0, t1⟩ := ht
  refine (abs_add_le _ _).trans ?_
  rw [abs_mul, abs_mul, abs_of_nonneg (by linarith : 0 ≤ q - t), abs_of_nonneg (by linarith : 0 ≤ t - p)]
  have c1 := mul_le_mul_of_nonneg_left hu (by linarith : 0 ≤ q - t)
  have c2 := mul_le_mul_of_nonneg_left hv (by linarith : 0 ≤ t - p)
  linarith

end Lemmas
