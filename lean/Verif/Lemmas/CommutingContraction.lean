import Mathlib.Analysis.InnerProductSpace.JointEigenspace
import Mathlib.Algebra.BigOperators.Fin
import Mathlib.Tactic.Linarith
import Mathlib.Tactic.FieldSimp
import Mathlib.Tactic.LinearCombination
import Mathlib.LinearAlgebra.DFinsupp

/-! # Contraction property of the stages of a splitting scheme with commuting symmetric operators -/

namespace Lemmas
open Module.End
open scoped InnerProductSpace Function

variable {E : Type*} [NormedAddCommGroup E] [InnerProductSpace ℝ E]

/-- An implicit stage does not increase the norm. -/
theorem implicit_le (A : E →ₗ[ℝ] E) (hneg : ∀ x, ⟪A x, x⟫_ℝ ≤ 0) (s : ℝ) (hs : 0 ≤ s) (x y : E) (h : x - s • A x = y) : ‖x‖ ≤ ‖y‖ := by
  have h1 : ‖x‖ * ‖x‖ ≤ ‖y‖ * ‖x‖ := by
    have e : ⟪y, x⟫_ℝ = ‖x‖ * ‖x‖ - s * ⟪A x, x⟫_ℝ := by
      rw [← h, inner_sub_left, real_inner_smul_left, real_inner_self_eq_norm_mul_norm]
    have := real_inner_le_norm y x
    have := mul_nonneg hs (neg_nonneg.2 (hneg x))
    linarith
  by_contra hc
  push Not at hc
  have : 0 < ‖x‖ := lt_of_le_of_lt (norm_nonneg y) hc
  have := mul_lt_mul_of_pos_right hc this
  linarith

/-- An implicit stage has at most one solution. -/
theorem implicit_unique (A : E →ₗ[ℝ] E) (hneg : ∀ x, ⟪A x, x⟫_ℝ ≤ 0) (s : ℝ) (hs : 0 ≤ s) (x x' : E) (h : x - s • A x = x' - s • A x') : x = x' := by
  have := implicit_le A hneg s hs (x - x') 0 (by rw [map_sub, smul_sub, sub_sub_sub_comm, h, sub_self])
  rw [norm_zero] at this
  exact sub_eq_zero.1 (norm_eq_zero.1 (le_antisymm this (norm_nonneg _)))

/-- An implicit stage has a solution. -/
theorem implicit_exists [FiniteDimensional ℝ E] (A : E →ₗ[ℝ] E) (hneg : ∀ x, ⟪A x, x⟫_ℝ ≤ 0) (s : ℝ) (hs : 0 ≤ s) (y : E) :
    ∃ x, x - s • A x = y := by
  have hinj : Function.Injective (LinearMap.id - s • A : E →ₗ[ℝ] E) := by
    intro x x' h
    exact implicit_unique A hneg s hs x x' (by simpa using h)
  obtain ⟨x, hx⟩ := LinearMap.surjective_of_injective hinj y
  exact ⟨x, by simpa using hx⟩

/-- A growth factor. -/
theorem growth_le (n : ℕ) (z c : ℕ → ℝ) (theta : ℝ) (hth : 1 / 2 ≤ theta) (hz : ∀ d, d < n → z d ≤ 0) (h0 : c 0 = ∑ d ∈ Finset.range n, z d)
    (hc : ∀ d, d < n → c (d + 1) = c d / (1 - theta * z d)) : |1 + c n| ≤ 1 := by
  have key : ∀ k, k ≤ n → ∃ q : ℝ, 1 - theta * ∑ d ∈ Finset.range k, z d ≤ q ∧ 1 ≤ q ∧ c k * q = ∑ d ∈ Finset.range n, z d := by
    intro k
    induction k with
    | zero => intro _; exact ⟨1, by simp, le_rfl, by rw [mul_one, h0]⟩
    | succ k ih =>
      intro hk
      obtain ⟨q, h1, h2, h3⟩ := ih (by omega)
      have hzk := hz k (by omega)
      have hpos : 1 ≤ 1 - theta * z k := by nlinarith
      refine ⟨q * (1 - theta * z k), ?_, by nlinarith, ?_⟩
      · rw [Finset.sum_range_succ]
        nlinarith
      · rw [hc k (by omega), ← h3]
        field_simp
  obtain ⟨q, h1, h2, h3⟩ := key n le_rfl
  have hs : ∑ d ∈ Finset.range n, z d ≤ 0 := Finset.sum_nonpos (fun d hd => hz d (Finset.mem_range.1 hd))
  rw [← h3] at h1 hs
  have hq : 0 < q := by linarith
  have hcn : c n ≤ 0 := by
    by_contra hcon
    push Not at hcon
    nlinarith
  have : -2 ≤ c n := by
    by_contra hcon
    push Not at hcon
    nlinarith
  rw [abs_le]
  constructor <;> linarith

/-- The steps of a splitting scheme with commuting symmetric operators that are not positive do not increase the norm. -/
theorem splitting_le [FiniteDimensional ℝ E] (n : ℕ) (A : Fin n → E →ₗ[ℝ] E) (hsym : ∀ d, (A d).IsSymmetric) (hcomm : ∀ d e, d ≠ e → A d ∘ₗ A e = A e ∘ₗ A d)
    (hneg : ∀ d x, ⟪A d x, x⟫_ℝ ≤ 0) (theta dt : ℝ) (hth : 1 / 2 ≤ theta) (hdt : 0 ≤ dt) (u : E) (w : ℕ → E) (h0 : w 0 = dt • ∑ d, A d u)
    (hw : ∀ d : Fin n, w (d + 1) - (theta * dt) • A d (w (d + 1)) = w d) : ‖u + w n‖ ≤ ‖u‖ := by
  classical
  have htop := LinearMap.IsSymmetric.iSup_iInf_eq_top_of_commute (T := A) hsym (fun d e hde => hcomm d e hde)
  have hu : u ∈ ⨆ χ : Fin n → ℝ, ⨅ i, eigenspace (A i) (χ i) := by rw [htop]; trivial
  obtain ⟨f, hf⟩ := (Submodule.mem_iSup_iff_exists_dfinsupp' _ u).1 hu
  set s := f.support with hs
  have hsum : u = ∑ χ ∈ s, (f χ : E) := by
    rw [← hf]; rfl
  have heig : ∀ χ d, A d (f χ : E) = χ d • (f χ : E) := by
    intro χ d
    exact mem_eigenspace_iff.1 ((Submodule.mem_iInf _).1 (f χ).2 d)
  have hchi : ∀ χ ∈ s, ∀ d, χ d ≤ 0 := by
    intro χ hχ d
    have h := hneg d (f χ : E)
    rw [heig, real_inner_smul_left, real_inner_self_eq_norm_sq] at h
    have hne : (f χ : E) ≠ 0 := by
      intro hz
      exact (DFinsupp.mem_support_iff.1 hχ) (Subtype.ext hz)
    have : 0 < ‖(f χ : E)‖ ^ 2 := by positivity
    by_contra hcon
    push Not at hcon
    nlinarith
  set z : (Fin n → ℝ) → ℕ → ℝ := fun χ d => if h : d < n then dt * χ ⟨d, h⟩ else 0 with hz
  have hzd : ∀ χ (d : Fin n), z χ d = dt * χ d := by intro χ d; simp [hz]
  let c : (Fin n → ℝ) → ℕ → ℝ := fun χ k => Nat.rec (∑ d ∈ Finset.range n, z χ d) (fun d r => r / (1 - theta * z χ d)) k
  have hc0 : ∀ χ, c χ 0 = ∑ d ∈ Finset.range n, z χ d := fun χ => rfl
  have hc : ∀ χ d, c χ (d + 1) = c χ d / (1 - theta * z χ d) := fun χ d => rfl
  have hw' : ∀ k, k ≤ n → w k = ∑ χ ∈ s, c χ k • (f χ : E) := by
    intro k
    induction k with
    | zero =>
      intro _
      rw [h0, hsum]
      simp only [map_sum, heig]
      rw [Finset.sum_comm, Finset.smul_sum]
      refine Finset.sum_congr rfl (fun χ _ => ?_)
      rw [← Finset.sum_smul, smul_smul, hc0, Finset.sum_range, Finset.mul_sum]
      simp only [hzd]
    | succ k ih =>
      intro hk
      have hkn : k < n := by omega
      have h := hw ⟨k, hkn⟩
      refine implicit_unique (A ⟨k, hkn⟩) (hneg _) (theta * dt) (by positivity) _ _ ?_
      rw [h]
      show w k = _
      rw [ih (by omega), map_sum, Finset.smul_sum, ← Finset.sum_sub_distrib]
      refine Finset.sum_congr rfl (fun χ hχ => ?_)
      rw [map_smul, heig, smul_smul, smul_smul, ← sub_smul, hc]
      congr 1
      have h1 := hzd χ ⟨k, hkn⟩
      have h2 := hchi χ hχ ⟨k, hkn⟩
      have h3 : 0 < 1 - theta * z χ k := by
        simp only at h1
        rw [h1]
        have := mul_nonneg hdt (neg_nonneg.2 h2)
        nlinarith
      simp only at h1
      rw [h1] at h3 ⊢
      generalize χ ⟨k, hkn⟩ = y at *
      have h4 := ne_of_gt h3
      rw [show c χ k / (1 - theta * (dt * y)) - theta * dt * (c χ k / (1 - theta * (dt * y))) * y =
        c χ k / (1 - theta * (dt * y)) * (1 - theta * (dt * y)) by ring, div_mul_cancel₀ _ h4]
  have hfam := LinearMap.IsSymmetric.orthogonalFamily_iInf_eigenspaces (T := A) hsym
  have n1 : ‖u‖ ^ 2 = ∑ χ ∈ s, ‖f χ‖ ^ 2 := by
    rw [hsum]
    exact hfam.norm_sum (fun χ => f χ) s
  have n2 : ‖u + w n‖ ^ 2 = ∑ χ ∈ s, ‖(1 + c χ n) • f χ‖ ^ 2 := by
    rw [← hfam.norm_sum (fun χ => (1 + c χ n) • f χ) s, hw' n le_rfl]
    congr 2
    conv_lhs => rw [hsum]
    rw [← Finset.sum_add_distrib]
    refine Finset.sum_congr rfl (fun χ _ => ?_)
    simp [add_smul]
  have hle : ‖u + w n‖ ^ 2 ≤ ‖u‖ ^ 2 := by
    rw [n1, n2]
    refine Finset.sum_le_sum (fun χ hχ => ?_)
    rw [norm_smul, mul_pow]
    have hg : |1 + c χ n| ≤ 1 := by
      refine growth_le n (z χ) (c χ) theta hth (fun d hd => ?_) (hc0 χ) (fun d _ => hc χ d)
      have h1 := hzd χ ⟨d, hd⟩
      simp only at h1
      rw [h1]
      have := mul_nonneg hdt (neg_nonneg.2 (hchi χ hχ ⟨d, hd⟩))
      linarith
    rw [Real.norm_eq_abs]
    have : |1 + c χ n| ^ 2 ≤ 1 := by
      have := abs_nonneg (1 + c χ n)
      nlinarith
    nlinarith [sq_nonneg ‖f χ‖]
  exact le_of_sq_le_sq hle (norm_nonneg _)

/-- A step with residuals in the stages. -/
theorem splitting_residual_le [FiniteDimensional ℝ E] (n : ℕ) (A : Fin n → E →ₗ[ℝ] E) (hsym : ∀ d, (A d).IsSymmetric)
    (hcomm : ∀ d e, d ≠ e → A d ∘ₗ A e = A e ∘ₗ A d) (hneg : ∀ d x, ⟪A d x, x⟫_ℝ ≤ 0) (theta dt : ℝ) (hth : 1 / 2 ≤ theta) (hdt : 0 ≤ dt) (u : E)
    (y r : ℕ → E) (h0 : y 0 = u + dt • ∑ d, A d u + r 0)
    (hy : ∀ d : Fin n, y (d + 1) = y d + (theta * dt) • (A d (y (d + 1)) - A d u) + r (d + 1)) : ‖y n‖ ≤ ‖u‖ + ∑ k ∈ Finset.range (n + 1), ‖r k‖ := by
  have hs : 0 ≤ theta * dt := by positivity
  have hex : ∃ w : ℕ → E, w 0 = dt • ∑ d, A d u ∧ ∀ d : Fin n, w (d + 1) - (theta * dt) • A d (w (d + 1)) = w d := by
    have hch : ∀ (d : ℕ) (x : E), ∃ x', ∀ h : d < n, x' - (theta * dt) • A ⟨d, h⟩ x' = x := by
      intro d x
      by_cases h : d < n
      · obtain ⟨x', hx'⟩ := implicit_exists (A ⟨d, h⟩) (hneg _) (theta * dt) hs x
        exact ⟨x', fun _ => hx'⟩
      · exact ⟨x, fun h' => absurd h' h⟩
    choose F hF using hch
    exact ⟨fun k => Nat.rec (dt • ∑ d, A d u) (fun d x => F d x) k, rfl, fun d => hF d _ d.2⟩
  obtain ⟨w, hw0, hw⟩ := hex
  have hlin := splitting_le n A hsym hcomm hneg theta dt hth hdt u w hw0 hw
  have hd : ∀ k, k ≤ n → ‖y k - (u + w k)‖ ≤ ∑ j ∈ Finset.range (k + 1), ‖r j‖ := by
    intro k
    induction k with
    | zero => intro _; rw [h0, hw0]; simp
    | succ k ih =>
      intro hk
      have hkn : k < n := by omega
      have h1 := hy ⟨k, hkn⟩
      have h2 := hw ⟨k, hkn⟩
      simp only at h1 h2
      have h3 := implicit_le (A ⟨k, hkn⟩) (hneg _) (theta * dt) hs (y (k + 1) - (u + w (k + 1))) (y k - (u + w k) + r (k + 1)) (by
        rw [← h2]
        nth_rewrite 1 [h1]
        rw [map_sub, map_add, smul_sub, smul_sub, smul_add]
        abel)
      rw [Finset.sum_range_succ]
      have := norm_add_le (y k - (u + w k)) (r (k + 1))
      linarith [ih (by omega)]
  have h4 := norm_add_le (y n - (u + w n)) (u + w n)
  rw [sub_add_cancel] at h4
  linarith [hd n le_rfl]

end Lemmas
