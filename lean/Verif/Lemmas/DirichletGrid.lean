import Verif.Lemmas.CommutingContraction
import Verif.Spec.Adi
import Mathlib.Analysis.InnerProductSpace.PiL2

/-! # Second differences of functions on a grid that vanish on the boundary -/

namespace Spec
open Model

/-- The points of a grid that are not on its boundary. -/
def innerPoints {n : ℕ} (size : Fin n → ℕ) : Finset (GridIndex n) := Fintype.piFinset fun d => Finset.Ico 1 (size d - 1)

end Spec

namespace Lemmas
open Model Spec
open scoped InnerProductSpace

variable {n : ℕ} {size : Fin n → ℕ}

theorem mem_innerPoints (p : GridIndex n) : p ∈ innerPoints size ↔ ∀ d, 1 ≤ p d ∧ p d + 1 < size d := by
  unfold innerPoints
  rw [Fintype.mem_piFinset]
  refine forall_congr' (fun d => ?_)
  rw [Finset.mem_Ico]
  omega

/-- The sum of a function at the upper neighbours. -/
theorem sum_up (d : Fin n) (H : GridIndex n → ℝ) (h0 : ∀ q, q ∉ innerPoints size → H q = 0)
    (h1 : ∀ q ∈ innerPoints size, Function.update q d (q d - 1) ∉ innerPoints size → H q = 0) :
    ∑ p ∈ innerPoints size, H (Function.update p d (p d + 1)) = ∑ q ∈ innerPoints size, H q := by
  refine Finset.sum_bij_ne_zero (fun p _ _ => Function.update p d (p d + 1)) ?_ ?_ ?_ ?_
  · intro p _ hne
    by_contra hc
    exact hne (h0 _ hc)
  · intro p _ _ q _ _ h
    funext e
    have he := congrFun h e
    by_cases hed : e = d
    · subst hed; simpa using he
    · simpa [Function.update_of_ne hed] using he
  · intro q hq hne
    have hm : Function.update q d (q d - 1) ∈ innerPoints size := by
      by_contra hc
      exact hne (h1 q hq hc)
    have hqd := ((mem_innerPoints q).1 hq d).1
    have he : Function.update (Function.update q d (q d - 1)) d (Function.update q d (q d - 1) d + 1) = q := by
      rw [Function.update_self, Function.update_idem, Nat.sub_add_cancel hqd, Function.update_eq_self]
    exact ⟨_, hm, by rw [he]; exact hne, he⟩
  · intro p _ _; rfl

theorem up_down (p : GridIndex n) (d : Fin n) :
    Function.update (Function.update p d (p d + 1)) d (Function.update p d (p d + 1) d - 1) = p := by
  rw [Function.update_self, Function.update_idem, Nat.add_sub_cancel, Function.update_eq_self]

/-- Neighbours in one dimension under a sum of products. -/
theorem sum_up_mul (d : Fin n) (f k : GridIndex n → ℝ) (hf : ∀ q, q ∉ innerPoints size → f q = 0) (hk : ∀ q, q ∉ innerPoints size → k q = 0) :
    ∑ p ∈ innerPoints size, f (Function.update p d (p d + 1)) * k p = ∑ p ∈ innerPoints size, f p * k (Function.update p d (p d - 1)) := by
  have h := sum_up (size := size) d (fun q => f q * k (Function.update q d (q d - 1))) (fun q hq => by simp [hf q hq]) (fun q _ hq => by simp [hk _ hq])
  rw [← h]
  refine Finset.sum_congr rfl (fun p _ => ?_)
  rw [up_down]

theorem sum_up_sq_le (d : Fin n) (f : GridIndex n → ℝ) (hf : ∀ q, q ∉ innerPoints size → f q = 0) :
    ∑ p ∈ innerPoints size, f (Function.update p d (p d + 1)) ^ 2 ≤ ∑ p ∈ innerPoints size, f p ^ 2 := by
  classical
  have h := sum_up (size := size) d (fun q => if Function.update q d (q d - 1) ∈ innerPoints size then f q ^ 2 else 0)
    (fun q hq => by simp [hf q hq]) (fun q _ hq => by rw [if_neg hq])
  have e : ∑ p ∈ innerPoints size, f (Function.update p d (p d + 1)) ^ 2 =
      ∑ q ∈ innerPoints size, if Function.update q d (q d - 1) ∈ innerPoints size then f q ^ 2 else 0 := by
    rw [← h]
    refine Finset.sum_congr rfl (fun p hp => ?_)
    rw [up_down, if_pos hp]
  rw [e]
  refine Finset.sum_le_sum (fun q _ => ?_)
  split_ifs
  · exact le_rfl
  · positivity

/-- Summation by parts. -/
theorem second_symm (h : ℝ) (d : Fin n) (f k : GridIndex n → ℝ) (hf : ∀ q, q ∉ innerPoints size → f q = 0) (hk : ∀ q, q ∉ innerPoints size → k q = 0) :
    ∑ p ∈ innerPoints size, centralSecond h f d p * k p = ∑ p ∈ innerPoints size, f p * centralSecond h k d p := by
  have h1 := sum_up_mul d f k hf hk
  have h2 := sum_up_mul d k f hk hf
  have e1 : ∀ p, centralSecond h f d p * k p = (f (Function.update p d (p d + 1)) * k p - 2 * (f p * k p) + k p * f (Function.update p d (p d - 1))) / h ^ 2 := by
    intro p; unfold centralSecond; ring
  have e2 : ∀ p, f p * centralSecond h k d p = (k (Function.update p d (p d + 1)) * f p - 2 * (f p * k p) + f p * k (Function.update p d (p d - 1))) / h ^ 2 := by
    intro p; unfold centralSecond; ring
  simp only [e1, e2, ← Finset.sum_div, Finset.sum_add_distrib, Finset.sum_sub_distrib]
  rw [h1, h2]
  ring

theorem second_nonpos (h : ℝ) (d : Fin n) (f : GridIndex n → ℝ) (hf : ∀ q, q ∉ innerPoints size → f q = 0) :
    ∑ p ∈ innerPoints size, centralSecond h f d p * f p ≤ 0 := by
  have h1 := sum_up_mul d f f hf hf
  have h2 := sum_up_sq_le d f hf
  have e1 : ∀ p, centralSecond h f d p * f p = (f (Function.update p d (p d + 1)) * f p - 2 * (f p * f p) + f p * f (Function.update p d (p d - 1))) / h ^ 2 := by
    intro p; unfold centralSecond; ring
  simp only [e1, ← Finset.sum_div, Finset.sum_add_distrib, Finset.sum_sub_distrib]
  rw [← h1]
  refine div_nonpos_of_nonpos_of_nonneg ?_ (sq_nonneg h)
  have h3 : ∑ p ∈ innerPoints size, f (Function.update p d (p d + 1)) * f p ≤
      (∑ p ∈ innerPoints size, f (Function.update p d (p d + 1)) ^ 2 + ∑ p ∈ innerPoints size, f p ^ 2) / 2 := by
    rw [← Finset.sum_add_distrib, Finset.sum_div]
    refine Finset.sum_le_sum (fun p _ => ?_)
    nlinarith [sq_nonneg (f (Function.update p d (p d + 1)) - f p)]
  have h4 : ∑ p ∈ innerPoints size, 2 * (f p * f p) = 2 * ∑ p ∈ innerPoints size, f p ^ 2 := by
    rw [Finset.mul_sum]
    refine Finset.sum_congr rfl (fun p _ => by ring)
  linarith

/-- Second differences in different dimensions commute. -/
theorem second_comm (h h' : ℝ) (d e : Fin n) (hde : d ≠ e) (f : GridIndex n → ℝ) (p : GridIndex n) :
    centralSecond h (centralSecond h' f e) d p = centralSecond h' (centralSecond h f d) e p := by
  unfold centralSecond
  simp only [Function.update_of_ne hde, Function.update_of_ne hde.symm]
  rw [Function.update_comm hde, Function.update_comm hde, Function.update_comm hde, Function.update_comm hde]
  ring

/-- The values in the inner grid as a vector. -/
abbrev InnerSpaceOn (size : Fin n → ℕ) := EuclideanSpace ℝ {p : GridIndex n // p ∈ innerPoints size}

noncomputable def restrictInner (size : Fin n → ℕ) (f : GridIndex n → ℝ) : InnerSpaceOn size := WithLp.toLp 2 (fun p => f p.1)

open Classical in
/-- Extension by zero. -/
noncomputable def extendZero (x : InnerSpaceOn size) (p : GridIndex n) : ℝ := if h : p ∈ innerPoints size then x ⟨p, h⟩ else 0

theorem extendZero_in (x : InnerSpaceOn size) (p : {p : GridIndex n // p ∈ innerPoints size}) : extendZero x p.1 = x p := by
  unfold extendZero; rw [dif_pos p.2]

theorem extendZero_out (x : InnerSpaceOn size) (p : GridIndex n) (h : p ∉ innerPoints size) : extendZero x p = 0 := by
  unfold extendZero; rw [dif_neg h]

theorem extendZero_restrict (f : GridIndex n → ℝ) (hf : ∀ q, q ∉ innerPoints size → f q = 0) : extendZero (restrictInner size f) = f := by
  funext p
  by_cases h : p ∈ innerPoints size
  · exact extendZero_in (restrictInner size f) ⟨p, h⟩
  · rw [extendZero_out _ p h, hf p h]

theorem extendZero_add (x y : InnerSpaceOn size) : extendZero (x + y) = fun p => extendZero x p + extendZero y p := by
  funext p
  unfold extendZero
  split_ifs <;> simp

theorem extendZero_smul (s : ℝ) (x : InnerSpaceOn size) : extendZero (s • x) = fun p => s * extendZero x p := by
  funext p
  unfold extendZero
  split_ifs <;> simp

/-- The operator of a dimension. -/
noncomputable def innerSecondOp (size : Fin n → ℕ) (a h : ℝ) (d : Fin n) : InnerSpaceOn size →ₗ[ℝ] InnerSpaceOn size where
  toFun x := restrictInner size (fun p => a * centralSecond h (extendZero x) d p)
  map_add' x y := by
    ext p
    simp only [restrictInner, extendZero_add, centralSecond, PiLp.add_apply]
    ring
  map_smul' s x := by
    ext p
    simp only [restrictInner, extendZero_smul, centralSecond, PiLp.smul_apply, smul_eq_mul, RingHom.id_apply]
    ring

theorem innerSecondOp_apply (a h : ℝ) (d : Fin n) (x : InnerSpaceOn size) (p : {p : GridIndex n // p ∈ innerPoints size}) :
    innerSecondOp size a h d x p = a * centralSecond h (extendZero x) d p.1 := rfl

theorem inner_eq_sum (x y : InnerSpaceOn size) : ⟪x, y⟫_ℝ = ∑ p ∈ innerPoints size, extendZero x p * extendZero y p := by
  rw [PiLp.inner_apply, ← Finset.sum_coe_sort (innerPoints size)]
  refine Finset.sum_congr rfl (fun p _ => ?_)
  rw [extendZero_in, extendZero_in]
  simp [mul_comm]

theorem innerSecondOp_inner (a h : ℝ) (d : Fin n) (x y : InnerSpaceOn size) :
    ⟪innerSecondOp size a h d x, y⟫_ℝ = a * ∑ p ∈ innerPoints size, centralSecond h (extendZero x) d p * extendZero y p := by
  rw [inner_eq_sum, Finset.mul_sum]
  refine Finset.sum_congr rfl (fun p hp => ?_)
  rw [extendZero_in _ ⟨p, hp⟩, innerSecondOp_apply]
  ring

theorem innerSecondOp_symmetric (a h : ℝ) (d : Fin n) : (innerSecondOp size a h d).IsSymmetric := by
  intro x y
  rw [innerSecondOp_inner, real_inner_comm, innerSecondOp_inner, second_symm h d _ _ (extendZero_out x) (extendZero_out y)]
  congr 1
  exact Finset.sum_congr rfl (fun p _ => mul_comm _ _)

theorem innerSecondOp_nonpos (a h : ℝ) (ha : 0 ≤ a) (d : Fin n) (x : InnerSpaceOn size) : ⟪innerSecondOp size a h d x, x⟫_ℝ ≤ 0 := by
  rw [innerSecondOp_inner]
  exact mul_nonpos_of_nonneg_of_nonpos ha (second_nonpos h d _ (extendZero_out x))

/-- The extension by zero of a second difference, at the points that are inner in its dimension. -/
theorem extendZero_second (a h : ℝ) (d : Fin n) (x : InnerSpaceOn size) (q : GridIndex n) (hq : 1 ≤ q d ∧ q d + 1 < size d) :
    extendZero (innerSecondOp size a h d x) q = a * centralSecond h (extendZero x) d q := by
  by_cases hm : q ∈ innerPoints size
  · exact extendZero_in _ ⟨q, hm⟩
  · rw [extendZero_out _ _ hm]
    have hout : ∀ k, Function.update q d k ∉ innerPoints size := by
      intro k hk
      refine hm ((mem_innerPoints q).2 (fun e => ?_))
      by_cases hed : e = d
      · rw [hed]; exact hq
      · have := (mem_innerPoints _).1 hk e
        rwa [Function.update_of_ne hed] at this
    unfold centralSecond
    rw [extendZero_out _ _ (hout _), extendZero_out _ _ (hout _), extendZero_out _ _ hm]
    simp

theorem innerSecondOp_comm (a a' h h' : ℝ) (d e : Fin n) (hde : d ≠ e) :
    innerSecondOp size a h d ∘ₗ innerSecondOp size a' h' e = innerSecondOp size a' h' e ∘ₗ innerSecondOp size a h d := by
  ext x p
  simp only [LinearMap.comp_apply, innerSecondOp_apply]
  have key : ∀ (d e : Fin n) (hde : d ≠ e) (a a' h h' : ℝ), centralSecond h (extendZero (innerSecondOp size a' h' e x)) d p.1 =
      a' * centralSecond h (centralSecond h' (extendZero x) e) d p.1 := by
    intro d e hde a a' h h'
    have hp := (mem_innerPoints p.1).1 p.2 e
    unfold centralSecond
    rw [extendZero_second _ _ _ _ _ (by rwa [Function.update_of_ne hde.symm]), extendZero_second _ _ _ _ _ hp,
      extendZero_second _ _ _ _ _ (by rwa [Function.update_of_ne hde.symm])]
    unfold centralSecond
    ring
  rw [key d e hde a a' h h', key e d hde.symm a' a h' h, second_comm h h' d e hde]
  ring

end Lemmas
