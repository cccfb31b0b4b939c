import Verif.Model.ConjugateGradient
import Mathlib.LinearAlgebra.Dimension.Finrank
import Mathlib.LinearAlgebra.Dimension.StrongRankCondition
import Mathlib.LinearAlgebra.Dimension.Constructions
import Mathlib.LinearAlgebra.LinearIndependent.Basic
import Mathlib.LinearAlgebra.Matrix.DotProduct
import Mathlib.LinearAlgebra.Matrix.Symmetric
import Mathlib.LinearAlgebra.FiniteDimensional.Basic
import Mathlib.Tactic.LinearCombination
import Mathlib.Tactic.FieldSimp
import Mathlib.Tactic.Linarith

/-!
# C87 The conjugate gradient method descends, tells the truth and solves quadratic problems in finitely many steps
-/

namespace Lemmas
open Model

variable {n : Nat}

/-- What is assumed about the line search: it returns a point of the line, and it does nothing if told so. -/
structure SearchContract (search : LineSearch n) : Prop where
  onLine : ∀ func zero skip init, zero = func 0 → init = func init.x → (∀ t, (func t).x = t) →
    (search func zero skip init).left = func (search func zero skip init).left.x
  skipped : ∀ func zero init, (search func zero true init).converged = true ∧ (search func zero true init).failed = false

theorem dot_self_nonneg (x : Fin n → ℝ) : 0 ≤ dotProduct x x := Finset.sum_nonneg (fun i _ => mul_self_nonneg (x i))

theorem dot_self_eq_zero (x : Fin n → ℝ) : dotProduct x x = 0 ↔ x = 0 := dotProduct_self_eq_zero

theorem dot_self_pos (x : Fin n → ℝ) (h : x ≠ 0) : 0 < dotProduct x x :=
  lt_of_le_of_ne (dot_self_nonneg x) (fun h' => h ((dot_self_eq_zero x).1 h'.symm))

/-- The direction descends. -/
theorem cgNextDirection_descent (eta : ℝ) (heta : 0 ≤ eta) (d g g' : Fin n → ℝ) (hd : dotProduct d g ≤ 0) :
    dotProduct g' (cgNextDirection eta d g g') ≤ -(3 / 4) * dotProduct g' g' := by
  unfold cgNextDirection
  simp only
  set y := g' - g with hy
  set dy := dotProduct d y with hdy
  set b := (dotProduct y g' - dotProduct y y * dotProduct g' d / dy) / dy with hb
  set e := eta * dotProduct d g / dotProduct d d with he
  have he0 : e ≤ 0 := div_nonpos_of_nonpos_of_nonneg (mul_nonpos_of_nonneg_of_nonpos heta hd) (dot_self_nonneg d)
  rw [dotProduct_add, dotProduct_neg, dotProduct_smul, smul_eq_mul]
  set P := dotProduct g' d with hP
  have hgg := dot_self_nonneg g'
  have hbP : b * P ≤ dotProduct g' g' / 4 := by
    by_cases h0 : dy = 0
    · rw [hb, h0, div_zero, zero_mul]
      linarith
    · have hs := dot_self_nonneg ((P / dy) • y - (1 / 2 : ℝ) • g')
      rw [sub_dotProduct, dotProduct_sub, dotProduct_sub, smul_dotProduct, smul_dotProduct, smul_dotProduct, smul_dotProduct,
        dotProduct_smul, dotProduct_smul, dotProduct_smul, dotProduct_smul, dotProduct_comm g' y] at hs
      simp only [smul_eq_mul] at hs
      have : b * P = P / dy * dotProduct y g' - P / dy * (P / dy * dotProduct y y) := by
        rw [hb]
        field_simp
      rw [this]
      linarith
  have : max b e * P ≤ dotProduct g' g' / 4 := by
    rcases le_total e b with h | h
    · rw [max_eq_left h]
      exact hbP
    · rw [max_eq_right h]
      rcases le_or_gt 0 P with hP0 | hP0
      · have := mul_nonpos_of_nonpos_of_nonneg he0 hP0
        linarith
      · have := mul_le_mul_of_nonpos_right h hP0.le
        linarith
  linarith

theorem third_on_line (psi1 psi2 : ℝ) (q a t : Bool) (m : StepInput n) (hm : ∀ x, (m.func x).x = x) :
    (thirdGuess psi1 psi2 q a t m).step = m.func (thirdGuess psi1 psi2 q a t m).step.x := by
  unfold thirdGuess secondGuess firstGuess
  simp only
  split_ifs <;> simp [hm]

/-- A member that a run can reach from a start. -/
inductive CgReach (a : CgArgs n) (objective : CgObjective n) (x : Fin n → ℝ) : CgMember n → Prop
  | start : CgReach a objective x (cgInitial a objective x)
  | step (s : CgMember n) (g : StepGuess n) (h : CgReach a objective x s)
      (hg : g.step = lineFunction objective s.position s.direction g.step.x) : CgReach a objective x (cgMemberStep a objective s g)

theorem body_reach (a : CgArgs n) (ms : List (CgObjective n × CgMember n)) (P : CgObjective n → CgMember n → Prop)
    (h : ∀ m ∈ ms, P m.1 m.2)
    (hstep : ∀ o s g, P o s → g.step = lineFunction o s.position s.direction g.step.x → P o (cgMemberStep a o s g)) :
    ∀ m ∈ cgBody a ms, P m.1 m.2 := by
  intro m hm
  unfold cgBody cgInitStep at hm
  simp only at hm
  generalize ((ms.map cgStepInput).any (quadSuccess a.params.psi1 a.params.quadStep)) = A at hm
  generalize ((ms.map cgStepInput).all _) = T at hm
  rw [List.map_map, List.zipWith_map_right, List.zipWith_self, List.mem_map] at hm
  obtain ⟨m0, hm0, rfl⟩ := hm
  simp only
  apply hstep _ _ _ (h m0 hm0)
  exact third_on_line _ _ _ _ _ _ (fun _ => rfl)

theorem loop_reach (a : CgArgs n) (P : CgObjective n → CgMember n → Prop)
    (hstep : ∀ o s g, P o s → g.step = lineFunction o s.position s.direction g.step.x → P o (cgMemberStep a o s g)) (fuel : Nat)
    (s : Nat × List (CgObjective n × CgMember n)) (h : ∀ m ∈ s.2, P m.1 m.2) : ∀ m ∈ (cgLoop a fuel s).2, P m.1 m.2 := by
  induction fuel generalizing s with
  | zero => exact h
  | succ fuel ih =>
    rw [cgLoop]
    split
    · exact h
    · exact ih _ (body_reach a _ P h hstep)

theorem body_length (a : CgArgs n) (ms : List (CgObjective n × CgMember n)) : (cgBody a ms).length = ms.length := by
  simp [cgBody, cgInitStep]

/-- The value and the gradient are those of the position. -/
def CgConsistent (objective : CgObjective n) (s : CgMember n) : Prop :=
  s.value = (objective s.position).1 ∧ s.gradient = (objective s.position).2

theorem step_consistent (a : CgArgs n) (hs : SearchContract a.search) (o : CgObjective n) (s : CgMember n) (g : StepGuess n)
    (h : CgConsistent o s) (hg : g.step = lineFunction o s.position s.direction g.step.x) :
    CgConsistent o (cgMemberStep a o s g) := by
  unfold cgMemberStep
  simp only
  set skip := (g.mayTerminate && wolfe a.params (cgStepInput (o, s)).pos g.step) || s.failed || s.converged
  have hz : (cgStepInput (o, s)).pos = (cgStepInput (o, s)).func 0 := by
    simp only [cgStepInput, lineFunction, zero_smul, add_zero]
    rw [← h.1, ← h.2]
  have hl := hs.onLine (cgStepInput (o, s)).func (cgStepInput (o, s)).pos skip g.step hz hg (fun _ => rfl)
  generalize a.search (cgStepInput (o, s)).func (cgStepInput (o, s)).pos skip g.step = r at hl ⊢
  unfold CgConsistent
  simp only
  by_cases hc : s.converged = true
  · simp only [hc, if_true]
    exact h
  · simp only [hc, Bool.false_eq_true, if_false]
    by_cases hk : skip = true
    · simp only [hk, if_true]
      generalize g.step = p at hg ⊢
      rw [hg]
      exact ⟨rfl, rfl⟩
    · simp only [hk, Bool.false_eq_true, if_false]
      generalize r.left = p at hl ⊢
      rw [hl]
      exact ⟨rfl, rfl⟩

/-- Why a run stopped at a member: a small gradient, or a small last step. -/
def CgStopped (a : CgArgs n) (o : CgObjective n) (x : Fin n → ℝ) (s : CgMember n) : Prop :=
  normInfLe (o s.position).2 a.tolerance ∨ ∃ p, CgReach a o x p ∧ p.converged = false ∧
    (normInfLe (s.position - p.position) a.xTolerance ∨
      |(o s.position).1 - (o p.position).1| ≤ a.fTolerance * |(o p.position).1|)

theorem abs_le_norm (g : Fin n → ℝ) (i : Fin n) : |g i| ≤ Real.sqrt (dotProduct g g) := by
  apply Real.le_sqrt_of_sq_le
  rw [sq_abs, sq]
  exact Finset.single_le_sum (f := fun i => g i * g i) (fun j _ => mul_self_nonneg (g j)) (Finset.mem_univ i)

/-- A quadratic objective with its gradient. -/
noncomputable def quadratic (A : Matrix (Fin n) (Fin n) ℝ) (b : Fin n → ℝ) : CgObjective n :=
  fun x => (dotProduct x (A.mulVec x) / 2 - dotProduct b x, A.mulVec x - b)

/-- The textbook method: gradients and directions. -/
noncomputable def cgSequence (A : Matrix (Fin n) (Fin n) ℝ) (g : Fin n → ℝ) : Nat → (Fin n → ℝ) × (Fin n → ℝ)
  | 0 => (g, -g)
  | k + 1 =>
    let s := cgSequence A g k
    let g' := s.1 + (dotProduct s.1 s.1 / dotProduct s.2 (A.mulVec s.2)) • A.mulVec s.2
    (g', -g' + (dotProduct g' g' / dotProduct s.1 s.1) • s.2)

/-- Length of the step `k`. -/
noncomputable def cgAlpha (A : Matrix (Fin n) (Fin n) ℝ) (g : Fin n → ℝ) (k : Nat) : ℝ :=
  dotProduct (cgSequence A g k).1 (cgSequence A g k).1 / dotProduct (cgSequence A g k).2 (A.mulVec (cgSequence A g k).2)

theorem symm_dot (A : Matrix (Fin n) (Fin n) ℝ) (hA : A.IsSymm) (x y : Fin n → ℝ) :
    dotProduct x (A.mulVec y) = dotProduct y (A.mulVec x) := by
  rw [Matrix.dotProduct_mulVec, ← Matrix.mulVec_transpose, hA.eq, dotProduct_comm]

theorem sequence_gradient (A : Matrix (Fin n) (Fin n) ℝ) (g : Fin n → ℝ) (k : Nat) :
    (cgSequence A g (k + 1)).1 = (cgSequence A g k).1 + cgAlpha A g k • A.mulVec (cgSequence A g k).2 := rfl

theorem sequence_direction (A : Matrix (Fin n) (Fin n) ℝ) (g : Fin n → ℝ) (k : Nat) :
    (cgSequence A g (k + 1)).2 = -(cgSequence A g (k + 1)).1 +
      (dotProduct (cgSequence A g (k + 1)).1 (cgSequence A g (k + 1)).1 / dotProduct (cgSequence A g k).1 (cgSequence A g k).1) •
        (cgSequence A g k).2 := rfl

/-- Gradients are orthogonal and directions conjugate. -/
def CgOrthogonal (A : Matrix (Fin n) (Fin n) ℝ) (g : Fin n → ℝ) (k : Nat) : Prop :=
  dotProduct (cgSequence A g k).1 (cgSequence A g k).2 = -dotProduct (cgSequence A g k).1 (cgSequence A g k).1 ∧
    ∀ i < k, dotProduct (cgSequence A g k).1 (cgSequence A g i).2 = 0 ∧
      dotProduct (cgSequence A g k).2 (A.mulVec (cgSequence A g i).2) = 0 ∧
      dotProduct (cgSequence A g k).1 (cgSequence A g i).1 = 0

theorem direction_ne (A : Matrix (Fin n) (Fin n) ℝ) (g : Fin n → ℝ) (k : Nat) (h : CgOrthogonal A g k)
    (hg : (cgSequence A g k).1 ≠ 0) : (cgSequence A g k).2 ≠ 0 := by
  intro h0
  have := h.1
  rw [h0, dotProduct_zero] at this
  have := dot_self_pos _ hg
  linarith

theorem sequence_orthogonal (A : Matrix (Fin n) (Fin n) ℝ) (hA : A.IsSymm) (hpos : ∀ v, v ≠ 0 → 0 < dotProduct v (A.mulVec v))
    (g : Fin n → ℝ) (k : Nat) (h : ∀ j < k, (cgSequence A g j).1 ≠ 0) : CgOrthogonal A g k := by
  induction k using Nat.strong_induction_on with
  | _ k ih =>
    cases k with
    | zero =>
      refine ⟨?_, fun i hi => absurd hi (Nat.not_lt_zero i)⟩
      simp [cgSequence]
    | succ k =>
      have hk : CgOrthogonal A g k := ih k (Nat.lt_succ_self k) (fun j hj => h j (by omega))
      have hgk := h k (Nat.lt_succ_self k)
      have hgg := dot_self_pos _ hgk
      have hda : ∀ i ≤ k, 0 < dotProduct (cgSequence A g i).2 (A.mulVec (cgSequence A g i).2) := by
        intro i hi
        exact hpos _ (direction_ne A g i (ih i (by omega) (fun j hj => h j (by omega))) (h i (by omega)))
      have hal : ∀ i ≤ k, 0 < cgAlpha A g i := by
        intro i hi
        exact div_pos (dot_self_pos _ (h i (by omega))) (hda i hi)
      -- the new gradient is orthogonal to the directions
      have h1 : ∀ i ≤ k, dotProduct (cgSequence A g (k + 1)).1 (cgSequence A g i).2 = 0 := by
        intro i hi
        rw [sequence_gradient, add_dotProduct, smul_dotProduct, smul_eq_mul, dotProduct_comm (A.mulVec _)]
        rcases Nat.lt_or_ge i k with hik | hik
        · rw [(hk.2 i hik).1, symm_dot A hA, (hk.2 i hik).2.1]
          ring
        · have : i = k := by omega
          subst this
          rw [hk.1]
          unfold cgAlpha
          rw [div_mul_cancel₀ _ (hda i hi).ne']
          ring
      -- and to the gradients
      have h2 : ∀ i ≤ k, dotProduct (cgSequence A g (k + 1)).1 (cgSequence A g i).1 = 0 := by
        intro i hi
        cases i with
        | zero =>
          have := h1 0 hi
          simp only [cgSequence, dotProduct_neg] at this ⊢
          linarith
        | succ i =>
          have e1 := h1 (i + 1) hi
          rw [sequence_direction A g i, dotProduct_add, dotProduct_neg, dotProduct_smul, h1 i (by omega)] at e1
          simpa using e1
      have hy : ∀ i ≤ k, A.mulVec (cgSequence A g i).2 = (cgAlpha A g i)⁻¹ • ((cgSequence A g (i + 1)).1 - (cgSequence A g i).1) := by
        intro i hi
        rw [sequence_gradient, add_sub_cancel_left, smul_smul, inv_mul_cancel₀ (hal i hi).ne', one_smul]
      have h3 : dotProduct (cgSequence A g (k + 1)).1 (cgSequence A g (k + 1)).2 =
          -dotProduct (cgSequence A g (k + 1)).1 (cgSequence A g (k + 1)).1 := by
        rw [sequence_direction, dotProduct_add, dotProduct_neg, dotProduct_smul, h1 k le_rfl]
        simp
      refine ⟨h3, ?_⟩
      intro i hi
      refine ⟨h1 i (by omega), ?_, h2 i (by omega)⟩
      have hik : i ≤ k := by omega
      rcases Nat.lt_or_ge i k with hlt | hge
      · rw [sequence_direction, add_dotProduct, neg_dotProduct, smul_dotProduct, (hk.2 i hlt).2.1, hy i hik, dotProduct_smul,
          dotProduct_sub, h2 (i + 1) (by omega), h2 i hik]
        simp
      · have : i = k := by omega
        subst this
        rw [hy i hik, dotProduct_smul, dotProduct_sub, dotProduct_comm, h3, sequence_direction, add_dotProduct, neg_dotProduct,
          smul_dotProduct, h2 i le_rfl, dotProduct_comm (cgSequence A g i).2, hk.1, smul_eq_mul, smul_eq_mul]
        field_simp
        ring

/-- There are no more than `n` gradients that are not zero. -/
theorem sequence_finite (A : Matrix (Fin n) (Fin n) ℝ) (hA : A.IsSymm) (hpos : ∀ v, v ≠ 0 → 0 < dotProduct v (A.mulVec v))
    (g : Fin n → ℝ) (k : Nat) (h : ∀ j < k, (cgSequence A g j).1 ≠ 0) : k ≤ n := by
  have horth : ∀ i j : Fin k, i ≠ j → dotProduct (cgSequence A g i).1 (cgSequence A g j).1 = 0 := by
    intro i j hij
    rcases lt_or_gt_of_ne hij with hlt | hgt
    · rw [dotProduct_comm]
      exact ((sequence_orthogonal A hA hpos g j (fun l hl => h l (by omega))).2 i hlt).2.2
    · exact ((sequence_orthogonal A hA hpos g i (fun l hl => h l (by omega))).2 j hgt).2.2
  have hli : LinearIndependent ℝ (fun i : Fin k => (cgSequence A g i).1) := by
    rw [Fintype.linearIndependent_iff]
    intro c hc j
    have h1 : dotProduct (∑ i, c i • (cgSequence A g i).1) (cgSequence A g j).1 = 0 := by rw [hc, zero_dotProduct]
    rw [sum_dotProduct, Finset.sum_eq_single j] at h1
    · rw [smul_dotProduct, smul_eq_mul] at h1
      rcases mul_eq_zero.1 h1 with h2 | h2
      · exact h2
      · exact absurd ((dot_self_eq_zero _).1 h2) (h j j.2)
    · intro i _ hij
      rw [smul_dotProduct, horth i j hij, smul_zero]
    · intro hj
      exact absurd (Finset.mem_univ j) hj
  have := hli.fintype_card_le_finrank
  simpa using this

/-- The direction given by the code is that of the textbook if the steps are exact. -/
theorem cgNextDirection_exact (eta : ℝ) (heta : 0 ≤ eta) (d g g' : Fin n → ℝ) (hg : 0 < dotProduct g g)
    (h1 : dotProduct g' d = 0) (h2 : dotProduct g' g = 0) (h3 : dotProduct g d = -dotProduct g g) :
    cgNextDirection eta d g g' = -g' + (dotProduct g' g' / dotProduct g g) • d := by
  unfold cgNextDirection
  simp only
  have e1 : dotProduct d (g' - g) = dotProduct g g := by
    rw [dotProduct_sub, dotProduct_comm d g', h1, dotProduct_comm d g, h3]
    ring
  have e2 : dotProduct (g' - g) g' = dotProduct g' g' := by
    rw [sub_dotProduct, dotProduct_comm g g', h2, sub_zero]
  have e3 : eta * dotProduct d g / dotProduct d d ≤ 0 := by
    rw [dotProduct_comm d g, h3]
    exact div_nonpos_of_nonpos_of_nonneg (mul_nonpos_of_nonneg_of_nonpos heta (by linarith)) (dot_self_nonneg d)
  rw [e1, e2, h1, mul_zero, zero_div, sub_zero, max_eq_left (e3.trans (div_nonneg (dot_self_nonneg g') hg.le))]

/-- Bounds of the steps. -/
theorem alpha_bounds (A : Matrix (Fin n) (Fin n) ℝ) (hA : A.IsSymm) (lo hi : ℝ) (hlo : 0 < lo)
    (hb : ∀ v, lo * dotProduct v v ≤ dotProduct v (A.mulVec v) ∧ dotProduct v (A.mulVec v) ≤ hi * dotProduct v v)
    (g : Fin n → ℝ) (k : Nat) (h : ∀ j ≤ k, (cgSequence A g j).1 ≠ 0) :
    1 ≤ hi * cgAlpha A g k ∧ lo * cgAlpha A g k ≤ 1 := by
  have hpos : ∀ v, v ≠ 0 → 0 < dotProduct v (A.mulVec v) := by
    intro v hv
    have := dot_self_pos v hv
    have := (hb v).1
    nlinarith
  have ho := sequence_orthogonal A hA hpos g k (fun j hj => h j (by omega))
  have hd := hpos _ (direction_ne A g k ho (h k le_rfl))
  have hg := dot_self_pos _ (h k le_rfl)
  have key : dotProduct (cgSequence A g k).2 (A.mulVec (cgSequence A g k).2) ≤
        dotProduct (cgSequence A g k).1 (A.mulVec (cgSequence A g k).1) ∧
      dotProduct (cgSequence A g k).1 (cgSequence A g k).1 ≤ dotProduct (cgSequence A g k).2 (cgSequence A g k).2 := by
    cases k with
    | zero => simp [cgSequence, Matrix.mulVec_neg]
    | succ k =>
      obtain ⟨o1, o2, o3⟩ := ho.2 k (Nat.lt_succ_self k)
      set c := dotProduct (cgSequence A g (k + 1)).1 (cgSequence A g (k + 1)).1 / dotProduct (cgSequence A g k).1 (cgSequence A g k).1
        with hc
      have e : (cgSequence A g (k + 1)).2 = -(cgSequence A g (k + 1)).1 + c • (cgSequence A g k).2 := rfl
      have e' : (cgSequence A g (k + 1)).1 = -(cgSequence A g (k + 1)).2 + c • (cgSequence A g k).2 := by
        rw [e]
        simp
      have hp : 0 ≤ dotProduct (cgSequence A g k).2 (A.mulVec (cgSequence A g k).2) :=
        (mul_nonneg hlo.le (dot_self_nonneg _)).trans (hb _).1
      constructor
      · generalize (cgSequence A g (k + 1)).2 = d at *
        rw [e']
        simp only [Matrix.mulVec_add, Matrix.mulVec_neg, Matrix.mulVec_smul, dotProduct_add, add_dotProduct, dotProduct_neg,
          neg_dotProduct, dotProduct_smul, smul_dotProduct, smul_eq_mul]
        rw [symm_dot A hA (cgSequence A g k).2 d, o2]
        nlinarith [mul_nonneg (sq_nonneg c) hp]
      · generalize (cgSequence A g (k + 1)).1 = q at *
        rw [e]
        simp only [dotProduct_add, add_dotProduct, dotProduct_neg, neg_dotProduct, dotProduct_smul, smul_dotProduct, smul_eq_mul]
        rw [dotProduct_comm (cgSequence A g k).2 q, o1]
        nlinarith [mul_nonneg (sq_nonneg c) (dot_self_nonneg (cgSequence A g k).2)]
  unfold cgAlpha
  rw [← mul_div_assoc, ← mul_div_assoc, le_div_iff₀ hd, div_le_iff₀ hd]
  have h1 := (hb (cgSequence A g k).1).2
  have h2 := (hb (cgSequence A g k).2).1
  constructor
  · linarith [key.1]
  · nlinarith [key.2]

theorem quadratic_line (A : Matrix (Fin n) (Fin n) ℝ) (hA : A.IsSymm) (b x d : Fin n → ℝ) (t : ℝ) :
    (quadratic A b (x + t • d)).1 =
        (quadratic A b x).1 + t * dotProduct (quadratic A b x).2 d + t ^ 2 / 2 * dotProduct d (A.mulVec d) ∧
      (quadratic A b (x + t • d)).2 = (quadratic A b x).2 + t • A.mulVec d := by
  unfold quadratic
  simp only [Matrix.mulVec_add, Matrix.mulVec_smul, dotProduct_add, add_dotProduct, dotProduct_smul, smul_dotProduct, smul_eq_mul,
    sub_dotProduct]
  constructor
  · rw [symm_dot A hA d x, dotProduct_comm (A.mulVec x) d, symm_dot A hA d x]
    ring
  · abel

/-- One iteration on a quadratic objective, if the first trial step does not overshoot: the step is exact, whatever the line search. -/
theorem quadratic_step (A : Matrix (Fin n) (Fin n) ℝ) (hA : A.IsSymm) (b : Fin n → ℝ) (a : CgArgs n) (hs : SearchContract a.search)
    (hq : a.params.quadStep = true) (hp1 : 0 < a.params.psi1) (hdelta : a.params.delta ≤ 1 / 2) (hsigma : 0 ≤ a.params.sigma)
    (s : CgMember n) (hc : CgConsistent (quadratic A b) s) (hconv : s.converged = false) (hfail : s.failed = false)
    (hgd : dotProduct s.gradient s.direction = -dotProduct s.gradient s.gradient) (hg : s.gradient ≠ 0)
    (hdd : 0 < dotProduct s.direction (A.mulVec s.direction)) (hprev : 0 < s.prevStep) (alpha : ℝ)
    (hal : alpha = dotProduct s.gradient s.gradient / dotProduct s.direction (A.mulVec s.direction))
    (hover : a.params.psi1 * s.prevStep ≤ 2 * alpha) :
    ∃ c, cgBody a [(quadratic A b, s)] = [(quadratic A b, ⟨c, false, s.position + alpha • s.direction,
        (quadratic A b (s.position + alpha • s.direction)).1, s.gradient + alpha • A.mulVec s.direction,
        cgNextDirection a.params.eta s.direction s.gradient (s.gradient + alpha • A.mulVec s.direction), alpha⟩)] ∧
      (c = true ↔ normInfLe (s.gradient + alpha • A.mulVec s.direction) a.tolerance ∨ normInfLe (alpha • s.direction) a.xTolerance ∨
        |-(alpha / 2) * dotProduct s.gradient s.gradient| ≤ a.fTolerance * |s.value|) := by
  set o := quadratic A b with ho
  set D := dotProduct s.direction (A.mulVec s.direction) with hD
  set G := dotProduct s.gradient s.gradient with hG
  have hGp : 0 < G := dot_self_pos _ hg
  have halp : 0 < alpha := by rw [hal]; exact div_pos hGp hdd
  have haD : alpha * D = G := by rw [hal]; exact div_mul_cancel₀ _ hdd.ne'
  have hline : ∀ t, (o (s.position + t • s.direction)).1 = s.value - t * G + t ^ 2 / 2 * D ∧
      (o (s.position + t • s.direction)).2 = s.gradient + t • A.mulVec s.direction := by
    intro t
    have := quadratic_line A hA b s.position s.direction t
    rw [← ho, ← hc.1, ← hc.2, hgd] at this
    refine ⟨?_, this.2⟩
    rw [this.1]
    ring
  set T := a.params.psi1 * s.prevStep with hT
  have hTp : 0 < T := mul_pos hp1 hprev
  have hfirst : (firstGuess a.params.psi1 (cgStepInput (o, s))).step.f = s.value - T * G + T ^ 2 / 2 * D := (hline T).1
  have hle : (firstGuess a.params.psi1 (cgStepInput (o, s))).step.f ≤ s.value := by
    rw [hfirst]
    have : T * (T * D) ≤ T * (2 * alpha * D) :=
      mul_le_mul_of_nonneg_left (mul_le_mul_of_nonneg_right hover hdd.le) hTp.le
    nlinarith
  have hqk : quadCoefficient a.params.psi1 (cgStepInput (o, s)) = T ^ 2 / 2 * D := by
    unfold quadCoefficient
    simp only
    rw [hfirst]
    have e1 : (firstGuess a.params.psi1 (cgStepInput (o, s))).step.x = T := rfl
    have e2 : (cgStepInput (o, s)).pos.f = s.value := rfl
    have e3 : (cgStepInput (o, s)).pos.df = -G := hgd
    rw [e1, e2, e3]
    ring
  have hqp : 0 < T ^ 2 / 2 * D := mul_pos (by positivity) hdd
  have hsucc : quadSuccess a.params.psi1 a.params.quadStep (cgStepInput (o, s)) = true := by
    unfold quadSuccess
    rw [hq, hqk]
    simp only [Bool.true_and, Bool.and_eq_true, decide_eq_true_eq]
    exact ⟨hle, hqp⟩
  have hguess : cgInitStep a.params.psi1 a.params.psi2 a.params.quadStep ([(o, s)].map cgStepInput) =
      [⟨lineFunction o s.position s.direction alpha, true, true⟩] := by
    have e2 : secondGuess a.params.psi1 a.params.quadStep true (cgStepInput (o, s)) =
        ⟨lineFunction o s.position s.direction alpha, true, true⟩ := by
      unfold secondGuess
      simp only [hsucc, if_true, Bool.or_true]
      have e3 : -0.5 * ((cgStepInput (o, s)).pos.df * (firstGuess a.params.psi1 (cgStepInput (o, s))).step.x ^ 2 /
          quadCoefficient a.params.psi1 (cgStepInput (o, s))) = alpha := by
        rw [hqk]
        have e1 : (firstGuess a.params.psi1 (cgStepInput (o, s))).step.x = T := rfl
        have e3 : (cgStepInput (o, s)).pos.df = -G := hgd
        rw [e1, e3, hal]
        have := hTp.ne'
        have := hdd.ne'
        field_simp
        norm_num
      rw [e3]
      rfl
    unfold cgInitStep
    simp only [List.map_cons, List.map_nil, List.any_cons, List.any_nil, hsucc, Bool.or_false, List.all_cons, List.all_nil, e2,
      Bool.and_true]
    unfold thirdGuess
    simp only [if_true]
    rw [e2]
  have hwolfe : wolfe a.params (cgStepInput (o, s)).pos (lineFunction o s.position s.direction alpha) = true := by
    unfold wolfe
    have e1 : (lineFunction o s.position s.direction alpha).df = 0 := by
      unfold lineFunction
      simp only
      rw [(hline alpha).2, add_dotProduct, smul_dotProduct, smul_eq_mul, dotProduct_comm (A.mulVec _), hgd, ← hD, haD]
      ring
    have e2 : (lineFunction o s.position s.direction alpha).f = s.value - alpha * G + alpha ^ 2 / 2 * D := (hline alpha).1
    have e3 : (cgStepInput (o, s)).pos.df = -G := hgd
    have e4 : (cgStepInput (o, s)).pos.f = s.value := rfl
    have e5 : (lineFunction o s.position s.direction alpha).x = alpha := rfl
    simp only [e1, e2, e3, e4, e5]
    have h1 : (s.value - alpha * G + alpha ^ 2 / 2 * D - s.value) / alpha = -(G / 2) := by
      rw [div_eq_iff halp.ne']
      linear_combination (alpha / 2) * haD
    rw [h1]
    have h2 : 0 ≥ a.params.sigma * -G := by nlinarith
    have h3 : a.params.delta * -G ≥ -(G / 2) := by nlinarith
    simp only [Bool.or_eq_true, Bool.and_eq_true, decide_eq_true_eq]
    exact .inl ⟨h3, h2⟩
  unfold cgBody
  rw [hguess]
  simp only [List.zipWith_cons_cons, List.zipWith_nil_right]
  unfold cgMemberStep
  simp only [hwolfe, Bool.and_self, Bool.true_or, if_true, hconv, Bool.false_eq_true, if_false, (hs.skipped _ _ _).1,
    (hs.skipped _ _ _).2, Bool.true_and]
  have f1 : (lineFunction o s.position s.direction alpha).gradient = s.gradient + alpha • A.mulVec s.direction := (hline alpha).2
  have f2 : (lineFunction o s.position s.direction alpha).x = alpha := rfl
  have f3 : (lineFunction o s.position s.direction alpha).f = (o (s.position + alpha • s.direction)).1 := rfl
  rw [f1, f2, f3]
  refine ⟨_, rfl, ?_⟩
  simp only [Bool.or_eq_true, decide_eq_true_eq, add_sub_cancel_left]
  have f4 : (o (s.position + alpha • s.direction)).1 - s.value = -(alpha / 2) * G := by
    rw [(hline alpha).1]
    linear_combination (alpha / 2) * haD
  rw [f4, or_assoc]
  simp only [hwolfe, Bool.and_self, true_or, if_true]

/-- What is known after `k` iterations on a quadratic objective. -/
structure QuadraticState (A : Matrix (Fin n) (Fin n) ℝ) (b : Fin n → ℝ) (a : CgArgs n) (g : Fin n → ℝ) (k : Nat) (s : CgMember n) :
    Prop where
  consistent : CgConsistent (quadratic A b) s
  failed : s.failed = false
  gradient : s.gradient = (cgSequence A g k).1
  direction : s.direction = (cgSequence A g k).2
  prev : s.prevStep = if k = 0 then 1 else cgAlpha A g (k - 1)
  nonzero : ∀ j < k, (cgSequence A g j).1 ≠ 0
  unfinished : s.converged = false → s.gradient ≠ 0
  finished : s.converged = true → normInfLe s.gradient a.tolerance

theorem quadratic_loop (A : Matrix (Fin n) (Fin n) ℝ) (hA : A.IsSymm) (b : Fin n → ℝ) (lo hi : ℝ) (hlo : 0 < lo)
    (hb : ∀ v, lo * dotProduct v v ≤ dotProduct v (A.mulVec v) ∧ dotProduct v (A.mulVec v) ≤ hi * dotProduct v v)
    (a : CgArgs n) (hs : SearchContract a.search) (hstop : a.stopping = convergedAll)
    (hq : a.params.quadStep = true) (hp1 : 0 < a.params.psi1) (hdelta : a.params.delta ≤ 1 / 2) (hsigma : 0 ≤ a.params.sigma)
    (heta : 0 ≤ a.params.eta) (hx : a.xTolerance = 0) (hf : a.fTolerance = 0) (ht : 0 ≤ a.tolerance)
    (hov1 : a.params.psi1 * hi ≤ 2) (hov2 : a.params.psi1 * hi ≤ 2 * lo) (g : Fin n → ℝ) (fuel k : Nat) (s : CgMember n)
    (h : QuadraticState A b a g k s) (hn : n ≤ k + fuel) :
    ∃ k' s', cgLoop a fuel (k, [(quadratic A b, s)]) = (k', [(quadratic A b, s')]) ∧ k' ≤ n ∧ QuadraticState A b a g k' s' ∧
      s'.converged = true := by
  have hpos : ∀ v, v ≠ 0 → 0 < dotProduct v (A.mulVec v) := by
    intro v hv
    have := dot_self_pos v hv
    have := (hb v).1
    nlinarith
  induction fuel generalizing k s with
  | zero =>
    refine ⟨k, s, rfl, sequence_finite A hA hpos g k h.nonzero, h, ?_⟩
    by_contra hc
    have hc' : s.converged = false := by simpa using hc
    have h1 := h.unfinished hc'
    have := sequence_finite A hA hpos g (k + 1) (by
      intro j hj
      rcases Nat.lt_or_ge j k with hjk | hjk
      · exact h.nonzero j hjk
      · have : j = k := by omega
        subst this
        rw [← h.gradient]
        exact h1)
    omega
  | succ fuel ih =>
    rw [cgLoop]
    by_cases hc : s.converged = true
    · refine ⟨k, s, ?_, sequence_finite A hA hpos g k h.nonzero, h, hc⟩
      rw [if_pos]
      rw [hstop]
      simp [convergedAll, hc]
    · have hcf : s.converged = false := by simpa using hc
      rw [if_neg (by rw [hstop]; simp [convergedAll, hcf, h.failed])]
      have hg := h.unfinished hcf
      have hnz : ∀ j < k + 1, (cgSequence A g j).1 ≠ 0 := by
        intro j hj
        rcases Nat.lt_or_ge j k with hjk | hjk
        · exact h.nonzero j hjk
        · have : j = k := by omega
          subst this
          rw [← h.gradient]
          exact hg
      have ho := sequence_orthogonal A hA hpos g k h.nonzero
      have ho1 := sequence_orthogonal A hA hpos g (k + 1) hnz
      have hgk := hnz k (Nat.lt_succ_self k)
      have hdne := direction_ne A g k ho hgk
      have hdd := hpos _ hdne
      have hab := alpha_bounds A hA lo hi hlo hb g k (fun j hj => hnz j (by omega))
      have halp : 0 < cgAlpha A g k := div_pos (dot_self_pos _ hgk) hdd
      have hhi : 0 < hi := by
        by_contra hc
        nlinarith [hab.1]
      have hprev : 0 < s.prevStep ∧ a.params.psi1 * s.prevStep ≤ 2 * cgAlpha A g k := by
        have h2 : 2 / hi ≤ 2 * cgAlpha A g k := by
          rw [div_le_iff₀ hhi]
          linarith [hab.1]
        rw [h.prev]
        split
        · refine ⟨one_pos, ?_⟩
          refine le_trans ?_ h2
          rw [le_div_iff₀ hhi]
          linarith
        · rename_i hk0
          have hab' := alpha_bounds A hA lo hi hlo hb g (k - 1) (fun j hj => hnz j (by omega))
          have hgp := hnz (k - 1) (by omega)
          have hop := sequence_orthogonal A hA hpos g (k - 1) (fun j hj => h.nonzero j (by omega))
          have hap : 0 < cgAlpha A g (k - 1) := div_pos (dot_self_pos _ hgp) (hpos _ (direction_ne A g (k - 1) hop hgp))
          refine ⟨hap, ?_⟩
          refine le_trans ?_ h2
          rw [le_div_iff₀ hhi]
          have : a.params.psi1 * hi * cgAlpha A g (k - 1) ≤ 2 * lo * cgAlpha A g (k - 1) := mul_le_mul_of_nonneg_right hov2 hap.le
          nlinarith [hab'.2]
      obtain ⟨c, hbody, hciff⟩ := quadratic_step A hA b a hs hq hp1 hdelta hsigma s h.consistent hcf h.failed
        (by rw [h.gradient, h.direction]; exact ho.1) hg (by rw [h.direction]; exact hdd) hprev.1 (cgAlpha A g k)
        (by rw [h.gradient, h.direction]; rfl) hprev.2
      rw [hbody]
      apply ih
      · have hgr : s.gradient + cgAlpha A g k • A.mulVec s.direction = (cgSequence A g (k + 1)).1 := by
          rw [h.gradient, h.direction, sequence_gradient]
        have hcons : (quadratic A b (s.position + cgAlpha A g k • s.direction)).2 = s.gradient + cgAlpha A g k • A.mulVec s.direction := by
          rw [(quadratic_line A hA b s.position s.direction _).2, ← h.consistent.2]
        refine ⟨⟨rfl, hcons.symm⟩, rfl, hgr, ?_, by simp, hnz, ?_, ?_⟩
        · simp only
          rw [hgr, h.gradient, h.direction, cgNextDirection_exact _ heta _ _ _ (dot_self_pos _ hgk)
            (ho1.2 k (Nat.lt_succ_self k)).1 (ho1.2 k (Nat.lt_succ_self k)).2.2 ho.1]
          rfl
        · intro hc0 hg0
          simp only at hc0 hg0
          rw [hg0] at hciff
          have : c = true := hciff.2 (.inl (fun i => by simpa using ht))
          rw [hc0] at this
          cases this
        · intro hct
          simp only at hct ⊢
          rcases hciff.1 hct with h1 | h1 | h1
          · exact h1
          · exfalso
            rw [hx, h.direction] at h1
            apply hdne
            funext i
            have := h1 i
            simp only [Pi.smul_apply, smul_eq_mul] at this
            have := abs_nonpos_iff.1 this
            rcases mul_eq_zero.1 this with h2 | h2
            · exact absurd h2 halp.ne'
            · exact h2
          · exfalso
            rw [hf, zero_mul] at h1
            have := abs_nonpos_iff.1 h1
            rcases mul_eq_zero.1 this with h2 | h2
            · linarith
            · exact hg ((dot_self_eq_zero _).1 h2)
      · omega

end Lemmas

namespace Props
open Model Lemmas

variable {n : Nat}

theorem reach_all (a : CgArgs n) (starts : List (CgObjective n × (Fin n → ℝ))) :
    ∀ m ∈ (cgMinimize a starts).2, ∃ x, (m.1, x) ∈ starts ∧ CgReach a m.1 x m.2 := by
  apply loop_reach a (fun o s => ∃ x, (o, x) ∈ starts ∧ CgReach a o x s)
  · rintro o s g ⟨x, hx, hr⟩ hg
    exact ⟨x, hx, .step s g hr hg⟩
  · intro m hm
    rw [List.mem_map] at hm
    obtain ⟨s, hs, rfl⟩ := hm
    exact ⟨s.2, hs, .start⟩

theorem reach_consistent (a : CgArgs n) (hs : SearchContract a.search) (o : CgObjective n) (x : Fin n → ℝ) (s : CgMember n)
    (h : CgReach a o x s) : CgConsistent o s := by
  induction h with
  | start => exact ⟨rfl, rfl⟩
  | step s g _ hg ih => exact step_consistent a hs o s g ih hg

/-- C87.  For every member of a batch, the returned value and gradient are those at the returned position. -/
theorem C87_consistent (a : CgArgs n) (hs : SearchContract a.search) (starts : List (CgObjective n × (Fin n → ℝ))) :
    ∀ m ∈ (cgMinimize a starts).2, m.2.value = (m.1 m.2.position).1 ∧ m.2.gradient = (m.1 m.2.position).2 := by
  intro m hm
  obtain ⟨x, -, hr⟩ := reach_all a starts m hm
  exact reach_consistent a hs _ _ _ hr

theorem reach_stopped (a : CgArgs n) (hs : SearchContract a.search) (o : CgObjective n) (x : Fin n → ℝ) (s : CgMember n)
    (h : CgReach a o x s) (hc : s.converged = true) : CgStopped a o x s := by
  induction h with
  | start =>
    left
    intro i
    simp only [cgInitial, decide_eq_true_eq] at hc ⊢
    exact (abs_le_norm _ i).trans hc.le
  | step s g hr hg ih =>
    by_cases hsc : s.converged = true
    · have := ih hsc
      unfold CgStopped at this ⊢
      unfold cgMemberStep
      simp only [hsc, if_true]
      exact this
    · have h1 := reach_consistent a hs o x s hr
      have h2 := step_consistent a hs o s g h1 hg
      unfold CgConsistent at h2
      unfold CgStopped
      rw [← h2.1, ← h2.2, ]
      have hsf : s.converged = false := by simpa using hsc
      unfold cgMemberStep at hc ⊢
      simp only [hsf, Bool.false_eq_true, if_false, Bool.and_eq_true, Bool.or_eq_true, decide_eq_true_eq] at hc ⊢
      rcases hc.2 with (h | h) | h
      · exact .inl h
      · exact .inr ⟨s, hr, hsf, .inl h⟩
      · exact .inr ⟨s, hr, hsf, .inr (by rw [← h1.1]; exact h)⟩

/-- C87.  If a member is said to have converged, the gradient at its position is within the tolerance in every component, or the
position or the value have changed by no more than their tolerances since a previous iterate that had not converged. -/
theorem C87_truthful (a : CgArgs n) (hs : SearchContract a.search) (starts : List (CgObjective n × (Fin n → ℝ))) :
    ∀ m ∈ (cgMinimize a starts).2, m.2.converged = true → ∃ x, (m.1, x) ∈ starts ∧ CgStopped a m.1 x m.2 := by
  intro m hm hc
  obtain ⟨x, hx, hr⟩ := reach_all a starts m hm
  exact ⟨x, hx, reach_stopped a hs _ _ _ hr hc⟩

/-- C87.  There are at most `max_iterations` iterations; with fewer, the condition for stopping holds. -/
theorem C87_iterations (a : CgArgs n) (starts : List (CgObjective n × (Fin n → ℝ))) :
    (cgMinimize a starts).1 ≤ a.maxIterations ∧ (cgMinimize a starts).2.length = starts.length ∧
      ((cgMinimize a starts).1 < a.maxIterations →
        a.stopping ((cgMinimize a starts).2.map (·.2.converged)) ((cgMinimize a starts).2.map (·.2.failed)) = true) := by
  have key : ∀ fuel (s : Nat × List (CgObjective n × CgMember n)), s.1 ≤ (cgLoop a fuel s).1 ∧ (cgLoop a fuel s).1 ≤ s.1 + fuel ∧
      (cgLoop a fuel s).2.length = s.2.length ∧ ((cgLoop a fuel s).1 < s.1 + fuel →
        a.stopping ((cgLoop a fuel s).2.map (·.2.converged)) ((cgLoop a fuel s).2.map (·.2.failed)) = true) := by
    intro fuel
    induction fuel with
    | zero =>
      intro s
      exact ⟨le_refl _, le_refl _, rfl, fun h => absurd h (lt_irrefl _)⟩
    | succ fuel ih =>
      intro s
      rw [cgLoop]
      split
      case isTrue h => exact ⟨le_refl _, by omega, rfl, fun _ => h⟩
      case isFalse h =>
        obtain ⟨h1, h2, h3, h4⟩ := ih (s.1 + 1, cgBody a s.2)
        simp only [body_length] at h1 h2 h3 h4
        exact ⟨by omega, by omega, h3, fun h => h4 (by omega)⟩
  obtain ⟨-, h2, h3, h4⟩ := key a.maxIterations (0, starts.map (fun (s : CgObjective n × (Fin n → ℝ)) => (s.1, cgInitial a s.1 s.2)))
  simp only [Nat.zero_add, List.length_map] at h2 h3 h4
  exact ⟨h2, h3, h4⟩

/-- C87.  The next direction descends, whatever the step: its product with the new gradient is at most minus three quarters of the square
of the gradient, if the previous direction did not ascend. -/
theorem C87_direction (eta : ℝ) (heta : 0 ≤ eta) (d g g' : Fin n → ℝ) (hd : dotProduct d g ≤ 0) :
    dotProduct g' (cgNextDirection eta d g g') ≤ -(3 / 4) * dotProduct g' g' := cgNextDirection_descent eta heta d g g' hd

theorem loop_single (a : CgArgs n) (P : CgMember n → Prop) (o : CgObjective n) (hstop : a.stopping = convergedAll)
    (hstep : ∀ s g, P s → s.converged = false → s.failed = false → g.step = lineFunction o s.position s.direction g.step.x →
      P (cgMemberStep a o s g)) (fuel k : Nat) (s : CgMember n) (h : P s) :
    ∃ s', (cgLoop a fuel (k, [(o, s)])).2 = [(o, s')] ∧ P s' := by
  induction fuel generalizing k s with
  | zero => exact ⟨s, rfl, h⟩
  | succ fuel ih =>
    rw [cgLoop]
    split
    · exact ⟨s, rfl, h⟩
    · rename_i hc
      rw [hstop] at hc
      simp [convergedAll] at hc
      simp only [cgBody, cgInitStep, List.map_cons, List.map_nil, List.zipWith_cons_cons, List.zipWith_nil_right]
      exact ih _ _ (hstep _ _ h hc.1 hc.2 (third_on_line _ _ _ _ _ _ (fun _ => rfl)))

/-- C87.  In a run from one start all directions descend, whatever the line search returns on the line. -/
theorem C87_descent (a : CgArgs n) (heta : 0 ≤ a.params.eta) (hstop : a.stopping = convergedAll) (o : CgObjective n) (x : Fin n → ℝ) :
    ∃ s, (cgMinimize a [(o, x)]).2 = [(o, s)] ∧ dotProduct s.gradient s.direction ≤ -(3 / 4) * dotProduct s.gradient s.gradient := by
  apply loop_single a (fun s => dotProduct s.gradient s.direction ≤ -(3 / 4) * dotProduct s.gradient s.gradient) o hstop
  · intro s g hp hc hf hg
    unfold cgMemberStep
    simp only [hc, Bool.false_eq_true, if_false]
    apply cgNextDirection_descent _ heta
    have := dot_self_nonneg s.gradient
    rw [dotProduct_comm]
    linarith
  · have := dot_self_nonneg (o x).2
    simp only [cgInitial, dotProduct_neg]
    linarith

/-- C87.  On a quadratic objective with eigenvalues between `lo` and `hi`, with `psi_1 hi` at most two and at most `2 lo` (ten and ten
times `lo` for the defaults), the method finds the minimum in at most as many iterations as there are dimensions: it does not fail,
says that it has converged, and every component of the gradient is within the tolerance. The line search is not needed. -/
theorem C87_quadratic (A : Matrix (Fin n) (Fin n) ℝ) (hA : A.IsSymm) (b : Fin n → ℝ) (lo hi : ℝ) (hlo : 0 < lo)
    (hb : ∀ v, lo * dotProduct v v ≤ dotProduct v (A.mulVec v) ∧ dotProduct v (A.mulVec v) ≤ hi * dotProduct v v)
    (a : CgArgs n) (hs : SearchContract a.search) (hstop : a.stopping = convergedAll)
    (hq : a.params.quadStep = true) (hp1 : 0 < a.params.psi1) (hdelta : a.params.delta ≤ 1 / 2) (hsigma : 0 ≤ a.params.sigma)
    (heta : 0 ≤ a.params.eta) (hx : a.xTolerance = 0) (hf : a.fTolerance = 0) (ht : 0 < a.tolerance)
    (hov1 : a.params.psi1 * hi ≤ 2) (hov2 : a.params.psi1 * hi ≤ 2 * lo) (hn : n ≤ a.maxIterations) (x : Fin n → ℝ) :
    ∃ k s, cgMinimize a [(quadratic A b, x)] = (k, [(quadratic A b, s)]) ∧ k ≤ n ∧ s.converged = true ∧ s.failed = false ∧
      s.value = dotProduct s.position (A.mulVec s.position) / 2 - dotProduct b s.position ∧ s.gradient = A.mulVec s.position - b ∧
      ∀ i, |(A.mulVec s.position - b) i| ≤ a.tolerance := by
  obtain ⟨k, s, h1, h2, h3, h4⟩ := quadratic_loop A hA b lo hi hlo hb a hs hstop hq hp1 hdelta hsigma heta hx hf ht.le hov1 hov2
    (quadratic A b x).2 a.maxIterations 0 (cgInitial a (quadratic A b) x)
    ⟨⟨rfl, rfl⟩, rfl, rfl, rfl, rfl, fun j hj => absurd hj (Nat.not_lt_zero j), by
      intro hc hg
      simp only [cgInitial, decide_eq_false_iff_not] at hc hg
      rw [hg] at hc
      simp [ht] at hc, by
      intro hc i
      simp only [cgInitial, decide_eq_true_eq] at hc ⊢
      exact (abs_le_norm _ i).trans hc.le⟩ (by omega)
  refine ⟨k, s, h1, h2, h4, h3.failed, h3.consistent.1, h3.consistent.2, ?_⟩
  have := h3.finished h4
  rw [h3.consistent.2] at this
  exact this

/-- The square in one dimension. -/
noncomputable def cgParabola (c : ℝ) : CgObjective 1 := fun x => (c / 2 * x 0 ^ 2, fun _ => c * x 0)

/-- A line. -/
noncomputable def cgLine : CgObjective 1 := fun x => (x 0, fun _ => 1)

/-- C87, deviation.  The members of a batch are not independent: the test at L526 uses the flags from before the quadratic step. Alone,
the first step for `x ^ 2 / 2` at `1` is the exact one; together with a linear objective it is twice as long, and no progress is
made. -/
theorem C87_batch_interaction :
    (cgInitStep 0.2 2 true [⟨⟨0, 1 / 2, -1, fun _ => 1⟩, 1, lineFunction (cgParabola 1) (fun _ => 1) (fun _ => -1)⟩]).map (·.step.x) =
        [1] ∧
      (cgInitStep 0.2 2 true [⟨⟨0, 1 / 2, -1, fun _ => 1⟩, 1, lineFunction (cgParabola 1) (fun _ => 1) (fun _ => -1)⟩,
        ⟨⟨0, 0, -1, fun _ => 1⟩, 1, lineFunction cgLine (fun _ => 0) (fun _ => -1)⟩]).map (fun g => (g.step.x, g.step.f)) =
        [(2, 1 / 2), (2, -2)] := by
  have hs1 : quadSuccess 0.2 true ⟨⟨0, 1 / 2, -1, fun _ => 1⟩, 1, lineFunction (cgParabola 1) (fun _ => 1) (fun _ => -1)⟩ = true := by
    norm_num [quadSuccess, quadCoefficient, firstGuess, lineFunction, cgParabola]
  have hs2 : quadSuccess 0.2 true ⟨⟨0, 0, -1, fun _ => 1⟩, 1, lineFunction cgLine (fun _ => 0) (fun _ => -1)⟩ = false := by
    norm_num [quadSuccess, quadCoefficient, firstGuess, lineFunction, cgLine]
  constructor
  · simp only [cgInitStep, List.any_cons, List.any_nil, hs1, Bool.or_false, List.all_cons, List.all_nil, List.map_cons, List.map_nil,
      secondGuess, if_true, Bool.or_true, Bool.and_true, thirdGuess]
    norm_num [quadCoefficient, firstGuess, lineFunction, cgParabola]
  · simp only [cgInitStep, List.any_cons, List.any_nil, hs1, hs2, Bool.or_false, List.all_cons, List.all_nil, List.map_cons,
      List.map_nil, secondGuess, if_true, Bool.or_true, Bool.and_true, thirdGuess, Bool.true_and]
    norm_num [quadCoefficient, firstGuess, lineFunction, cgParabola, cgLine]

/-- C87, deviation.  A member that has converged does not stay so: while another member goes on, its flag is computed from a step that
is not taken. `50 x ^ 2` at `0.005` satisfies the tolerance `1`, and after an iteration it is at the same point but no longer counts
as converged. -/
theorem C87_lost (search : LineSearch 1) (hs : SearchContract search) :
    let a : CgArgs 1 := ⟨1, 0, 0, 1, convergedAll, {}, search⟩
    ((cgInitial a (cgParabola 100) (fun _ => 0.005)).converged = true) ∧
      ((cgMinimize a [(cgParabola 100, fun _ => 0.005), (cgLine, fun _ => 0)]).2.map (fun m => (m.2.converged, m.2.position 0))).head? =
        some (false, 0.005) := by
  intro a
  have hc : (cgInitial a (cgParabola 100) (fun _ => 0.005)).converged = true := by
    apply decide_eq_true
    change Real.sqrt (dotProduct (fun _ : Fin 1 => (100 : ℝ) * 0.005) (fun _ => 100 * 0.005)) < 1
    rw [show dotProduct (fun _ : Fin 1 => (100 : ℝ) * 0.005) (fun _ => 100 * 0.005) = 0.5 ^ 2 by norm_num [dotProduct],
      Real.sqrt_sq (by norm_num)]
    norm_num
  have hc2 : (cgInitial a cgLine (fun _ => 0)).converged = false := by
    simp [cgInitial, cgLine, a, dotProduct]
  refine ⟨hc, ?_⟩
  set m1 := cgInitial a (cgParabola 100) (fun _ => 0.005) with hm1
  set m2 := cgInitial a cgLine (fun _ => 0) with hm2
  have hstop : a.stopping ([(cgParabola 100, m1), (cgLine, m2)].map (·.2.converged)) ([(cgParabola 100, m1), (cgLine, m2)].map (·.2.failed)) =
      false := by
    simp [a, convergedAll, hc2, hm2, cgInitial, cgLine, dotProduct]
  have hrun : (cgMinimize a [(cgParabola 100, fun _ => 0.005), (cgLine, fun _ => 0)]).2 = cgBody a [(cgParabola 100, m1), (cgLine, m2)] := by
    unfold cgMinimize
    simp only [List.map_cons, List.map_nil, ← hm1, ← hm2]
    rw [show a.maxIterations = 0 + 1 from rfl, cgLoop, hstop]
    rfl
  rw [hrun]
  have hs1 : quadSuccess a.params.psi1 a.params.quadStep (cgStepInput (cgParabola 100, m1)) = false := by
    norm_num [quadSuccess, quadCoefficient, firstGuess, lineFunction, cgParabola, cgStepInput, hm1, cgInitial, a]
  have hs2 : quadSuccess a.params.psi1 a.params.quadStep (cgStepInput (cgLine, m2)) = false := by
    norm_num [quadSuccess, quadCoefficient, firstGuess, lineFunction, cgLine, cgStepInput, hm2, cgInitial, a, dotProduct]
  have hf1 : (firstGuess a.params.psi1 (cgStepInput (cgParabola 100, m1))).canTake = true := by
    norm_num [firstGuess, lineFunction, cgParabola, cgStepInput, hm1, cgInitial, a]
  have hstep : ∀ t, (thirdGuess a.params.psi1 a.params.psi2 a.params.quadStep false t (cgStepInput (cgParabola 100, m1))).step =
      lineFunction (cgParabola 100) m1.position m1.direction 0.2 := by
    intro t
    have h02 : (firstGuess a.params.psi1 (cgStepInput (cgParabola 100, m1))).step =
        lineFunction (cgParabola 100) m1.position m1.direction 0.2 := by
      norm_num [firstGuess, cgStepInput, hm1, cgInitial, a]
    cases t
    · simp only [thirdGuess, secondGuess, Bool.false_eq_true, if_false, hf1, if_true, h02]
      rfl
    · simp only [thirdGuess, secondGuess, Bool.false_eq_true, if_false, if_true, h02]
  simp only [cgBody, cgInitStep, List.map_cons, List.map_nil, List.any_cons, List.any_nil, hs1, hs2, Bool.or_false,
    List.zipWith_cons_cons, List.zipWith_nil_right, List.head?_cons]
  refine congrArg some (Prod.ext ?_ ?_)
  · simp only [cgMemberStep, hc, Bool.or_true, if_true, hstep, Bool.and_eq_false_iff, Bool.or_eq_false_iff, decide_eq_false_iff_not]
    right
    refine ⟨⟨?_, ?_⟩, ?_⟩
    · intro h
      have := h 0
      norm_num [lineFunction, cgParabola, hm1, cgInitial, a] at this
    · intro h
      have := h 0
      norm_num [lineFunction, cgParabola, hm1, cgInitial, a] at this
    · norm_num [lineFunction, cgParabola, hm1, cgInitial, a]
  · simp only [cgMemberStep, hc, if_true]
    rfl

/-- C87, deviation.  A member whose line search has failed is not left alone: at the next iteration of a batch the search is skipped,
the flag is cleared, and the member moves by the first guess without any test of it. -/
theorem C87_failed_forgotten (a : CgArgs n) (hs : SearchContract a.search) (o : CgObjective n) (s : CgMember n) (g : StepGuess n)
    (hf : s.failed = true) (hc : s.converged = false) :
    (cgMemberStep a o s g).failed = false ∧ (cgMemberStep a o s g).position = s.position + g.step.x • s.direction := by
  simp only [cgMemberStep, hf, hc, Bool.or_true, Bool.true_or, if_true, Bool.false_eq_true, if_false]
  exact ⟨(hs.skipped _ _ _).2, trivial⟩

/-- C87, deviation.  The test before the first iteration uses the Euclidean norm of the gradient, not the largest component as
documented: with the components `0.9` and the tolerance one the start is not accepted. -/
theorem C87_first_test (search : LineSearch 2) :
    let a : CgArgs 2 := ⟨1, 0, 0, 50, convergedAll, {}, search⟩
    (cgInitial a (fun _ => (0, fun _ => 0.9)) (fun _ => 0)).converged = false ∧ normInfLe (fun _ : Fin 2 => (0.9 : ℝ)) a.tolerance := by
  intro a
  constructor
  · apply decide_eq_false
    change ¬Real.sqrt (dotProduct (fun _ : Fin 2 => (0.9 : ℝ)) (fun _ => 0.9)) < 1
    rw [not_lt, Real.le_sqrt' one_pos]
    norm_num [dotProduct]
  · intro i
    norm_num [a]

/-- A line search that returns the first guess: the contract can be met. -/
example : SearchContract (fun (_ : ℝ → LinePoint n) _ _ init => ⟨init, true, false⟩) :=
  ⟨fun _ _ _ _ _ h _ => h, fun _ _ _ => ⟨rfl, rfl⟩⟩

/-- Two dimensions, eigenvalues two and six, default parameters: the minimum is found in two iterations from anywhere. -/
example (search : LineSearch 2) (hs : SearchContract search) (x : Fin 2 → ℝ) :
    ∃ k s, cgMinimize ⟨1 / 1000, 0, 0, 50, convergedAll, {}, search⟩ [(quadratic !![4, 2; 2, 4] ![2, -2], x)] =
        (k, [(quadratic !![4, 2; 2, 4] ![2, -2], s)]) ∧ k ≤ 2 ∧ s.converged = true ∧ |s.position 0 - 1| ≤ 1 / 1000 ∧
        |s.position 1 + 1| ≤ 1 / 1000 := by
  obtain ⟨k, s, h1, h2, h3, -, -, -, h4⟩ := C87_quadratic !![4, 2; 2, 4] (by ext i j; fin_cases i <;> fin_cases j <;> rfl) ![2, -2] 2 6
    (by norm_num) (by
      intro v
      simp only [dotProduct, Matrix.mulVec, Fin.sum_univ_two, Matrix.of_apply, Matrix.cons_val_zero, Matrix.cons_val_one,
        Matrix.cons_val_fin_one]
      constructor
      · nlinarith [sq_nonneg (v 0 + v 1)]
      · nlinarith [sq_nonneg (v 0 - v 1)])
    ⟨1 / 1000, 0, 0, 50, convergedAll, {}, search⟩ hs rfl rfl (by norm_num) (by norm_num) (by norm_num) (by norm_num) rfl rfl
    (by norm_num) (by norm_num) (by norm_num) (by norm_num) x
  refine ⟨k, s, h1, h2, h3, ?_⟩
  have e0 := h4 0
  have e1 := h4 1
  simp only [dotProduct, Matrix.mulVec, Fin.sum_univ_two, Matrix.of_apply, Matrix.cons_val_zero, Matrix.cons_val_one,
    Matrix.cons_val_fin_one, Pi.sub_apply] at e0 e1
  rw [abs_le] at e0 e1
  constructor <;> rw [abs_le] <;> constructor <;> linarith [e0.1, e0.2, e1.1, e1.2]

/-- A member that has already converged keeps its position. -/
example (search : LineSearch 1) (hs : SearchContract search) :
    (cgMinimize ⟨1, 0, 0, 50, convergedAll, {}, search⟩ [(cgParabola 1, fun _ => 1 / 2)]).2.length = 1 ∧
      (cgMinimize ⟨1, 0, 0, 50, convergedAll, {}, search⟩ [(cgParabola 1, fun _ => 1 / 2)]).1 ≤ 50 :=
  ⟨(C87_iterations ⟨1, 0, 0, 50, convergedAll, {}, search⟩ [(cgParabola 1, fun _ => 1 / 2)]).2.1,
    (C87_iterations ⟨1, 0, 0, 50, convergedAll, {}, search⟩ [(cgParabola 1, fun _ => 1 / 2)]).1⟩

/-- From the steepest descent direction `(-3, -4)` at `(3, 4)` to the gradient `(4, -3)`. -/
example : dotProduct ![4, -3] (cgNextDirection 0.4 ![-3, -4] ![3, 4] ![4, -3]) ≤ -(3 / 4) * dotProduct ![4, -3] (![4, -3] : Fin 2 → ℝ) :=
  C87_direction 0.4 (by norm_num) _ _ _ (by norm_num [dotProduct, Fin.sum_univ_two])

end Props
