import Verif.Model.CustomLoops
import Mathlib.Analysis.Calculus.FDeriv.Comp
import Mathlib.Analysis.Calculus.FDeriv.Prod
import Mathlib.Analysis.Calculus.FDeriv.Add
import Mathlib.Analysis.Calculus.FDeriv.Mul
import Mathlib.Analysis.Calculus.FDeriv.Linear
import Mathlib.Analysis.Calculus.Deriv.Basic
import Mathlib.Tactic.Ring
import Mathlib.Tactic.NormNum
import Mathlib.Tactic.Linarith

/-! # C40 Loops with a custom gradient -/

namespace Spec
open Model

variable {n p : Nat} {d : Fin n → Nat}

/-- The state after `k` iterations of a body that may use parameters. -/
def iterated (body : (Fin p → ℝ) → Nat → LoopState d → LoopState d) (q : Fin p → ℝ) (s : LoopState d) : Nat → LoopState d
  | 0 => s
  | k + 1 => body q k (iterated body q s k)

/-- `jac` is the Jacobian at `x` of a function of state and parameters. -/
def IsJacobian (F : LoopState d × (Fin p → ℝ) → LoopState d) (x : LoopState d × (Fin p → ℝ)) (jac : LoopJac d p) : Prop :=
  ∃ L : (LoopState d × (Fin p → ℝ)) →L[ℝ] LoopState d, HasFDerivAt F L x ∧
    ∀ (u : LoopState d) (v : Fin p → ℝ) (i : Fin n) (a : Fin (d i)),
      L (u, v) i a = ∑ j, ∑ b, jac.js i j a b * u j b + ∑ j, jac.jp i j a 0 * v j

end Spec

namespace Lemmas
open Model Spec

variable {n p : Nat} {d : Fin n → Nat}

theorem matrix_sum_apply {ι m k : Type} (t : Finset ι) (f : ι → Matrix m k ℝ) (a : m) (b : k) :
    (∑ l ∈ t, f l) a b = ∑ l ∈ t, f l a b := by
  classical
  induction t using Finset.induction_on with
  | empty => simp
  | insert x t hx ih => rw [Finset.sum_insert hx, Finset.sum_insert hx, Matrix.add_apply, ih]

theorem whileLoop_count {S : Type} (body : S → S) (i : S → Nat) (hi : ∀ s, i (body s) = i s + 1) (m k : Nat) (s : S)
    (h : i s + k ≤ m) : whileLoop (fun s => decide (i s < m)) body k s = body^[k] s := by
  induction k generalizing s with
  | zero => rfl
  | succ k ih =>
    rw [whileLoop, if_pos (by simp; omega), ih _ (by rw [hi]; omega), Function.iterate_succ_apply]

/-- The loop variables after `k` iterations. -/
def loopAfter (body : Nat → LoopState d → LoopState d) (stepJac : Nat → LoopState d → LoopJac d p) (init : LoopState d)
    (k : Nat) : LoopVars d p :=
  (loopBody body stepJac)^[k] { i := 0, state := init, jac := unitJacobian d p }

theorem forLoop_eq (body : Nat → LoopState d → LoopState d) (stepJac : Nat → LoopState d → LoopJac d p) (init : LoopState d)
    (k : Nat) : forLoop body stepJac init k = loopAfter body stepJac init k :=
  whileLoop_count _ LoopVars.i (fun _ => rfl) k k _ (by simp)

theorem loopAfter_succ (body : Nat → LoopState d → LoopState d) (stepJac : Nat → LoopState d → LoopJac d p)
    (init : LoopState d) (k : Nat) :
    loopAfter body stepJac init (k + 1) = loopBody body stepJac (loopAfter body stepJac init k) := by
  unfold loopAfter
  rw [Function.iterate_succ_apply']

theorem loopAfter_i (body : Nat → LoopState d → LoopState d) (stepJac : Nat → LoopState d → LoopJac d p)
    (init : LoopState d) (k : Nat) : (loopAfter body stepJac init k).i = k := by
  induction k with
  | zero => rfl
  | succ k ih => rw [loopAfter_succ]; simp [loopBody, ih]

theorem loopAfter_state (body : (Fin p → ℝ) → Nat → LoopState d → LoopState d) (q : Fin p → ℝ)
    (stepJac : Nat → LoopState d → LoopJac d p) (init : LoopState d) (k : Nat) :
    (loopAfter (body q) stepJac init k).state = iterated body q init k := by
  induction k with
  | zero => rfl
  | succ k ih => rw [loopAfter_succ]; simp [loopBody, loopAfter_i, ih, iterated]

theorem isJacobian_unit (x : LoopState d × (Fin p → ℝ)) : IsJacobian (fun y => y.1) x (unitJacobian d p) := by
  refine ⟨ContinuousLinearMap.fst ℝ _ _, hasFDerivAt_fst, ?_⟩
  intro u v i a
  simp only [ContinuousLinearMap.coe_fst', unitJacobian, Matrix.of_apply, zero_mul, Finset.sum_const_zero, add_zero]
  rw [Finset.sum_eq_single i]
  · rw [Finset.sum_eq_single a]
    · simp
    · intro b _ hb
      simp only [ne_eq, not_true_eq_false, if_false]
      rw [if_neg (fun h => hb (Fin.ext h.symm)), zero_mul]
    · simp
  · intro j _ hj
    simp [Ne.symm hj]
  · simp

theorem isJacobian_comp (F G : LoopState d × (Fin p → ℝ) → LoopState d) (x : LoopState d × (Fin p → ℝ))
    (j1 j2 : LoopJac d p) (h2 : IsJacobian F x j2) (h1 : IsJacobian G (F x, x.2) j1) :
    IsJacobian (fun y => G (F y, y.2)) x (multiplyJacobians j1 j2) := by
  obtain ⟨L2, d2, e2⟩ := h2
  obtain ⟨L1, d1, e1⟩ := h1
  refine ⟨L1.comp (L2.prod (ContinuousLinearMap.snd ℝ _ _)), ?_, ?_⟩
  · exact HasFDerivAt.comp (f := fun y => (F y, y.2)) (g := G) x d1 (d2.prodMk hasFDerivAt_snd)
  · intro u v i a
    simp only [ContinuousLinearMap.comp_apply, ContinuousLinearMap.prod_apply, ContinuousLinearMap.coe_snd']
    rw [e1]
    simp only [e2, multiplyJacobians, blockMatmul, blockAdd, Matrix.add_apply, matrix_sum_apply, Matrix.mul_apply]
    simp only [mul_add, Finset.sum_add_distrib, add_mul, Finset.mul_sum, Finset.sum_mul, add_assoc]
    congr 1
    · -- state part
      have hl : ∀ (j : Fin n) (b : Fin (d j)), (∑ c, ∑ e, j1.js i j a b * (j2.js j c b e * u c e)) =
          ∑ c, ∑ e, (j1.js i j a b * j2.js j c b e) * u c e := by
        intro j b
        refine Finset.sum_congr rfl fun c _ => Finset.sum_congr rfl fun e _ => ?_
        ring
      simp only [hl]
      calc ∑ j, ∑ b, ∑ c, ∑ e, (j1.js i j a b * j2.js j c b e) * u c e
          = ∑ j, ∑ c, ∑ b, ∑ e, (j1.js i j a b * j2.js j c b e) * u c e := by
            refine Finset.sum_congr rfl fun j _ => Finset.sum_comm
        _ = ∑ c, ∑ j, ∑ b, ∑ e, (j1.js i j a b * j2.js j c b e) * u c e := Finset.sum_comm
        _ = ∑ c, ∑ j, ∑ e, ∑ b, (j1.js i j a b * j2.js j c b e) * u c e := by
            refine Finset.sum_congr rfl fun c _ => Finset.sum_congr rfl fun j _ => Finset.sum_comm
        _ = ∑ c, ∑ e, ∑ j, ∑ b, (j1.js i j a b * j2.js j c b e) * u c e := by
            refine Finset.sum_congr rfl fun c _ => Finset.sum_comm
    · congr 1
      calc ∑ j, ∑ b, ∑ c, j1.js i j a b * (j2.jp j c b 0 * v c)
          = ∑ j, ∑ c, ∑ b, j1.js i j a b * (j2.jp j c b 0 * v c) := by
            refine Finset.sum_congr rfl fun j _ => Finset.sum_comm
        _ = ∑ c, ∑ j, ∑ b, j1.js i j a b * (j2.jp j c b 0 * v c) := Finset.sum_comm
        _ = ∑ c, ∑ j, ∑ b, j1.js i j a b * j2.jp j c b 0 * v c := by
            refine Finset.sum_congr rfl fun c _ => Finset.sum_congr rfl fun j _ => Finset.sum_congr rfl fun b _ => ?_
            ring

/-- Accumulating loop: variables after `k` iterations. -/
def accAfter (body : Nat → LoopState d → LoopState d) (stepJac : Nat → LoopState d → LoopJac d p) (init : LoopState d)
    (nums : List Nat) (k : Nat) : AccVars d p :=
  (accBody body stepJac nums)^[k]
    { i := 0
      accIndex := 0
      state := init
      jac := unitJacobian d p
      acc := (List.replicate nums.length none).set 0 (some (init, unitJacobian d p)) }

theorem accAfter_succ (body : Nat → LoopState d → LoopState d) (stepJac : Nat → LoopState d → LoopJac d p)
    (init : LoopState d) (nums : List Nat) (k : Nat) :
    accAfter body stepJac init nums (k + 1) = accBody body stepJac nums (accAfter body stepJac init nums k) := by
  unfold accAfter
  rw [Function.iterate_succ_apply']

theorem accAfter_loop (body : Nat → LoopState d → LoopState d) (stepJac : Nat → LoopState d → LoopJac d p)
    (init : LoopState d) (nums : List Nat) (k : Nat) :
    (accAfter body stepJac init nums k).i = k ∧
    (accAfter body stepJac init nums k).state = (loopAfter body stepJac init k).state ∧
    (accAfter body stepJac init nums k).jac = (loopAfter body stepJac init k).jac ∧
    (accAfter body stepJac init nums k).accIndex = nums.countP (· < k) ∧
    (accAfter body stepJac init nums k).acc.length = nums.length := by
  induction k with
  | zero => simp [accAfter, loopAfter]
  | succ k ih =>
    obtain ⟨h1, h2, h3, h4, h5⟩ := ih
    rw [accAfter_succ, loopAfter_succ]
    simp only [accBody, loopBody, h1, h2, h3, h4, loopAfter_i, List.length_set, h5, true_and, and_true]
    clear h1 h2 h3 h4 h5
    induction nums with
    | nil => simp
    | cons m l ih =>
      rw [List.countP_cons, List.countP_cons, List.count_cons, ← ih]
      simp only [decide_eq_true_eq, beq_iff_eq]
      split_ifs <;> omega

theorem countP_sorted (nums : List Nat) (hs : nums.Pairwise (· < ·)) (j m : Nat) (hj : nums[j]? = some m) :
    nums.countP (· < m) = j := by
  induction nums generalizing j with
  | nil => simp at hj
  | cons a l ih =>
    rw [List.pairwise_cons] at hs
    rcases j with _ | j
    · simp only [List.getElem?_cons_zero, Option.some.injEq] at hj
      subst hj
      rw [List.countP_eq_zero]
      intro b hb
      rcases List.mem_cons.1 hb with rfl | hb
      · simp
      · have := hs.1 b hb
        simp; omega
    · simp only [List.getElem?_cons_succ] at hj
      rw [List.countP_cons, ih hs.2 j hj, if_pos]
      have := hs.1 m (List.mem_of_getElem? hj)
      simpa using this

/-- After `k` iterations every entry whose requested number is at most `k` holds the result for this number; and the entry
in progress holds the current result. -/
theorem accAfter_acc (body : Nat → LoopState d → LoopState d) (stepJac : Nat → LoopState d → LoopJac d p)
    (init : LoopState d) (nums : List Nat) (hs : nums.Pairwise (· < ·)) (k : Nat) (j m : Nat) (hj : nums[j]? = some m) :
    (m ≤ k → (accAfter body stepJac init nums k).acc[j]? =
      some (some ((loopAfter body stepJac init m).state, (loopAfter body stepJac init m).jac))) ∧
    (k < m → nums.countP (· < k) = j → (accAfter body stepJac init nums k).acc[j]? =
      some (some ((loopAfter body stepJac init k).state, (loopAfter body stepJac init k).jac))) := by
  have hlen : j < nums.length := (List.getElem?_eq_some_iff.1 hj).1
  have hcm := countP_sorted nums hs j m hj
  induction k with
  | zero =>
    have hc : (accAfter body stepJac init nums 0).acc =
      (List.replicate nums.length none).set 0 (some (init, unitJacobian d p)) := rfl
    have h00 : nums.countP (· < 0) = 0 := by simp
    constructor
    · intro h
      obtain rfl : m = 0 := by omega
      rw [h00] at hcm
      subst hcm
      rw [hc, List.getElem?_set]
      simp [loopAfter, hlen]
    · intro h hcount
      rw [h00] at hcount
      subst hcount
      rw [hc, List.getElem?_set]
      simp [loopAfter, hlen]
  | succ k ih =>
    obtain ⟨g1, g2, g3, g4, g5⟩ := accAfter_loop body stepJac init nums k
    obtain ⟨f1, f2, f3, f4, f5⟩ := accAfter_loop body stepJac init nums (k + 1)
    have hset : (accAfter body stepJac init nums (k + 1)).acc =
        (accAfter body stepJac init nums k).acc.set (nums.countP (· < k + 1))
          (some ((loopAfter body stepJac init (k + 1)).state, (loopAfter body stepJac init (k + 1)).jac)) := by
      rw [← f4, ← f2, ← f3, accAfter_succ]
      rfl
    have hmono : nums.countP (· < k) ≤ nums.countP (· < k + 1) :=
      List.countP_mono_left (fun x _ h => by simp at h ⊢; omega)
    constructor
    · intro hle
      rw [hset, List.getElem?_set]
      rcases Nat.lt_or_eq_of_le hle with hlt | heq
      · -- written before; the index is larger now
        have hne : nums.countP (· < k + 1) ≠ j := by
          intro h
          have hm1 : nums.countP (· < m + 1) = j + 1 := by
            have := (accAfter_loop body stepJac init nums (m + 1)).2.2.2.1
            rw [accAfter_succ] at this
            simp only [accBody, (accAfter_loop body stepJac init nums m).2.2.2.1, (accAfter_loop body stepJac init nums m).1,
              hcm] at this
            rw [← this, List.count_eq_one_of_mem (hs.imp (fun h => Nat.ne_of_lt h)) (List.mem_of_getElem? hj)]
          have : nums.countP (· < m + 1) ≤ nums.countP (· < k + 1) :=
            List.countP_mono_left (fun x _ h => by simp at h ⊢; omega)
          omega
        rw [if_neg hne]
        exact ih.1 (by omega)
      · subst heq
        rw [if_pos hcm, hcm, if_pos (by rw [g5]; exact hlen)]
    · intro hlt hcount
      rw [hset, List.getElem?_set, if_pos hcount, hcount, if_pos (by rw [g5]; exact hlen)]

end Lemmas

namespace Props
open Model Spec Lemmas

variable {n p : Nat} {d : Fin n → Nat}

/-- C40: the state after the loop is the iterated state, for every number of iterations. -/
theorem C40_state (body : (Fin p → ℝ) → Nat → LoopState d → LoopState d) (q : Fin p → ℝ)
    (stepJac : Nat → LoopState d → LoopJac d p) (init : LoopState d) (k : Nat) :
    (forLoop (body q) stepJac init k).state = iterated body q init k := by
  rw [forLoop_eq, loopAfter_state]

/-- C40: if the tape gives the Jacobian of each step, the Jacobian of the loop is that of the map from initial state and
parameters to the final state. -/
theorem C40_jacobian (body : (Fin p → ℝ) → Nat → LoopState d → LoopState d) (q : Fin p → ℝ)
    (stepJac : Nat → LoopState d → LoopJac d p) (init : LoopState d) (k : Nat)
    (hjac : ∀ i < k, IsJacobian (fun y => body y.2 i y.1) (iterated body q init i, q) (stepJac i (iterated body q init i))) :
    IsJacobian (fun y => iterated body y.2 y.1 k) (init, q) (forLoop (body q) stepJac init k).jac := by
  rw [forLoop_eq]
  induction k with
  | zero => exact isJacobian_unit _
  | succ k ih =>
    rw [loopAfter_succ]
    have h := isJacobian_comp (fun y => iterated body y.2 y.1 k) (fun y => body y.2 k y.1) (init, q)
      (stepJac k (iterated body q init k)) _ (ih fun i hi => hjac i (by omega)) (hjac k (by omega))
    simpa [loopBody, loopAfter_i, loopAfter_state, iterated] using h

/-- C40: the custom gradient contracted with a direction is the directional derivative of the weighted output. -/
theorem C40_gradient (F : LoopState d × (Fin p → ℝ) → LoopState d) (x : LoopState d × (Fin p → ℝ)) (jac : LoopJac d p)
    (hjac : IsJacobian F x jac) (ws : LoopState d) :
    ∃ L : (LoopState d × (Fin p → ℝ)) →L[ℝ] ℝ, HasFDerivAt (fun y => ∑ i, ∑ a, ws i a * F y i a) L x ∧
      ∀ (u : LoopState d) (v : Fin p → ℝ),
        L (u, v) = ∑ j, ∑ b, (loopGradient jac ws).1 j b * u j b + ∑ j, (loopGradient jac ws).2 j * v j := by
  obtain ⟨L, hd, he⟩ := hjac
  have hc : ∀ (i : Fin n) (a : Fin (d i)), HasFDerivAt (fun y => F y i a)
      (((ContinuousLinearMap.proj a : (Fin (d i) → ℝ) →L[ℝ] ℝ).comp
        (ContinuousLinearMap.proj i : LoopState d →L[ℝ] (Fin (d i) → ℝ))).comp L) x := by
    intro i a
    exact HasFDerivAt.comp x (ContinuousLinearMap.hasFDerivAt
      ((ContinuousLinearMap.proj a : (Fin (d i) → ℝ) →L[ℝ] ℝ).comp
        (ContinuousLinearMap.proj i : LoopState d →L[ℝ] (Fin (d i) → ℝ)))) hd
  refine ⟨∑ i, ∑ a, ws i a • (((ContinuousLinearMap.proj a : (Fin (d i) → ℝ) →L[ℝ] ℝ).comp
        (ContinuousLinearMap.proj i : LoopState d →L[ℝ] (Fin (d i) → ℝ))).comp L), ?_, ?_⟩
  · exact HasFDerivAt.fun_sum fun i _ => HasFDerivAt.fun_sum fun a _ => (hc i a).const_mul (ws i a)
  · intro u v
    simp only [ContinuousLinearMap.sum_apply, ContinuousLinearMap.smul_apply, ContinuousLinearMap.comp_apply,
      ContinuousLinearMap.proj_apply, smul_eq_mul, he, loopGradient, blockMatmul, matrix_sum_apply, Matrix.mul_apply,
      Matrix.of_apply, Finset.univ_unique, Fin.default_eq_zero, Fin.isValue, Finset.sum_singleton]
    simp only [mul_add, Finset.sum_add_distrib, Finset.mul_sum, Finset.sum_mul]
    congr 1
    · calc ∑ i, ∑ a, ∑ j, ∑ b, ws i a * (jac.js i j a b * u j b)
          = ∑ i, ∑ j, ∑ a, ∑ b, ws i a * (jac.js i j a b * u j b) := by
            refine Finset.sum_congr rfl fun j _ => Finset.sum_comm
        _ = ∑ j, ∑ i, ∑ a, ∑ b, ws i a * (jac.js i j a b * u j b) := Finset.sum_comm
        _ = ∑ j, ∑ i, ∑ b, ∑ a, ws i a * (jac.js i j a b * u j b) := by
            refine Finset.sum_congr rfl fun c _ => Finset.sum_congr rfl fun j _ => Finset.sum_comm
        _ = ∑ j, ∑ b, ∑ i, ∑ a, ws i a * (jac.js i j a b * u j b) := by
            refine Finset.sum_congr rfl fun c _ => Finset.sum_comm
        _ = _ := by
            refine Finset.sum_congr rfl fun c _ => Finset.sum_congr rfl fun j _ => Finset.sum_congr rfl fun b _ =>
              Finset.sum_congr rfl fun a _ => ?_
            ring
    · calc ∑ i, ∑ a, ∑ j, ws i a * (jac.jp i j a 0 * v j)
          = ∑ i, ∑ j, ∑ a, ws i a * (jac.jp i j a 0 * v j) := by
            refine Finset.sum_congr rfl fun j _ => Finset.sum_comm
        _ = ∑ j, ∑ i, ∑ a, ws i a * (jac.jp i j a 0 * v j) := Finset.sum_comm
        _ = _ := by
            refine Finset.sum_congr rfl fun c _ => Finset.sum_congr rfl fun j _ => Finset.sum_congr rfl fun b _ => ?_
            ring

/-- C40: for increasing numbers of iterations the accumulating loop returns, for each of them, exactly what the plain loop returns
for this number. -/
theorem C40_accumulates (body : Nat → LoopState d → LoopState d) (stepJac : Nat → LoopState d → LoopJac d p)
    (init : LoopState d) (nums : List Nat) (hs : nums.Pairwise (· < ·)) :
    accumulatingForLoop body stepJac init nums =
      nums.map fun k => some ((forLoop body stepJac init k).state, (forLoop body stepJac init k).jac) := by
  have hmax : ∀ m ∈ nums, m ≤ nums.foldl max 0 := by
    have key : ∀ (l : List Nat) (a : Nat), a ≤ l.foldl max a ∧ ∀ m ∈ l, m ≤ l.foldl max a := by
      intro l
      induction l with
      | nil => simp
      | cons b l ih =>
        intro a
        rw [List.foldl_cons]
        obtain ⟨h1, h2⟩ := ih (max a b)
        refine ⟨by omega, ?_⟩
        intro m hm
        rcases List.mem_cons.1 hm with rfl | hm
        · omega
        · exact h2 m hm
    exact (key nums 0).2
  have e : accumulatingForLoop body stepJac init nums = (accAfter body stepJac init nums (nums.foldl max 0)).acc := by
    unfold accumulatingForLoop
    simp only
    rw [whileLoop_count _ AccVars.i (fun _ => rfl) _ _ _ (by simp)]
    rfl
  rw [e]
  apply List.ext_getElem?
  intro j
  rw [List.getElem?_map]
  rcases hj : nums[j]? with _ | m
  · simp only [Option.map_none]
    rw [List.getElem?_eq_none_iff] at hj ⊢
    rw [(accAfter_loop body stepJac init nums _).2.2.2.2]
    exact hj
  · rw [Option.map_some, forLoop_eq]
    exact (accAfter_acc body stepJac init nums hs _ j m hj).1 (hmax m (List.mem_of_getElem? hj))

/-- C40: the gradient of the accumulating loop is the derivative of the weighted sum over all requested numbers of iterations. -/
theorem C40_accumulated_gradient (Fs : List (LoopState d × (Fin p → ℝ) → LoopState d)) (x : LoopState d × (Fin p → ℝ))
    (jacs : List (LoopJac d p)) (ws : List (LoopState d))
    (hjac : List.Forall₂ (fun F jac => IsJacobian F x jac) Fs jacs) (hl : ws.length = jacs.length) :
    ∃ L : (LoopState d × (Fin p → ℝ)) →L[ℝ] ℝ,
      HasFDerivAt (fun y => (List.zipWith (fun F w => ∑ i, ∑ a, w i a * F y i a) Fs ws).sum) L x ∧
      ∀ (u : LoopState d) (v : Fin p → ℝ),
        L (u, v) = ∑ j, ∑ b, (accGradient jacs ws).1 j b * u j b + ∑ j, (accGradient jacs ws).2 j * v j := by
  induction hjac generalizing ws with
  | nil =>
    refine ⟨0, ?_, ?_⟩
    · simpa using hasFDerivAt_const (0 : ℝ) x
    · simp [accGradient]
  | cons h hjac ih =>
    rcases ws with _ | ⟨w, ws⟩
    · simp at hl
    · obtain ⟨L, hL, eL⟩ := ih ws (by simpa using hl)
      obtain ⟨L', hL', eL'⟩ := C40_gradient _ x _ h w
      refine ⟨L' + L, ?_, ?_⟩
      · simp only [List.zipWith_cons_cons, List.sum_cons]
        exact hL'.add hL
      · intro u v
        rw [ContinuousLinearMap.add_apply, eL, eL']
        simp only [accGradient, List.zipWith_cons_cons, List.map_cons, List.sum_cons, add_mul, Finset.sum_add_distrib]
        ring

/-- The hypothesis of `C40_jacobian` holds for a state multiplied with a parameter in every step, with the Jacobian
one computes by hand. -/
example (q : Fin 1 → ℝ) (s : LoopState (n := 1) (fun _ => 1)) (i : Nat) :
    IsJacobian (fun y : LoopState (n := 1) (fun _ => 1) × (Fin 1 → ℝ) => (fun (q : Fin 1 → ℝ) (_ : Nat) s j a => q 0 * s j a) y.2 i y.1)
      (s, q) { js := fun _ _ => Matrix.of fun _ _ => q 0
               jp := fun j _ => Matrix.of fun a _ => s j a } := by
  refine ⟨ContinuousLinearMap.pi fun j => ContinuousLinearMap.pi fun a =>
      q 0 • ((ContinuousLinearMap.proj a : (Fin 1 → ℝ) →L[ℝ] ℝ).comp (ContinuousLinearMap.proj j)).comp
        (ContinuousLinearMap.fst ℝ (LoopState (n := 1) (fun _ => 1)) (Fin 1 → ℝ)) +
      s j a • (ContinuousLinearMap.proj 0 : (Fin 1 → ℝ) →L[ℝ] ℝ).comp
        (ContinuousLinearMap.snd ℝ (LoopState (n := 1) (fun _ => 1)) (Fin 1 → ℝ)), ?_, ?_⟩
  · rw [hasFDerivAt_pi]
    intro j
    rw [hasFDerivAt_pi]
    intro a
    have h1 := (((ContinuousLinearMap.proj a : (Fin 1 → ℝ) →L[ℝ] ℝ).comp (ContinuousLinearMap.proj j)).comp
        (ContinuousLinearMap.fst ℝ (LoopState (n := 1) (fun _ => 1)) (Fin 1 → ℝ))).hasFDerivAt (x := (s, q))
    have h2 := ((ContinuousLinearMap.proj 0 : (Fin 1 → ℝ) →L[ℝ] ℝ).comp
        (ContinuousLinearMap.snd ℝ (LoopState (n := 1) (fun _ => 1)) (Fin 1 → ℝ))).hasFDerivAt (x := (s, q))
    exact h2.mul h1
  · intro u v j a
    have ha : a = 0 := Subsingleton.elim _ _
    have hj : j = 0 := Subsingleton.elim _ _
    subst ha hj
    simp

/-- The accumulating loop for the numbers 0, 2, 3: the state doubles and one is added. -/
example : (accumulatingForLoop (n := 1) (d := fun _ => 1) (p := 0) (fun _ s j a => 2 * s j a + 1) (fun _ _ => unitJacobian _ _)
    (fun _ _ => 1) [0, 2, 3]).map (Option.map fun r => r.1 0 0) = [some 1, some 7, some 15] := by
  rw [C40_accumulates _ _ _ _ (by simp)]
  simp only [List.map_cons, List.map_nil, Option.map_some, forLoop, whileLoop, loopBody]
  norm_num

end Props
