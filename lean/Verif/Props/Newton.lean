import Verif.Model.Newton
import Mathlib.Algebra.Order.Field.Rat
import Mathlib.Algebra.Order.Field.Basic
import Mathlib.Logic.Function.Iterate
import Mathlib.Tactic.Linarith
import Mathlib.Tactic.Ring
import Mathlib.Tactic.FieldSimp
import Mathlib.Tactic.ByContra

/-! # C29 Newton root finder -/

namespace Spec
variable {K : Type} [Field K] [LinearOrder K]

/-- One textbook Newton step `x - f x / f' x`; undefined when something is not finite or the derivative vanishes. -/
def newtonNext (f : K → Option K × Option K) (x : K) : Option K :=
  match f x with
  | (some v, some g) => if g = 0 then none else some (x - v / g)
  | _ => none

/-- The `k`-th Newton iterate from a starting point. -/
def newtonIterate (f : K → Option K × Option K) (x0 : Option K) : Nat → Option K
  | 0 => x0
  | k + 1 => (newtonIterate f x0 k).bind (newtonNext f)

/-- The step from `x` is defined and within the tolerance. -/
def SmallStep (rel tol : K) (f : K → Option K × Option K) (x : K) : Prop :=
  ∃ v g, f x = (some v, some g) ∧ g ≠ 0 ∧ |v / g| < rel * |v| + tol

end Spec

namespace Lemmas
open Model Spec
variable {K : Type} [Field K] [LinearOrder K]

theorem cellUpdate_none (rel tol : K) (f : ValueAndGrad K) (c : NewtonCell K) (h : c.parameter = none) :
    newtonCellUpdate rel tol f c = ⟨none, false, true⟩ := by
  simp [newtonCellUpdate, h, fdiv, flt, fabs, fadd]

theorem cellUpdate_small (rel tol : K) (f : ValueAndGrad K) (c : NewtonCell K) (x : K) (h : c.parameter = some x)
    (hs : SmallStep rel tol f x) : newtonCellUpdate rel tol f c = ⟨some x, true, false⟩ := by
  obtain ⟨v, g, h1, h2, h3⟩ := hs
  simp [newtonCellUpdate, h, h1, fdiv, h2, flt, fabs, fadd, fmul, h3, fneg]

theorem cellUpdate_large (rel tol : K) (f : ValueAndGrad K) (c : NewtonCell K) (x : K) (h : c.parameter = some x)
    (hs : ¬ SmallStep rel tol f x) :
    newtonCellUpdate rel tol f c = ⟨newtonNext f x, false, (newtonNext f x).isNone⟩ := by
  rcases hf : f x with ⟨v, g⟩
  cases v with
  | none => simp [newtonCellUpdate, h, hf, fdiv, flt, fabs, fadd, fmul, newtonNext]
  | some v =>
    cases g with
    | none => simp [newtonCellUpdate, h, hf, fdiv, flt, fabs, fadd, fmul, newtonNext]
    | some g =>
      by_cases hg : g = 0
      · simp [newtonCellUpdate, h, hf, fdiv, flt, fabs, fadd, fmul, newtonNext, hg]
      · have h3 : ¬ |v / g| < rel * |v| + tol := fun h3 => hs ⟨v, g, hf, hg, h3⟩
        simp [newtonCellUpdate, h, hf, fdiv, hg, flt, fabs, fadd, fmul, h3, fneg, newtonNext, sub_eq_add_neg]

/-- What the state of one element looks like after `k` updates. -/
def CellInv (rel tol : K) (f : ValueAndGrad K) (x0 : Option K) (k : Nat) (c : NewtonCell K) : Prop :=
  (c.converged = false ∧ c.parameter = newtonIterate f x0 k ∧ c.failed = c.parameter.isNone ∧
    ∀ (j : Nat) (x : K), j < k → newtonIterate f x0 j = some x → ¬ SmallStep rel tol f x) ∨
  (c.converged = true ∧ c.failed = false ∧ ∃ (j : Nat) (x : K), j < k ∧ newtonIterate f x0 j = some x ∧
    c.parameter = some x ∧ SmallStep rel tol f x ∧
    ∀ (i : Nat) (y : K), i < j → newtonIterate f x0 i = some y → ¬ SmallStep rel tol f y)

theorem cellInv_step (rel tol : K) (f : ValueAndGrad K) (x0 : Option K) (k : Nat) (c : NewtonCell K)
    (h : CellInv rel tol f x0 k c) : CellInv rel tol f x0 (k + 1) (newtonCellUpdate rel tol f c) := by
  rcases h with ⟨h1, h2, h3, h4⟩ | ⟨h1, h2, j, x, h3, h4, h5, h6, h7⟩
  · rcases hp : c.parameter with _ | x
    · rw [cellUpdate_none _ _ _ _ hp]
      left
      refine ⟨rfl, ?_, rfl, ?_⟩
      · simp [newtonIterate, ← h2, hp]
      · intro j y hj hy
        rcases Nat.lt_or_ge j k with hjk | hjk
        · exact h4 j y hjk hy
        · obtain rfl : j = k := by omega
          rw [← h2, hp] at hy; cases hy
    · by_cases hs : SmallStep rel tol f x
      · rw [cellUpdate_small _ _ _ _ x hp hs]
        right
        exact ⟨rfl, rfl, k, x, by omega, by rw [← h2, hp], rfl, hs, h4⟩
      · rw [cellUpdate_large _ _ _ _ x hp hs]
        left
        refine ⟨rfl, ?_, rfl, ?_⟩
        · simp [newtonIterate, ← h2, hp]
        · intro j y hj hy
          rcases Nat.lt_or_ge j k with hjk | hjk
          · exact h4 j y hjk hy
          · obtain rfl : j = k := by omega
            rw [← h2, hp] at hy; cases hy; exact hs
  · rw [cellUpdate_small _ _ _ _ x h5 h6]
    right
    exact ⟨rfl, rfl, j, x, by omega, h4, rfl, h6, h7⟩

/-- A finished element does not change any more. -/
theorem cellInv_finished (rel tol : K) (f : ValueAndGrad K) (x0 : Option K) (k : Nat) (c : NewtonCell K)
    (h : CellInv rel tol f x0 k c) (hfin : (c.converged || c.failed) = true) : newtonCellUpdate rel tol f c = c := by
  rcases h with ⟨h1, h2, h3, h4⟩ | ⟨h1, h2, j, x, h3, h4, h5, h6, h7⟩
  · rw [h1, Bool.false_or, h3, Option.isNone_iff_eq_none] at hfin
    rw [cellUpdate_none _ _ _ _ hfin]
    rcases c with ⟨p, b, d⟩
    simp_all
  · rw [cellUpdate_small _ _ _ _ x h5 h6]
    rcases c with ⟨p, b, d⟩
    simp_all

/-- Cell `i` started at `x`. -/
def cell0 (x : Option K) : NewtonCell K := ⟨x, false, x.isNone⟩

theorem cellInv_iterate (rel tol : K) (f : ValueAndGrad K) (x0 : Option K) (k : Nat) :
    CellInv rel tol f x0 k ((newtonCellUpdate rel tol f)^[k] (cell0 x0)) := by
  induction k with
  | zero => left; exact ⟨rfl, rfl, rfl, fun j x hj => absurd hj (by omega)⟩
  | succ k ih => rw [Function.iterate_succ_apply']; exact cellInv_step _ _ _ _ _ _ ih

theorem iterate_fixed {α : Type} (g : α → α) (x : α) (h : g x = x) (n : Nat) : g^[n] x = x := by
  induction n with
  | zero => rfl
  | succ n ih => rw [Function.iterate_succ_apply, h, ih]

theorem newtonLoop_iterate (rel tol : K) (fs : List (ValueAndGrad K)) (n : Nat) (cells : List (NewtonCell K))
    (hl : fs.length = cells.length) :
    ∃ k, k ≤ n ∧ (k = n ∨ newtonContinue (newtonLoop rel tol fs n cells) = false) ∧
      (newtonLoop rel tol fs n cells).length = cells.length ∧
      ∀ (i : Nat) (f : ValueAndGrad K) (c : NewtonCell K), fs[i]? = some f → cells[i]? = some c →
        (newtonLoop rel tol fs n cells)[i]? = some ((newtonCellUpdate rel tol f)^[k] c) := by
  induction n generalizing cells with
  | zero => exact ⟨0, le_refl _, Or.inl rfl, rfl, fun i f c _ hc => by simpa [newtonLoop] using hc⟩
  | succ n ih =>
    by_cases hc : newtonContinue cells = true
    · obtain ⟨k, h1, h2, h3, h4⟩ := ih (List.zipWith (newtonCellUpdate rel tol) fs cells) (by simp [hl])
      refine ⟨k + 1, by omega, ?_, ?_, ?_⟩
      · rw [newtonLoop, if_pos hc]
        rcases h2 with h2 | h2
        · left; omega
        · right; exact h2
      · rw [newtonLoop, if_pos hc, h3]; simp [hl]
      · intro i f c hf hci
        rw [newtonLoop, if_pos hc, h4 i f (newtonCellUpdate rel tol f c) hf (by simp [List.getElem?_zipWith, hf, hci]),
          Function.iterate_succ_apply]
    · refine ⟨0, by omega, Or.inr ?_, ?_, ?_⟩
      · rw [newtonLoop, if_neg hc]; simpa using hc
      · rw [newtonLoop, if_neg hc]
      · intro i f c hf hci
        rw [newtonLoop, if_neg hc]; simpa using hci

/-- Running the loop on a batch gives each element the state after `maxIterations` of its own updates. -/
theorem rootFinder_cell (rel tol : K) (N : Nat) (fs : List (ValueAndGrad K)) (x0 : List (Option K))
    (hl : fs.length = x0.length) (i : Nat) (f : ValueAndGrad K) (x : Option K) (hf : fs[i]? = some f)
    (hx : x0[i]? = some x) :
    (rootFinder rel tol N fs x0)[i]? = some ((newtonCellUpdate rel tol f)^[N] (cell0 x)) := by
  obtain ⟨k, h1, h2, h3, h4⟩ := newtonLoop_iterate rel tol fs N (x0.map cell0) (by simp [hl])
  have h5 := h4 i f (cell0 x) hf (by simp [hx])
  have h6 : (rootFinder rel tol N fs x0)[i]? = some ((newtonCellUpdate rel tol f)^[k] (cell0 x)) := h5
  rw [h6]
  rcases h2 with h2 | h2
  · rw [h2]
  · have h7 : (((newtonCellUpdate rel tol f)^[k] (cell0 x)).converged ||
        ((newtonCellUpdate rel tol f)^[k] (cell0 x)).failed) = true := by
      unfold newtonContinue at h2
      rw [Bool.not_eq_false', List.all_eq_true] at h2
      exact h2 _ (List.mem_of_getElem? h5)
    have h8 := cellInv_finished rel tol f x k _ (cellInv_iterate rel tol f x k) h7
    obtain ⟨m, rfl⟩ := Nat.exists_eq_add_of_le h1
    rw [Nat.add_comm k m, Function.iterate_add_apply, iterate_fixed _ _ h8]

end Lemmas

namespace Props
open Model Lemmas Spec
variable {K : Type} [Field K] [LinearOrder K]

/-- C29, truthfulness: an element is reported converged exactly when one of its first `N` Newton iterates (counting the
starting point) has a step within the tolerance. The position returned then is the first such iterate, and it has not failed. -/
theorem C29_converged (rel tol : K) (N : Nat) (fs : List (ValueAndGrad K)) (x0 : List (Option K))
    (hl : fs.length = x0.length) (i : Nat) (f : ValueAndGrad K) (x : Option K) (hf : fs[i]? = some f)
    (hx : x0[i]? = some x) :
    ∃ c, (rootFinder rel tol N fs x0)[i]? = some c ∧
      (c.converged = true ↔ ∃ (j : Nat) (y : K), j < N ∧ newtonIterate f x j = some y ∧ SmallStep rel tol f y) ∧
      (c.converged = true → c.failed = false ∧ ∃ (j : Nat) (y : K), j < N ∧ c.parameter = some y ∧
        newtonIterate f x j = some y ∧ SmallStep rel tol f y ∧
        ∀ (k : Nat) (z : K), k < j → newtonIterate f x k = some z → ¬ SmallStep rel tol f z) := by
  refine ⟨_, rootFinder_cell rel tol N fs x0 hl i f x hf hx, ?_⟩
  rcases cellInv_iterate rel tol f x N with ⟨h1, h2, h3, h4⟩ | ⟨h1, h2, j, y, h3, h4, h5, h6, h7⟩
  · rw [h1]
    refine ⟨⟨fun h => (by cases h), ?_⟩, fun h => by cases h⟩
    rintro ⟨j, y, hj, hy, hs⟩
    exact absurd hs (h4 j y hj hy)
  · rw [h1]
    exact ⟨⟨fun _ => ⟨j, y, h3, h4, h6⟩, fun _ => rfl⟩, fun _ => ⟨h2, j, y, h3, h5, h4, h6, h7⟩⟩

/-- C29, unconverged elements: the position is the Newton iterate after exactly the maximum number of iterations, and the
`failed` flag says whether it is not a finite number. -/
theorem C29_not_converged (rel tol : K) (N : Nat) (fs : List (ValueAndGrad K)) (x0 : List (Option K))
    (hl : fs.length = x0.length) (i : Nat) (f : ValueAndGrad K) (x : Option K) (hf : fs[i]? = some f)
    (hx : x0[i]? = some x) (c : NewtonCell K) (hc : (rootFinder rel tol N fs x0)[i]? = some c)
    (hn : c.converged = false) :
    c.parameter = newtonIterate f x N ∧ (c.failed = true ↔ newtonIterate f x N = none) := by
  rw [rootFinder_cell rel tol N fs x0 hl i f x hf hx] at hc
  cases hc
  rcases cellInv_iterate rel tol f x N with ⟨h1, h2, h3, h4⟩ | ⟨h1, h2, j, y, h3, h4, h5, h6, h7⟩
  · refine ⟨h2, ?_⟩
    rw [h3, h2, Option.isNone_iff_eq_none]
  · rw [h1] at hn; cases hn

/-- C29, batches: the result for a batch is the list of the results of the elements run alone. -/
theorem C29_batch (rel tol : K) (N : Nat) (fs : List (ValueAndGrad K)) (x0 : List (Option K))
    (hl : fs.length = x0.length) :
    (rootFinder rel tol N fs x0).length = x0.length ∧
    ∀ (i : Nat) (f : ValueAndGrad K) (x : Option K), fs[i]? = some f → x0[i]? = some x →
      (rootFinder rel tol N fs x0)[i]? = (rootFinder rel tol N [f] [x])[0]? := by
  constructor
  · obtain ⟨k, h1, h2, h3, h4⟩ := newtonLoop_iterate rel tol fs N (x0.map cell0) (by simp [hl])
    rw [List.length_map] at h3
    exact h3
  · intro i f x hf hx
    rw [rootFinder_cell rel tol N fs x0 hl i f x hf hx, rootFinder_cell rel tol N [f] [x] rfl 0 f x rfl rfl]

/-- C29: on a straight line with nonzero slope the root is found from every starting point, in two iterations. -/
theorem C29_line [IsStrictOrderedRing K] (rel tol : K) (hr : 0 ≤ rel) (ht : 0 < tol) (N : Nat) (hN : 2 ≤ N) (a b x : K)
    (ha : a ≠ 0) : ∃ c y, (rootFinder rel tol N [fun t => (some (a * t + b), some a)] [some x])[0]? = some c ∧
      c.converged = true ∧ c.parameter = some y ∧ |(a * y + b) / a| < rel * |a * y + b| + tol := by
  obtain ⟨c, h1, h2, h3⟩ := C29_converged rel tol N [fun t => (some (a * t + b), some a)] [some x] rfl 0 _ _ rfl rfl
  have hconv : c.converged = true := by
    rw [h2]
    refine ⟨1, x - (a * x + b) / a, by omega, ?_, a * (x - (a * x + b) / a) + b, a, rfl, ha, ?_⟩
    · simp [newtonIterate, newtonNext, ha]
    · have h0 : a * (x - (a * x + b) / a) + b = 0 := by field_simp; ring
      rw [h0]; simpa using ht
  obtain ⟨_, j, y, _, hp, _, ⟨v, g, hv, _, hs⟩, _⟩ := h3 hconv
  refine ⟨c, y, h1, hconv, hp, ?_⟩
  simp only [Prod.mk.injEq, Option.some.injEq] at hv
  rw [hv.1, hv.2]; exact hs

/-- A batch in which one element converges, one runs out of iterations and one hits a vanishing derivative. -/
example : rootFinder (0 : Rat) (1/10) 3
    [fun t => (some (t * t - 2), some (2 * t)), fun t => (some (t * t - 100), some (2 * t)),
      fun t => (some (t * t + 1), some (2 * t))] [some 1, some 1, some 1] =
    [⟨some (3/2), true, false⟩, ⟨some (128702801/8565608), false, false⟩, ⟨none, false, true⟩] := by
  decide +kernel

end Props
