import Verif.Lemmas.ParabolicMatrix
import Mathlib.Algebra.Order.Ring.Rat
import Mathlib.Tactic.IntervalCases
import Mathlib.Tactic.NormNum

/-! # C45 One step of the one dimensional finite difference solver -/

namespace Lemmas
open Model Spec

variable {K : Type} [Field K] [LinearOrder K] [IsStrictOrderedRing K]

omit [IsStrictOrderedRing K] in
theorem lowerBc_congr (x u w : Nat → K) (bc : Option K × Option K × K) (h : ∀ i, i < 3 → u i = w i) (hu : LowerBc x u bc) :
    LowerBc x w bc := by
  intro p ⟨h0, h1, h2⟩
  exact hu p ⟨by rw [h0, h 0 (by omega)], by rw [h1, h 1 (by omega)], by rw [h2, h 2 (by omega)]⟩

omit [IsStrictOrderedRing K] in
theorem upperBc_congr (x u w : Nat → K) (k : Nat) (bc : Option K × Option K × K) (h : ∀ i, k ≤ i → i < k + 3 → u i = w i)
    (hu : UpperBc x u k bc) : UpperBc x w k bc := by
  intro p ⟨h0, h1, h2⟩
  exact hu p ⟨by rw [h0, h k (by omega) (by omega)], by rw [h1, h (k + 1) (by omega) (by omega)],
    by rw [h2, h (k + 2) (by omega) (by omega)]⟩

/-- Boundary values can be chosen such that the conditions hold. -/
theorem exists_bc (x : Nat → K) (k : Nat) (hx : Increasing x k) (lower upper : Option (BoundaryFn K)) (t : K)
    (hbc : ProperAt lower upper t) (u : Nat → K) :
    ∃ w : Nat → K, (∀ i, 1 ≤ i → i ≤ k + 2 → w i = u i) ∧ (lower = none → w 0 = u 0) ∧ (upper = none → w (k + 3) = u (k + 3)) ∧
      BcAt x w k lower upper t := by
  have hlo : ∃ a, (lower = none → a = u 0) ∧ ∀ f, lower = some f → ∀ w : Nat → K, w 0 = a → w 1 = u 1 → w 2 = u 2 → LowerBc x w (f t) := by
    cases lower with
    | none => exact ⟨u 0, fun _ => rfl, by simp⟩
    | some f =>
      obtain ⟨y, hy, _⟩ := lower_iff x u (hx 0 (by omega)) (hx 1 (by omega)) (f t) (hbc.lower f rfl)
      refine ⟨y.1 * u 1 + y.2.1 * u 2 + y.2.2, by simp, ?_⟩
      intro g hg w h0 h1 h2
      cases hg
      obtain ⟨y', hy', hiff⟩ := lower_iff x w (hx 0 (by omega)) (hx 1 (by omega)) (f t) (hbc.lower f rfl)
      rw [hy] at hy'
      cases hy'
      rw [hiff, h0, h1, h2]
  have hup : ∃ a, (upper = none → a = u (k + 3)) ∧ ∀ f, upper = some f → ∀ w : Nat → K, w (k + 3) = a → w (k + 2) = u (k + 2) →
      w (k + 1) = u (k + 1) → UpperBc x w (k + 1) (f t) := by
    cases upper with
    | none => exact ⟨u (k + 3), fun _ => rfl, by simp⟩
    | some f =>
      obtain ⟨y, hy, _⟩ := upper_iff x u (k + 1) (hx (k + 1) (by omega)) (hx (k + 2) (by omega)) (f t) (hbc.upper f rfl)
      refine ⟨y.1 * u (k + 2) + y.2.1 * u (k + 1) + y.2.2, by simp, ?_⟩
      intro g hg w h0 h1 h2
      cases hg
      obtain ⟨y', hy', hiff⟩ := upper_iff x w (k + 1) (hx (k + 1) (by omega)) (hx (k + 2) (by omega)) (f t) (hbc.upper f rfl)
      rw [hy] at hy'
      cases hy'
      rw [hiff, show k + 1 + 2 = k + 3 by omega, h0, show k + 1 + 1 = k + 2 by omega, h1, h2]
  obtain ⟨a, ha, hla⟩ := hlo
  obtain ⟨b, hb, hub⟩ := hup
  refine ⟨fun i => if i = 0 then a else if i = k + 3 then b else u i, ?_, ?_, ?_, ⟨?_, ?_⟩⟩
  · intro i h1 h2
    simp only [if_neg (show ¬ i = 0 by omega), if_neg (show ¬ i = k + 3 by omega)]
  · intro h; simpa using ha h
  · intro h; simpa using hb h
  · intro f hf
    refine hla f hf _ rfl ?_ ?_
    · simp only [if_neg (show ¬ (1 : Nat) = 0 by omega), if_neg (show ¬ 1 = k + 3 by omega)]
    · simp only [if_neg (show ¬ (2 : Nat) = 0 by omega), if_neg (show ¬ 2 = k + 3 by omega)]
  · intro f hf
    refine hub f hf _ ?_ ?_ ?_
    · simp only [if_neg (show ¬ k + 3 = 0 by omega), if_true]
    · simp only [if_neg (show ¬ k + 2 = 0 by omega), if_neg (show ¬ k + 2 = k + 3 by omega)]
    · simp only [if_neg (show ¬ k + 1 = 0 by omega), if_neg (show ¬ k + 1 = k + 3 by omega)]

/-- The inner part of the values. -/
theorem innerValues_eq (k : Nat) (v : Nat → K) (lower upper : Option (BoundaryFn K)) :
    (let values := (List.range (k + 4)).map v
     let inner := if lower.isNone then values else values.drop 1
     if upper.isNone then inner else inner.dropLast) =
      (List.range (innerSize k lower upper)).map (fun (j : Nat) => v (lowIndex lower + j)) := by
  cases lower <;> cases upper <;>
    simp only [Option.isNone_none, Option.isNone_some, if_true, Bool.false_eq_true, if_false, innerSize, lowIndex, Nat.zero_add, Nat.add_zero,
      drop_mapRange, dropLast_mapRange, Nat.add_comm 1]

/-- The grid after the step: inner values, and boundary values from the conditions. -/
theorem boundaryAfterStep_spec (x : Nat → K) (k : Nat) (hx : Increasing x k) (lower upper : Option (BoundaryFn K)) (t : K)
    (hbc : ProperAt lower upper t) (out : List K) (hout : out.length = innerSize k lower upper) :
    ∃ w, boundaryAfterStep out (gridDeltas ((List.range (k + 4)).map x)) lower upper t = some w ∧ w.length = k + 4 ∧
      (∀ j, j < innerSize k lower upper → w.getD (lowIndex lower + j) 0 = out.getD j 0) ∧
      BcAt x (fun i => w.getD i 0) k lower upper t := by
  unfold boundaryAfterStep
  rw [deltas_length, deltas_getD _ _ _ (by omega), deltas_getD _ _ _ (by omega), deltas_getD _ _ _ (by omega),
    deltas_getD _ _ _ (by omega)]
  have hN : 2 ≤ out.length := by rw [hout]; unfold innerSize; omega
  have hlo : ∃ a, boundaryValue (x (0 + 1) - x 0) (x (1 + 1) - x 1) (out.getD 0 0) (out.getD 1 0) (lower.map (fun f => f t)) = some a ∧
      (lower = none → a = none) ∧ ∀ f, lower = some f → ∃ z, a = some z ∧ ∀ w : Nat → K, w 0 = z → w 1 = out.getD 0 0 →
        w 2 = out.getD 1 0 → LowerBc x w (f t) := by
    cases lower with
    | none => exact ⟨none, rfl, fun _ => rfl, by simp⟩
    | some f =>
      obtain ⟨y, hy, _⟩ := lower_iff x x (hx 0 (by omega)) (hx 1 (by omega)) (f t) (hbc.lower f rfl)
      refine ⟨some (y.1 * out.getD 0 0 + y.2.1 * out.getD 1 0 + y.2.2), ?_, by simp, ?_⟩
      · simp only [boundaryValue, Option.map_some, Option.elim_some]
        rw [show (0 : Nat) + 1 = 1 from rfl, show (1 : Nat) + 1 = 2 from rfl, hy]; rfl
      · intro g hg
        cases hg
        refine ⟨_, rfl, ?_⟩
        intro w h0 h1 h2
        obtain ⟨y', hy', hiff⟩ := lower_iff x w (hx 0 (by omega)) (hx 1 (by omega)) (f t) (hbc.lower f rfl)
        rw [hy] at hy'
        cases hy'
        rw [hiff, h0, h1, h2]
  have hup : ∃ a, boundaryValue (x (k + 3 - 1 + 1) - x (k + 3 - 1)) (x (k + 3 - 2 + 1) - x (k + 3 - 2)) (out.getD (out.length - 1) 0)
      (out.getD (out.length - 2) 0) (upper.map (fun f => f t)) = some a ∧
      (upper = none → a = none) ∧ ∀ f, upper = some f → ∃ z, a = some z ∧ ∀ w : Nat → K, w (k + 3) = z →
        w (k + 2) = out.getD (out.length - 1) 0 → w (k + 1) = out.getD (out.length - 2) 0 → UpperBc x w (k + 1) (f t) := by
    cases upper with
    | none => exact ⟨none, rfl, fun _ => rfl, by simp⟩
    | some f =>
      obtain ⟨y, hy, _⟩ := upper_iff x x (k + 1) (hx (k + 1) (by omega)) (hx (k + 2) (by omega)) (f t) (hbc.upper f rfl)
      refine ⟨some (y.1 * out.getD (out.length - 1) 0 + y.2.1 * out.getD (out.length - 2) 0 + y.2.2), ?_, by simp, ?_⟩
      · simp only [boundaryValue, Option.map_some, Option.elim_some]
        rw [show k + 3 - 1 = k + 2 by omega, show k + 3 - 2 = k + 1 by omega, show k + 2 + 1 = k + 1 + 2 by omega,
          show k + 2 = k + 1 + 1 by omega, hy]
        rfl
      · intro g hg
        cases hg
        refine ⟨_, rfl, ?_⟩
        intro w h0 h1 h2
        obtain ⟨y', hy', hiff⟩ := upper_iff x w (k + 1) (hx (k + 1) (by omega)) (hx (k + 2) (by omega)) (f t) (hbc.upper f rfl)
        rw [hy] at hy'
        cases hy'
        rw [hiff, show k + 1 + 2 = k + 3 by omega, h0, show k + 1 + 1 = k + 2 by omega, h1, h2]
  obtain ⟨a, ha, han, hla⟩ := hlo
  obtain ⟨b, hb, hbn, hub⟩ := hup
  rw [ha, hb]
  refine ⟨appendEnds a out b, rfl, ?_⟩
  have hget : ∀ j, j < out.length → (appendEnds a out b).getD (a.toList.length + j) 0 = out.getD j 0 := by
    intro j hj
    unfold appendEnds
    rw [List.append_assoc, List.getD_append_right _ _ _ _ (by omega), Nat.add_sub_cancel_left, List.getD_append _ _ _ _ hj]
  have hal : a.toList.length = lowIndex lower := by
    cases lower with
    | none => rw [han rfl]; rfl
    | some f => obtain ⟨z, hz, _⟩ := hla f rfl; rw [hz]; rfl
  have hbl : b.toList.length = if upper.isNone then 0 else 1 := by
    cases upper with
    | none => rw [hbn rfl]; rfl
    | some f => obtain ⟨z, hz, _⟩ := hub f rfl; rw [hz]; rfl
  have hlen : (appendEnds a out b).length = k + 4 := by
    unfold appendEnds
    rw [List.length_append, List.length_append, hal, hbl, hout]
    unfold lowIndex innerSize
    split <;> split <;> omega
  refine ⟨hlen, ?_, ?_, ?_⟩
  · intro j hj
    rw [← hal, hget j (by omega)]
  · intro f hf
    obtain ⟨z, hz, hb2⟩ := hla f hf
    have hl1 : lowIndex lower = 1 := by rw [hf]; rfl
    apply hb2
    · rw [hz]; simp [appendEnds]
    · have := hget 0 (by omega); rw [hal, hl1] at this; exact this
    · have := hget 1 (by omega); rw [hal, hl1] at this; exact this
  · intro f hf
    obtain ⟨z, hz, hb2⟩ := hub f hf
    have hsz : lowIndex lower + out.length = k + 3 := by
      rw [hout, hf]; unfold lowIndex innerSize
      split <;> simp <;> omega
    apply hb2
    · unfold appendEnds
      rw [List.getD_append_right _ _ _ _ (by rw [List.length_append, hal]; omega), List.length_append, hal, hsz, hz]
      simp
    · have := hget (out.length - 1) (by omega)
      rw [hal, show lowIndex lower + (out.length - 1) = k + 2 by omega] at this; exact this
    · have := hget (out.length - 2) (by omega)
      rw [hal, show lowIndex lower + (out.length - 2) = k + 1 by omega] at this; exact this

end Lemmas

namespace Props
open Model Lemmas Spec

variable {K : Type} [Field K] [LinearOrder K] [IsStrictOrderedRing K]

/-- All equations of a weighted step in terms of the matrix entries. -/
theorem step_rows (k : Nat) (x v : Nat → K) (hx : Increasing x k) (c : K → PdeCoeffs K)
    (lower upper : Option (BoundaryFn K)) (theta t1 t2 : K) (hc : OnGrid (c ((t1 + t2) / 2)) (k + 4))
    (hm : ProperAt lower upper ((t1 + t2) / 2)) (h2 : ProperAt lower upper t2) (w : List K)
    (h : parabolicStep t1 t2 ((List.range (k + 4)).map x) ((List.range (k + 4)).map v) lower upper c (weightedScheme theta) = some w) :
    0 ≤ theta ∧ theta ≤ 1 ∧ w.length = k + 4 ∧ BcAt x (fun i => w.getD i 0) k lower upper t2 ∧
    ∀ v' w' : Nat → K, BcAt x v' k lower upper ((t1 + t2) / 2) → BcAt x w' k lower upper ((t1 + t2) / 2) →
      (∀ j, j < innerSize k lower upper → v' (lowIndex lower + j) = v (lowIndex lower + j)) →
      (∀ j, j < innerSize k lower upper → w' (lowIndex lower + j) = w.getD (lowIndex lower + j) 0) →
      ∀ j, j < innerSize k lower upper →
        w' (lowIndex lower + j) - v' (lowIndex lower + j) = (t2 - t1) *
          (theta * (gLo (c ((t1 + t2) / 2)) x k (lowIndex lower + j) * v' (lowIndex lower + j - 1) +
              gDiag (c ((t1 + t2) / 2)) x k (lowIndex lower + j) * v' (lowIndex lower + j) +
              gUp (c ((t1 + t2) / 2)) x k (lowIndex lower + j) * v' (lowIndex lower + j + 1)) +
            (1 - theta) * (gLo (c ((t1 + t2) / 2)) x k (lowIndex lower + j) * w' (lowIndex lower + j - 1) +
              gDiag (c ((t1 + t2) / 2)) x k (lowIndex lower + j) * w' (lowIndex lower + j) +
              gUp (c ((t1 + t2) / 2)) x k (lowIndex lower + j) * w' (lowIndex lower + j + 1))) := by
  unfold parabolicStep at h
  have hin := innerValues_eq k v lower upper
  simp only at hin h
  rw [hin] at h
  simp only [Option.bind_eq_bind, Option.bind_eq_some_iff] at h
  obtain ⟨out, hout, hafter⟩ := h
  obtain ⟨⟨m, b⟩, hp⟩ := equationParams_total x k hx c ((t1 + t2) / 2) lower upper hm
  obtain ⟨v0, _, _, _, hv0⟩ := exists_bc x k hx lower upper ((t1 + t2) / 2) hm v
  obtain ⟨hsz, hbl, _⟩ := equationParams_row x k hx c _ hc lower upper hm m b hp v0 hv0 _ rfl
  have hN : 0 < innerSize k lower upper := by unfold innerSize; omega
  obtain ⟨th0, th1, hol, heq⟩ := weightedScheme_solves theta _ out t1 t2 _ m b (innerSize k lower upper) hN hp hsz hbl (by simp) hout
  obtain ⟨w2, hw2, hwl, hwin, hwbc⟩ := boundaryAfterStep_spec x k hx lower upper t2 h2 out hol
  rw [hw2] at hafter
  cases hafter
  refine ⟨th0, th1, hwl, hwbc, ?_⟩
  intro v' w' hv' hw' hvv hww j hj
  have e1 := (equationParams_row x k hx c _ hc lower upper hm m b hp v' hv' _ rfl).2.2 j hj
  have e2 := (equationParams_row x k hx c _ hc lower upper hm m b hp w' hw' _ rfl).2.2 j hj
  have l1 : (List.range (innerSize k lower upper)).map (fun (j : Nat) => v' (lowIndex lower + j)) =
      (List.range (innerSize k lower upper)).map (fun (j : Nat) => v (lowIndex lower + j)) := ext_mapRange _ _ _ hvv
  have l2 : (List.range (innerSize k lower upper)).map (fun (j : Nat) => w' (lowIndex lower + j)) = out := by
    rw [asRange out _ hol]
    exact ext_mapRange _ _ _ (fun j hj => by rw [hww j hj, hwin j hj])
  rw [l1] at e1
  rw [l2] at e2
  rw [← e1, ← e2, hww j hj, hwin j hj, hvv j hj, ← heq j hj, getD_rangeMap _ _ _ hj]

omit [IsStrictOrderedRing K] in
theorem gRow_inner (c : PdeCoeffs K) (x u : Nat → K) (k i : Nat) (hi : i < k + 2) :
    gLo c x k (i + 1) * u i + gDiag c x k (i + 1) * u (i + 1) + gUp c x k (i + 1) * u (i + 2) =
      entryLo c x i * u i + entryDiag c x i * u (i + 1) + entryUp c x i * u (i + 2) := by
  unfold gLo gDiag gUp
  simp only [if_neg (show ¬ i + 1 = 0 by omega), if_neg (show ¬ i + 1 = k + 3 by omega), Nat.add_sub_cancel]

omit [IsStrictOrderedRing K] in
theorem agree_inner (k : Nat) (lower upper : Option (BoundaryFn K)) (u u' : Nat → K) (h1 : ∀ i, 1 ≤ i → i ≤ k + 2 → u' i = u i)
    (h2 : lower = none → u' 0 = u 0) (h3 : upper = none → u' (k + 3) = u (k + 3)) (j : Nat) (hj : j < innerSize k lower upper) :
    u' (lowIndex lower + j) = u (lowIndex lower + j) := by
  by_cases hi0 : lowIndex lower + j = 0
  · rw [hi0]; apply h2
    unfold lowIndex at hi0
    cases lower with
    | none => rfl
    | some f => simp at hi0
  · by_cases hi1 : lowIndex lower + j ≤ k + 2
    · exact h1 _ (by omega) hi1
    · have hun : upper = none ∧ lowIndex lower + j = k + 3 := by
        unfold innerSize at hj
        unfold lowIndex at hi1 ⊢
        cases lower <;> cases upper <;> simp at hj hi1 ⊢ <;> omega
      rw [hun.2]; exact h3 hun.1

/-- C45: a step with the weighted scheme (implicit, explicit, Crank-Nicolson). The grid is increasing and has at least four points; the
boundary conditions are Dirichlet, Neumann, Robin or default (absent), in any combination. The new values satisfy the boundary conditions
at the new time. Old and new values, completed by boundary values that satisfy the conditions at the mid time, satisfy the difference
equation at every inner point: the derivatives in space are those of the parabolas through three neighbours. -/
theorem C45_step (xs values : List K) (k : Nat) (hxl : xs.length = k + 4) (hvl : values.length = k + 4)
    (hx : ∀ i, i < k + 3 → xs.getD i 0 < xs.getD (i + 1) 0) (c : K → PdeCoeffs K)
    (lower upper : Option (BoundaryFn K)) (theta t1 t2 : K) (hc : OnGrid (c ((t1 + t2) / 2)) (k + 4))
    (hm : ProperAt lower upper ((t1 + t2) / 2)) (h2 : ProperAt lower upper t2) (w : List K)
    (h : parabolicStep t1 t2 xs values lower upper c (weightedScheme theta) = some w) :
    w.length = k + 4 ∧
    (∀ f, lower = some f → LowerBc (fun i => xs.getD i 0) (fun i => w.getD i 0) (f t2)) ∧
    (∀ f, upper = some f → UpperBc (fun i => xs.getD i 0) (fun i => w.getD i 0) (k + 1) (f t2)) ∧
    ∃ v' w' : Nat → K,
      (∀ i, 1 ≤ i → i ≤ k + 2 → v' i = values.getD i 0 ∧ w' i = w.getD i 0) ∧
      (∀ f, lower = some f → LowerBc (fun i => xs.getD i 0) v' (f ((t1 + t2) / 2)) ∧ LowerBc (fun i => xs.getD i 0) w' (f ((t1 + t2) / 2))) ∧
      (∀ f, upper = some f → UpperBc (fun i => xs.getD i 0) v' (k + 1) (f ((t1 + t2) / 2)) ∧
        UpperBc (fun i => xs.getD i 0) w' (k + 1) (f ((t1 + t2) / 2))) ∧
      (lower = none → v' 0 = values.getD 0 0 ∧ w' 0 = w.getD 0 0) ∧
      (upper = none → v' (k + 3) = values.getD (k + 3) 0 ∧ w' (k + 3) = w.getD (k + 3) 0) ∧
      ∀ i, i < k + 2 → ∀ rv rw, PdeAt (c ((t1 + t2) / 2)) (fun i => xs.getD i 0) v' i rv → PdeAt (c ((t1 + t2) / 2)) (fun i => xs.getD i 0) w' i rw →
        w.getD (i + 1) 0 - values.getD (i + 1) 0 = (t2 - t1) * (theta * rv + (1 - theta) * rw) := by
  have exs := asRange xs _ hxl
  have evs := asRange values _ hvl
  rw [exs, evs] at h
  obtain ⟨_, _, hwl, hwbc, heq⟩ := step_rows k (fun i => xs.getD i 0) (fun i => values.getD i 0) hx c lower upper theta t1 t2 hc hm h2 w h
  obtain ⟨v', hv1, hv2, hv3, hv4⟩ := exists_bc (fun i => xs.getD i 0) k hx lower upper ((t1 + t2) / 2) hm (fun i => values.getD i 0)
  obtain ⟨w', hw1, hw2, hw3, hw4⟩ := exists_bc (fun i => xs.getD i 0) k hx lower upper ((t1 + t2) / 2) hm (fun i => w.getD i 0)
  refine ⟨hwl, hwbc.lower, hwbc.upper, v', w', fun i a b => ⟨hv1 i a b, hw1 i a b⟩, fun f hf => ⟨hv4.lower f hf, hw4.lower f hf⟩,
    fun f hf => ⟨hv4.upper f hf, hw4.upper f hf⟩, fun hn => ⟨hv2 hn, hw2 hn⟩, fun hn => ⟨hv3 hn, hw3 hn⟩, ?_⟩
  intro i hi rv rw hrv hrw
  have e := heq v' w' hv4 hw4 (agree_inner k lower upper _ _ hv1 hv2 hv3) (agree_inner k lower upper _ _ hw1 hw2 hw3) (i + 1 - lowIndex lower) (by
    unfold innerSize lowIndex; split <;> omega)
  have hidx : lowIndex lower + (i + 1 - lowIndex lower) = i + 1 := by unfold lowIndex; split <;> omega
  rw [hidx] at e
  simp only [Nat.add_sub_cancel] at e
  rw [show i + 1 + 1 = i + 2 from rfl, gRow_inner _ _ _ _ _ hi, gRow_inner _ _ _ _ _ hi] at e
  rw [pdeAt_unique _ _ _ _ (hx i (by omega)) (hx (i + 1) (by omega)) rv hrv, pdeAt_unique _ _ _ _ (hx i (by omega)) (hx (i + 1) (by omega)) rw hrw,
    ← hv1 (i + 1) (by omega) (by omega), ← hw1 (i + 1) (by omega) (by omega)]
  exact e

/-- C45, default boundary condition (absent): at the boundary point the equation without the second derivative holds, with a one-sided
difference. What is missing: this holds only if the two steps of the grid next to the boundary are equal, see
`C45_default_lower_spacing`. -/
theorem C45_default_partial (xs values : List K) (k : Nat) (hxl : xs.length = k + 4) (hvl : values.length = k + 4)
    (hx : ∀ i, i < k + 3 → xs.getD i 0 < xs.getD (i + 1) 0) (c : K → PdeCoeffs K)
    (lower upper : Option (BoundaryFn K)) (theta t1 t2 : K) (hc : OnGrid (c ((t1 + t2) / 2)) (k + 4))
    (hm : ProperAt lower upper ((t1 + t2) / 2)) (h2 : ProperAt lower upper t2) (w : List K)
    (h : parabolicStep t1 t2 xs values lower upper c (weightedScheme theta) = some w) :
    (lower = none → xs.getD 2 0 - xs.getD 1 0 = xs.getD 1 0 - xs.getD 0 0 →
      w.getD 0 0 - values.getD 0 0 = (t2 - t1) * (theta * DefaultLower (c ((t1 + t2) / 2)) (fun i => xs.getD i 0) (fun i => values.getD i 0) +
        (1 - theta) * DefaultLower (c ((t1 + t2) / 2)) (fun i => xs.getD i 0) (fun i => w.getD i 0))) ∧
    (upper = none → xs.getD (k + 2) 0 - xs.getD (k + 1) 0 = xs.getD (k + 3) 0 - xs.getD (k + 2) 0 →
      w.getD (k + 3) 0 - values.getD (k + 3) 0 = (t2 - t1) *
        (theta * DefaultUpper (c ((t1 + t2) / 2)) (fun i => xs.getD i 0) (fun i => values.getD i 0) k +
        (1 - theta) * DefaultUpper (c ((t1 + t2) / 2)) (fun i => xs.getD i 0) (fun i => w.getD i 0) k)) := by
  have exs := asRange xs _ hxl
  have evs := asRange values _ hvl
  rw [exs, evs] at h
  obtain ⟨_, _, hwl, hwbc, heq⟩ := step_rows k (fun i => xs.getD i 0) (fun i => values.getD i 0) hx c lower upper theta t1 t2 hc hm h2 w h
  obtain ⟨v', hv1, hv2, hv3, hv4⟩ := exists_bc (fun i => xs.getD i 0) k hx lower upper ((t1 + t2) / 2) hm (fun i => values.getD i 0)
  obtain ⟨w', hw1, hw2, hw3, hw4⟩ := exists_bc (fun i => xs.getD i 0) k hx lower upper ((t1 + t2) / 2) hm (fun i => w.getD i 0)
  have key := heq v' w' hv4 hw4 (agree_inner k lower upper _ _ hv1 hv2 hv3) (agree_inner k lower upper _ _ hw1 hw2 hw3)
  constructor
  · intro hn hs
    have e := key 0 (by unfold innerSize; omega)
    have hi : lowIndex lower = 0 := by rw [hn]; rfl
    rw [hi] at e
    simp only [Nat.add_zero, Nat.zero_add, gLo, gUp, gDiag, if_true, zero_mul, zero_add] at e
    rw [hv2 hn, hw2 hn, hv1 1 (by omega) (by omega), hw1 1 (by omega) (by omega), hs] at e
    rw [e]
    unfold DefaultLower
    ring
  · intro hn hs
    have hi : lowIndex lower + (k + 3 - lowIndex lower) = k + 3 := by unfold lowIndex; split <;> omega
    have e := key (k + 3 - lowIndex lower) (by rw [hn]; unfold innerSize lowIndex; simp; split <;> omega)
    rw [hi] at e
    simp only [gLo, gUp, gDiag, if_neg (show ¬ k + 3 = 0 by omega), if_true, zero_mul, add_zero, show k + 3 - 1 = k + 2 by omega] at e
    rw [hv3 hn, hw3 hn, hv1 (k + 2) (by omega) (by omega), hw1 (k + 2) (by omega) (by omega), hs] at e
    rw [e]
    unfold DefaultUpper
    ring

/-- C45, deviation: on every grid whose first two steps differ, the default condition at the lower boundary is wrong. The equation
is `V_t + V_x = 0` with the solution `V = x - (t - t1)`; an explicit step of any size gives another value at the boundary. -/
theorem C45_default_lower_spacing (xs : List K) (k : Nat) (hxl : xs.length = k + 4) (hx : ∀ i, i < k + 3 → xs.getD i 0 < xs.getD (i + 1) 0)
    (hs : xs.getD 2 0 - xs.getD 1 0 ≠ xs.getD 1 0 - xs.getD 0 0) (upper : Option (BoundaryFn K)) (t1 t2 : K) (ht : t1 ≠ t2)
    (hm : ProperAt none upper ((t1 + t2) / 2)) (h2 : ProperAt none upper t2) (w : List K)
    (h : parabolicStep t1 t2 xs xs none upper (fun _ => ⟨none, some (List.replicate (k + 4) 1), none, none, none⟩) explicitScheme = some w) :
    w.getD 0 0 ≠ xs.getD 0 0 - (t2 - t1) := by
  have exs := asRange xs _ hxl
  rw [exs] at h
  have hc : OnGrid (⟨none, some (List.replicate (k + 4) (1 : K)), none, none, none⟩ : PdeCoeffs K) (k + 4) :=
    ⟨by simp, by rintro l h; cases h; simp, by simp, by simp, by simp⟩
  obtain ⟨_, _, hwl, hwbc, heq⟩ := step_rows k (fun i => xs.getD i 0) (fun i => xs.getD i 0) hx _ none upper 1 t1 t2 hc hm h2 w h
  obtain ⟨v', hv1, hv2, hv3, hv4⟩ := exists_bc (fun i => xs.getD i 0) k hx none upper ((t1 + t2) / 2) hm (fun i => xs.getD i 0)
  obtain ⟨w', hw1, hw2, hw3, hw4⟩ := exists_bc (fun i => xs.getD i 0) k hx none upper ((t1 + t2) / 2) hm (fun i => w.getD i 0)
  have e := heq v' w' hv4 hw4 (agree_inner k none upper _ _ hv1 hv2 hv3) (agree_inner k none upper _ _ hw1 hw2 hw3) 0 (by unfold innerSize; omega)
  have hi : lowIndex (none : Option (BoundaryFn K)) = 0 := rfl
  rw [hi] at e
  simp only [Nat.add_zero, Nat.zero_add, gLo, gUp, gDiag, if_true, zero_mul, zero_add] at e
  rw [hv2 rfl, hw2 rfl, hv1 1 (by omega) (by omega), hw1 1 (by omega) (by omega)] at e
  simp [innerAt, outerAt] at e
  simp only [← List.getD_eq_getElem?_getD] at e
  intro hc
  rw [hc] at e
  have hpos := sub_pos.mpr (hx 1 (by omega))
  have hne : t2 - t1 ≠ 0 := sub_ne_zero.mpr (Ne.symm ht)
  apply hs
  have h0 : xs.getD 2 0 - xs.getD 1 0 ≠ 0 := ne_of_gt hpos
  generalize xs.getD 2 0 - xs.getD 1 0 = d at *
  field_simp at e
  have e2 : (t2 - t1) * d = (t2 - t1) * (xs.getD 1 0 - xs.getD 0 0) := by linear_combination -e
  exact mul_left_cancel₀ hne e2

/-- C45: grid functions that satisfy the difference equation for the weighted mean are reproduced exactly. In particular steady solutions
that are parabolas are kept by every scheme, and Crank-Nicolson is exact for solutions that are linear in time and parabolas in space. -/
theorem C45_exact (x v w : Nat → K) (k : Nat) (hx : ∀ i, i < k + 3 → x i < x (i + 1)) (c : K → PdeCoeffs K)
    (f g : BoundaryFn K) (theta t1 t2 : K) (hc : OnGrid (c ((t1 + t2) / 2)) (k + 4))
    (hm : ProperBc (f ((t1 + t2) / 2)) ∧ ProperBc (g ((t1 + t2) / 2))) (h2 : ProperBc (f t2) ∧ ProperBc (g t2))
    (hbm : LowerBc x (fun i => theta * v i + (1 - theta) * w i) (f ((t1 + t2) / 2)) ∧
      UpperBc x (fun i => theta * v i + (1 - theta) * w i) (k + 1) (g ((t1 + t2) / 2)))
    (hb2 : LowerBc x w (f t2) ∧ UpperBc x w (k + 1) (g t2))
    (heq : ∀ i, i < k + 2 → ∃ r, PdeAt (c ((t1 + t2) / 2)) x (fun i => theta * v i + (1 - theta) * w i) i r ∧
      w (i + 1) - v (i + 1) = (t2 - t1) * r) (z : List K)
    (h : parabolicStep t1 t2 ((List.range (k + 4)).map x) ((List.range (k + 4)).map v) (some f) (some g) c (weightedScheme theta) = some z) :
    z = (List.range (k + 4)).map w := by
  have hpm : ProperAt (some f) (some g) ((t1 + t2) / 2) := ⟨by rintro _ ⟨⟩; exact hm.1, by rintro _ ⟨⟩; exact hm.2⟩
  have hp2 : ProperAt (some f) (some g) t2 := ⟨by rintro _ ⟨⟩; exact h2.1, by rintro _ ⟨⟩; exact h2.2⟩
  unfold parabolicStep at h
  have hin := innerValues_eq k v (some f) (some g)
  simp only at hin h
  rw [hin] at h
  simp only [Option.bind_eq_bind, Option.bind_eq_some_iff] at h
  obtain ⟨out, hout, hafter⟩ := h
  obtain ⟨⟨m, b⟩, hp⟩ := equationParams_total x k hx c ((t1 + t2) / 2) (some f) (some g) hpm
  obtain ⟨hsz, hbl, hrow⟩ := equationParams_row x k hx c _ hc _ _ hpm m b hp (fun i => theta * v i + (1 - theta) * w i)
    ⟨by rintro _ ⟨⟩; exact hbm.1, by rintro _ ⟨⟩; exact hbm.2⟩ _ rfl
  have hN : innerSize k (some f) (some g) = k + 2 := by simp [innerSize]
  have hl : lowIndex (some f) = 1 := rfl
  rw [hN, hl] at hrow
  rw [hN] at hsz hbl hout
  rw [hl] at hout
  have e := weightedScheme_unique theta _ out t1 t2 _ m b (k + 2) (by omega) hp hsz hbl (by simp) hout
    ((List.range (k + 2)).map (fun (j : Nat) => w (1 + j))) (by simp) (by
      intro j hj
      obtain ⟨r, hr, hwr⟩ := heq j hj
      have e1 := hrow j hj
      have e2 := pdeAt_unique _ _ _ _ (hx j (by omega)) (hx (j + 1) (by omega)) r hr
      have e3 := gRow_inner (c ((t1 + t2) / 2)) x (fun i => theta * v i + (1 - theta) * w i) k j hj
      rw [getD_rangeMap _ _ _ hj, getD_rangeMap _ _ _ hj, Nat.add_comm 1 j, hwr, e2]
      rw [Nat.add_comm 1 j, Nat.add_sub_cancel, show j + 1 + 1 = j + 2 from rfl, e3] at e1
      rw [← e1]
      have lin : rowApply m ((List.range (k + 2)).map (fun (j : Nat) => theta * v (1 + j) + (1 - theta) * w (1 + j))) j =
          theta * rowApply m ((List.range (k + 2)).map (fun (j : Nat) => v (1 + j))) j +
            (1 - theta) * rowApply m ((List.range (k + 2)).map (fun (j : Nat) => w (1 + j))) j := by
        have gl : ∀ i, ((List.range (k + 2)).map (fun (j : Nat) => theta * v (1 + j) + (1 - theta) * w (1 + j))).getD i 0 =
            theta * ((List.range (k + 2)).map (fun (j : Nat) => v (1 + j))).getD i 0 +
              (1 - theta) * ((List.range (k + 2)).map (fun (j : Nat) => w (1 + j))).getD i 0 := by
          intro i
          by_cases hi : i < k + 2
          · rw [getD_rangeMap _ _ _ hi, getD_rangeMap _ _ _ hi, getD_rangeMap _ _ _ hi]
          · rw [List.getD_eq_default _ _ (by simp; omega), List.getD_eq_default _ _ (by simp; omega), List.getD_eq_default _ _ (by simp; omega)]
            ring
        unfold rowApply
        rw [gl, gl, gl]
        split <;> ring
      rw [lin]
      ring)
  obtain ⟨w2, hw2, hwl, hwin, hwbc⟩ := boundaryAfterStep_spec x k hx (some f) (some g) t2 hp2 out (by rw [e, hN]; simp)
  rw [hw2] at hafter
  cases hafter
  rw [hN, hl] at hwin
  have hin2 : ∀ i, 1 ≤ i → i ≤ k + 2 → z.getD i 0 = w i := by
    intro i h1 h2
    have := hwin (i - 1) (by omega)
    rw [show 1 + (i - 1) = i by omega, e, getD_rangeMap _ _ _ (by omega), show 1 + (i - 1) = i by omega] at this
    exact this
  rw [asRange z _ hwl]
  apply ext_mapRange
  intro i hi
  by_cases h0 : i = 0
  · subst h0
    obtain ⟨y, hy, hiff⟩ := lower_iff x (fun i => z.getD i 0) (hx 0 (by omega)) (hx 1 (by omega)) (f t2) h2.1
    obtain ⟨y', hy', hiff'⟩ := lower_iff x w (hx 0 (by omega)) (hx 1 (by omega)) (f t2) h2.1
    rw [hy] at hy'
    cases hy'
    rw [hiff.mp (hwbc.lower f rfl), hiff'.mp hb2.1, hin2 1 (by omega) (by omega), hin2 2 (by omega) (by omega)]
  · by_cases h3 : i = k + 3
    · subst h3
      obtain ⟨y, hy, hiff⟩ := upper_iff x (fun i => z.getD i 0) (k + 1) (hx (k + 1) (by omega)) (hx (k + 2) (by omega)) (g t2) h2.2
      obtain ⟨y', hy', hiff'⟩ := upper_iff x w (k + 1) (hx (k + 1) (by omega)) (hx (k + 2) (by omega)) (g t2) h2.2
      rw [hy] at hy'
      cases hy'
      have a1 := hiff.mp (hwbc.upper g rfl)
      have a2 := hiff'.mp hb2.2
      simp only [show k + 1 + 2 = k + 3 by omega, show k + 1 + 1 = k + 2 by omega] at a1 a2
      rw [a1, a2, hin2 (k + 2) (by omega) (by omega), hin2 (k + 1) (by omega) (by omega)]
    · exact hin2 i (by omega) (by omega)

/-- Crank-Nicolson for `V_t + V_xx = 0` on a non-uniform grid with Dirichlet and Neumann conditions, from `V = x^2` at time 1 to
`V = x^2 + 2` at time 0. -/
example : parabolicStep (1 : Rat) 0 [0, 1, 3, 4] [0, 1, 9, 16] (some fun t => (some 1, none, 2 - 2 * t)) (some fun _ => (none, some 1, 8))
    (fun _ => ⟨some [1, 1, 1, 1], none, none, none, none⟩) crankNicolsonScheme = some [2, 3, 11, 18] := by decide +kernel

/-- The default condition for `V_t + V_x = 0` with `V = x` at time 0: at time 1 the value at the lower boundary should be -1. -/
example : parabolicStep (0 : Rat) 1 [0, 1, 3, 4] [0, 1, 3, 4] none none
    (fun _ => ⟨none, some [1, 1, 1, 1], none, none, none⟩) explicitScheme = some [-1 / 2, 0, 2, 7 / 2] := by decide +kernel

end Props
