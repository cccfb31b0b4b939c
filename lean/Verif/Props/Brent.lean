import Verif.Lemmas.Brent
import Mathlib.Algebra.Order.Field.Rat

/-! # C28 Brent's root search -/

namespace Lemmas
open Model
variable {K : Type} [Field K] [LinearOrder K] [IsStrictOrderedRing K]

theorem brentq_getElem (stop : List Bool → Bool) (N : Nat) (problems : List (BrentParams K × K × K)) (i : Nat)
    (q : BrentParams K × K × K) (hi : problems[i]? = some q) :
    ∃ k, k ≤ N ∧ (brentq stop N problems)[i]? = some (brentResult { q.1 with maxIterations := N }
        ((brentBody { q.1 with maxIterations := N })^[k] (brentInit { q.1 with maxIterations := N } q.2.1 q.2.2))) ∧
      (k = N ∨ stop = stopAll → k = N ∨ ((brentBody { q.1 with maxIterations := N })^[k]
        (brentInit { q.1 with maxIterations := N } q.2.1 q.2.2)).finished = true) := by
  unfold brentq
  obtain ⟨k, h1, h2, h3⟩ := brentLoop_iterate stop N (problems.map (fun q =>
    ({ q.1 with maxIterations := N }, brentInit { q.1 with maxIterations := N } q.2.1 q.2.2)))
  refine ⟨k, h1, ?_, ?_⟩
  · rw [h2]
    simp [hi]
  · intro hs
    rcases h3 with h3 | h3
    · left; exact h3
    · rcases hs with hs | hs
      · left; exact hs
      · right
        rw [h2, hs] at h3
        unfold stopAll at h3
        rw [List.all_eq_true] at h3
        apply h3
        simp only [List.map_map, List.mem_map]
        exact ⟨q, List.mem_of_getElem? hi, rfl⟩

theorem loopInv_iterate (p : BrentParams K) (left right : K) (ha : 0 < p.absTol)
    (hr : 0 ≤ p.relTol) (hft : 0 ≤ p.funTol) (hsign : p.objective left * p.objective right ≤ 0) (k : Nat) :
    BrentLoopInv p p.objective (min left right) (max left right) ((brentBody p)^[k] (brentInit p left right)) := by
  induction k with
  | zero => exact loopInv_init p p.objective left right rfl hft hsign
  | succ k ih =>
    rw [Function.iterate_succ_apply']
    exact loopInv_body p p.objective _ _ rfl ha hr hft _ ih

end Lemmas

namespace Props
open Model Lemmas
variable {K : Type} [Field K] [LinearOrder K] [IsStrictOrderedRing K]

/-- C28: for every objective, every bracket with a sign change and every stopping policy, the estimate stays in the
bracket, the reported value is the objective at the estimate, the number of iterations is bounded, `converged` says exactly
whether the value is within `function_tolerance`, and the objective changes sign between the estimate and another point of
the bracket (or vanishes at the estimate). -/
theorem C28_result (stop : List Bool → Bool) (N : Nat) (problems : List (BrentParams K × K × K)) (i : Nat)
    (p : BrentParams K) (left right : K) (hi : problems[i]? = some (p, left, right)) (ha : 0 < p.absTol)
    (hr : 0 ≤ p.relTol) (hft : 0 ≤ p.funTol) (hsign : p.objective left * p.objective right ≤ 0) :
    ∃ r, (brentq stop N problems)[i]? = some r ∧
      min left right ≤ r.estimatedRoot ∧ r.estimatedRoot ≤ max left right ∧
      r.objectiveAtRoot = p.objective r.estimatedRoot ∧ r.numIterations ≤ N ∧
      (r.converged = true ↔ |p.objective r.estimatedRoot| ≤ p.funTol) ∧
      (p.objective r.estimatedRoot = 0 ∨
        ∃ c, min left right ≤ c ∧ c ≤ max left right ∧ p.objective r.estimatedRoot * p.objective c < 0) := by
  obtain ⟨k, hk, h1, _⟩ := brentq_getElem stop N problems i _ hi
  have inv := loopInv_iterate { p with maxIterations := N } left right ha hr hft hsign k
  refine ⟨_, h1, inv.b.1, inv.b.2, inv.vb, inv.num, ?_, inv.bracket⟩
  unfold brentResult
  simp only [decide_eq_true_eq]
  rw [inv.vb]

/-- C28: with the default stopping policy the search succeeds when it is allowed at least `2 (right - left) /
absolute_root_tolerance` iterations: either the value is within `function_tolerance`, or the objective changes sign
between the estimate and a point closer than `absolute_root_tolerance + relative_root_tolerance * |estimate|`. -/
theorem C28_terminates (N : Nat) (problems : List (BrentParams K × K × K)) (i : Nat)
    (p : BrentParams K) (left right : K) (hi : problems[i]? = some (p, left, right)) (ha : 0 < p.absTol)
    (hr : 0 ≤ p.relTol) (hft : 0 ≤ p.funTol) (hsign : p.objective left * p.objective right ≤ 0)
    (hN : max left right - min left right < N * (p.absTol / 2)) :
    ∃ r, (brentq stopAll N problems)[i]? = some r ∧
      (|p.objective r.estimatedRoot| ≤ p.funTol ∨
        ∃ c, min left right ≤ c ∧ c ≤ max left right ∧ p.objective r.estimatedRoot * p.objective c < 0 ∧
          |c - r.estimatedRoot| < p.absTol + p.relTol * |r.estimatedRoot|) := by
  obtain ⟨k, hk, h1, h2⟩ := brentq_getElem stopAll N problems i _ hi
  have inv := loopInv_iterate { p with maxIterations := N } left right ha hr hft hsign k
  refine ⟨_, h1, ?_⟩
  -- it has stopped
  have hnum : ∀ k : Nat, ((brentBody { p with maxIterations := N })^[k] (brentInit { p with maxIterations := N } left right)).finished = false →
      ((brentBody { p with maxIterations := N })^[k] (brentInit { p with maxIterations := N } left right)).numIterations = k := by
    intro k hf
    rw [iterate_num _ _ _ hf]
    show 0 + k = k
    omega
  have hbound : ∀ k : Nat, ((brentBody { p with maxIterations := N })^[k] (brentInit { p with maxIterations := N } left right)).finished = false →
      k < N := by
    intro k hf
    have inv := loopInv_iterate { p with maxIterations := N } left right ha hr hft hsign k
    rcases inv.width with hw | hw
    · rw [hw] at hf; exact absurd hf (by decide)
    · rw [hnum k hf] at hw
      have : (k : K) * (p.absTol / 2) < N * (p.absTol / 2) := lt_of_le_of_lt hw hN
      have := lt_of_mul_lt_mul_right this (by linarith)
      exact_mod_cast this
  have hfin : ((brentBody { p with maxIterations := N })^[k] (brentInit { p with maxIterations := N } left right)).finished = true := by
    by_contra hc
    have hc' : ((brentBody { p with maxIterations := N })^[k] (brentInit { p with maxIterations := N } left right)).finished = false := by
      simpa using hc
    have hlt := hbound k hc'
    rcases h2 (Or.inr rfl) with h | h
    · omega
    · rw [h] at hc'; exact absurd hc' (by decide)
  rcases inv.stopped hfin with h | h | h
  · left; exact h
  · -- stopping on the iteration count is impossible
    exfalso
    -- the first finished iterate
    have hex : ∃ j, ((brentBody { p with maxIterations := N })^[j] (brentInit { p with maxIterations := N } left right)).finished = true := ⟨k, hfin⟩
    classical
    have hj := Nat.find_spec hex
    have hmin : ∀ j', j' < Nat.find hex → ((brentBody { p with maxIterations := N })^[j'] (brentInit { p with maxIterations := N } left right)).finished = false := by
      intro j' hj'
      have := Nat.find_min hex hj'
      simpa using this
    have hjk : Nat.find hex ≤ k := Nat.find_min' hex hfin
    -- the number of iterations does not grow after finishing
    have hsame : ((brentBody { p with maxIterations := N })^[k] (brentInit { p with maxIterations := N } left right)).numIterations =
        ((brentBody { p with maxIterations := N })^[Nat.find hex] (brentInit { p with maxIterations := N } left right)).numIterations := by
      have := (iterate_finished { p with maxIterations := N } _ hj (k - Nat.find hex)).2
      rw [← Function.iterate_add_apply, show k - Nat.find hex + Nat.find hex = k by omega] at this
      exact congrArg BrentResults.numIterations this
    rw [hsame] at h
    have hN' : ({ p with maxIterations := N } : BrentParams K).maxIterations = N := rfl
    rw [hN'] at h
    cases hz : Nat.find hex with
    | zero =>
      rw [hz] at h
      have h0 : N ≤ 0 := h
      have hpos : (0 : K) ≤ max left right - min left right := sub_nonneg.2 (le_trans (min_le_left _ _) (le_max_left _ _))
      have : N = 0 := by omega
      rw [this] at hN
      simp at hN
    | succ j =>
      have hfj := hmin j (by omega)
      have hltj := hbound j hfj
      rw [hz] at hj h
      rw [Function.iterate_succ_apply'] at hj h
      have hnj := hnum j hfj
      generalize hu : (brentBody { p with maxIterations := N })^[j] (brentInit { p with maxIterations := N } left right) = u at *
      have e3 : (brentBody { p with maxIterations := N } u).numIterations = u.numIterations := by
        obtain ⟨_, _, _, _, _, _, m7⟩ := move_of_finished { p with maxIterations := N } _ hj
        unfold brentBody
        rw [m7, replace_num]
      rw [e3, hnj] at h
      omega
  · right; exact h

/-- C28: with the default stopping policy the result for each element of a batch is the result of searching for it
alone. -/
theorem C28_batch (N : Nat) (problems : List (BrentParams K × K × K)) (i : Nat)
    (q : BrentParams K × K × K) (hi : problems[i]? = some q) :
    (brentq stopAll N problems)[i]? = (brentq stopAll N [q])[0]? := by
  obtain ⟨k, hk, h1, h2⟩ := brentq_getElem stopAll N problems i q hi
  obtain ⟨k', hk', h1', h2'⟩ := brentq_getElem stopAll N [q] 0 q rfl
  rw [h1, h1']
  congr 1
  generalize ({ q.1 with maxIterations := N } : BrentParams K) = p at *
  generalize brentInit p q.2.1 q.2.2 = s at *
  have key : ∀ a b : Nat, a ≤ b → b ≤ N → (a = N ∨ ((brentBody p)^[a] s).finished = true) →
      brentResult p ((brentBody p)^[a] s) = brentResult p ((brentBody p)^[b] s) := by
    intro a b hab hb h
    rcases h with h | h
    · rw [show a = b by omega]
    · have := (iterate_finished p _ h (b - a)).2
      rw [← Function.iterate_add_apply, show b - a + a = b by omega] at this
      exact this.symm
  rcases Nat.le_total k k' with h | h
  · exact key k k' h hk' (h2 (Or.inr rfl))
  · exact (key k' k h hk (h2' (Or.inr rfl))).symm

/-- `x^2 - 2` on `[0, 2]`, with `x - 1/3` in the same batch. -/
def exProblems : List (BrentParams Rat × Rat × Rat) :=
  [({ objective := fun x => x * x - 2, maxIterations := 0, absTol := 1/100, relTol := 1/1000, funTol := 1/10000 }, 0, 2),
   ({ objective := fun x => x - 1/3, maxIterations := 0, absTol := 1/100, relTol := 1/1000, funTol := 0 }, 0, 1)]

/-- The hypotheses of the theorems hold for this batch. -/
example : ∀ q ∈ exProblems, 0 < q.1.absTol ∧ 0 ≤ q.1.relTol ∧ 0 ≤ q.1.funTol ∧
    q.1.objective q.2.1 * q.1.objective q.2.2 ≤ 0 ∧ max q.2.1 q.2.2 - min q.2.1 q.2.2 < 401 * (q.1.absTol / 2) := by
  decide +kernel

/-- The first search stops because the bracket is short, the second because the root is found. -/
example : (brentq stopAll 401 exProblems).map (fun r => (r.estimatedRoot, r.numIterations, r.converged)) =
    [(296801/210000, 4, false), (1/3, 1, true)] := by
  decide +kernel

end Props
