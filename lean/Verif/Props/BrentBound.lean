import Verif.Lemmas.BrentBound
import Verif.Props.Brent
import Mathlib.Topology.Order.IntermediateValue
import Mathlib.Topology.Algebra.Order.Field
import Mathlib.Topology.Instances.Real.Lemmas

/-! # C126: the number of iterations of Brent's method is at most quadratic in that of bisection -/

namespace Lemmas
open Model
variable {K : Type} [Field K] [LinearOrder K] [IsStrictOrderedRing K]

/-- If a search that goes on has made at most `B` iterations and more are allowed, it stops for another reason. -/
theorem result_of_bound (N : Nat) (problems : List (BrentParams K × K × K)) (i : Nat)
    (p : BrentParams K) (left right : K) (hi : problems[i]? = some (p, left, right)) (ha : 0 < p.absTol)
    (hr : 0 ≤ p.relTol) (hft : 0 ≤ p.funTol) (hsign : p.objective left * p.objective right ≤ 0) (B : Nat) (hB : B < N)
    (hbound : ∀ k : Nat, ((brentBody { p with maxIterations := N })^[k] (brentInit { p with maxIterations := N } left right)).finished = false →
      k ≤ B) :
    ∃ r, (brentq stopAll N problems)[i]? = some r ∧ r.numIterations ≤ B ∧
      (|p.objective r.estimatedRoot| ≤ p.funTol ∨
        ∃ c, min left right ≤ c ∧ c ≤ max left right ∧ p.objective r.estimatedRoot * p.objective c < 0 ∧
          |c - r.estimatedRoot| < p.absTol + p.relTol * |r.estimatedRoot|) := by
  obtain ⟨k, hk, h1, h2⟩ := brentq_getElem stopAll N problems i _ hi
  have inv := loopInv_iterate { p with maxIterations := N } left right ha hr hft hsign k
  refine ⟨_, h1, ?_⟩
  have hnum : ∀ k : Nat, ((brentBody { p with maxIterations := N })^[k] (brentInit { p with maxIterations := N } left right)).finished = false →
      ((brentBody { p with maxIterations := N })^[k] (brentInit { p with maxIterations := N } left right)).numIterations = k := by
    intro k hf
    rw [iterate_num _ _ _ hf]
    show 0 + k = k
    omega
  -- it has stopped
  have hfin : ((brentBody { p with maxIterations := N })^[k] (brentInit { p with maxIterations := N } left right)).finished = true := by
    by_contra hc
    have hc' : ((brentBody { p with maxIterations := N })^[k] (brentInit { p with maxIterations := N } left right)).finished = false := by
      simpa using hc
    have hlt := hbound k hc'
    rcases h2 (Or.inr rfl) with h | h
    · omega
    · rw [h] at hc'; exact absurd hc' (by decide)
  -- after at most `B` iterations
  have hiter : ((brentBody { p with maxIterations := N })^[k] (brentInit { p with maxIterations := N } left right)).numIterations ≤ B := by
    have hex : ∃ j, ((brentBody { p with maxIterations := N })^[j] (brentInit { p with maxIterations := N } left right)).finished = true := ⟨k, hfin⟩
    classical
    have hj := Nat.find_spec hex
    have hmin : ∀ j', j' < Nat.find hex → ((brentBody { p with maxIterations := N })^[j'] (brentInit { p with maxIterations := N } left right)).finished = false := by
      intro j' hj'
      have := Nat.find_min hex hj'
      simpa using this
    have hjk : Nat.find hex ≤ k := Nat.find_min' hex hfin
    have hsame : ((brentBody { p with maxIterations := N })^[k] (brentInit { p with maxIterations := N } left right)).numIterations =
        ((brentBody { p with maxIterations := N })^[Nat.find hex] (brentInit { p with maxIterations := N } left right)).numIterations := by
      have := (iterate_finished { p with maxIterations := N } _ hj (k - Nat.find hex)).2
      rw [← Function.iterate_add_apply, show k - Nat.find hex + Nat.find hex = k by omega] at this
      exact congrArg BrentResults.numIterations this
    rw [hsame]
    cases hz : Nat.find hex with
    | zero => exact Nat.zero_le _
    | succ j =>
      have hfj := hmin j (by omega)
      have hltj := hbound j hfj
      rw [hz] at hj
      rw [Function.iterate_succ_apply'] at hj ⊢
      have hnj := hnum j hfj
      generalize hu : (brentBody { p with maxIterations := N })^[j] (brentInit { p with maxIterations := N } left right) = u at *
      have e3 : (brentBody { p with maxIterations := N } u).numIterations = u.numIterations := by
        obtain ⟨_, _, _, _, _, _, m7⟩ := move_of_finished { p with maxIterations := N } _ hj
        unfold brentBody
        rw [m7, replace_num]
      rw [e3, hnj]
      exact hltj
  refine ⟨hiter, ?_⟩
  rcases inv.stopped hfin with h | h | h
  · left; exact h
  · exfalso
    have hN' : ({ p with maxIterations := N } : BrentParams K).maxIterations = N := rfl
    rw [hN'] at h
    omega
  · right; exact h

end Lemmas

namespace Props
open Model Lemmas
variable {K : Type} [Field K] [LinearOrder K] [IsStrictOrderedRing K]

/-- C126: if the bracket is at most `2 ^ L` times the absolute tolerance (so that bisection needs about `L` steps), Brent's
search needs at most `(L + 1) * (L + 3)` evaluations inside the bracket, for every function: then it has found a root within the
function tolerance or a sign change within the root tolerance. -/
theorem C126_iterations (N L : Nat) (problems : List (BrentParams K × K × K)) (i : Nat)
    (p : BrentParams K) (left right : K) (hi : problems[i]? = some (p, left, right)) (ha : 0 < p.absTol)
    (hr : 0 ≤ p.relTol) (hr1 : p.relTol < 1) (hft : 0 ≤ p.funTol) (hsign : p.objective left * p.objective right ≤ 0)
    (hL : |right - left| ≤ p.absTol * 2 ^ L) (hN : (L + 1) * (L + 3) < N) :
    ∃ r, (brentq stopAll N problems)[i]? = some r ∧ r.numIterations ≤ (L + 1) * (L + 3) ∧
      (|p.objective r.estimatedRoot| ≤ p.funTol ∨
        ∃ c, min left right ≤ c ∧ c ≤ max left right ∧ p.objective r.estimatedRoot * p.objective c < 0 ∧
          |c - r.estimatedRoot| < p.absTol + p.relTol * |r.estimatedRoot|) := by
  rw [← max_sub_min_eq_abs] at hL
  exact result_of_bound N problems i p left right hi ha hr hft hsign _ hN
    (iterate_bound { p with maxIterations := N } left right L ha hr hr1 hft hL
      (loopInv_iterate { p with maxIterations := N } left right ha hr hft hsign))

/-- C126: for a continuous function the result is then a root within the function tolerance, or within the root tolerance of a
root in the bracket. -/
theorem C126_root (N L : Nat) (problems : List (BrentParams ℝ × ℝ × ℝ)) (i : Nat)
    (p : BrentParams ℝ) (left right : ℝ) (hi : problems[i]? = some (p, left, right)) (ha : 0 < p.absTol)
    (hr : 0 ≤ p.relTol) (hr1 : p.relTol < 1) (hft : 0 ≤ p.funTol) (hsign : p.objective left * p.objective right ≤ 0)
    (hcont : ContinuousOn p.objective (Set.uIcc left right))
    (hL : |right - left| ≤ p.absTol * 2 ^ L) (hN : (L + 1) * (L + 3) < N) :
    ∃ r, (brentq stopAll N problems)[i]? = some r ∧ r.numIterations ≤ (L + 1) * (L + 3) ∧
      (|p.objective r.estimatedRoot| ≤ p.funTol ∨
        ∃ x ∈ Set.uIcc left right, p.objective x = 0 ∧
          |x - r.estimatedRoot| < p.absTol + p.relTol * |r.estimatedRoot|) := by
  obtain ⟨r, h1, h2, h3⟩ := C126_iterations N L problems i p left right hi ha hr hr1 hft hsign hL hN
  refine ⟨r, h1, h2, ?_⟩
  rcases h3 with h3 | ⟨c, c1, c2, c3, c4⟩
  · left; exact h3
  · right
    obtain ⟨r', q1, q2, q3, _⟩ := C28_result stopAll N problems i p left right hi ha hr hft hsign
    rw [h1] at q1
    obtain rfl := Option.some.inj q1
    have hsub : Set.uIcc r.estimatedRoot c ⊆ Set.uIcc left right :=
      Set.uIcc_subset_uIcc ⟨q2, q3⟩ ⟨c1, c2⟩
    have h0 : (0 : ℝ) ∈ Set.uIcc (p.objective r.estimatedRoot) (p.objective c) := by
      rw [Set.mem_uIcc]
      rcases mul_neg_iff.1 c3 with ⟨u1, u2⟩ | ⟨u1, u2⟩
      · exact Or.inr ⟨u2.le, u1.le⟩
      · exact Or.inl ⟨u1.le, u2.le⟩
    obtain ⟨x, x1, x2⟩ := intermediate_value_uIcc (hcont.mono hsub) h0
    refine ⟨x, hsub x1, x2, lt_of_le_of_lt ?_ c4⟩
    exact Set.abs_sub_left_of_mem_uIcc x1

/-- C126: a search with too few iterations is not called converged for that reason: the flag only tells whether the value is
within the function tolerance. Each iteration allowed keeps a bracket, so stopping early is never a wrong answer. -/
theorem C126_early (stop : List Bool → Bool) (N : Nat) (problems : List (BrentParams K × K × K)) (i : Nat)
    (p : BrentParams K) (left right : K) (hi : problems[i]? = some (p, left, right)) (ha : 0 < p.absTol)
    (hr : 0 ≤ p.relTol) (hft : 0 ≤ p.funTol) (hsign : p.objective left * p.objective right ≤ 0) :
    ∃ r, (brentq stop N problems)[i]? = some r ∧
      (r.converged = false → ∃ c, min left right ≤ c ∧ c ≤ max left right ∧ p.objective r.estimatedRoot * p.objective c < 0) := by
  obtain ⟨r, h1, _, _, _, _, h2, h3⟩ := C28_result stop N problems i p left right hi ha hr hft hsign
  refine ⟨r, h1, fun hc => ?_⟩
  rcases h3 with h3 | h3
  · exfalso
    have : r.converged = true := h2.2 (by rw [h3, abs_zero]; exact hft)
    rw [this] at hc; exact absurd hc (by decide)
  · exact h3

/-- A function with a jump at `1 / 3`, on which interpolation is of no help. -/
def exJump : BrentParams ℚ :=
  { objective := fun x => if x < 1 / 3 then -1 else 1, maxIterations := 0, absTol := 1 / 64, relTol := 1 / 1000, funTol := 0 }

/-- The hypotheses hold for it with `L = 6`, which allows for 63 iterations. -/
example : 0 < exJump.absTol ∧ 0 ≤ exJump.relTol ∧ exJump.relTol < 1 ∧ 0 ≤ exJump.funTol ∧
    exJump.objective 0 * exJump.objective 1 ≤ 0 ∧ |(1 : ℚ) - 0| ≤ exJump.absTol * 2 ^ 6 ∧ (6 + 1) * (6 + 3) < 64 := by
  decide +kernel

/-- It stops after 6 iterations, close to the jump and not called converged. -/
example : (brentq stopAll 64 [(exJump, 0, 1)]).map (fun r => (r.estimatedRoot, r.numIterations, r.converged)) =
    [(21 / 64, 6, false)] := by
  decide +kernel

end Props
