import Verif.Model.Parabolic
import Mathlib.Algebra.Order.Floor.Ring
import Mathlib.Algebra.Order.Ring.Rat
import Mathlib.Data.Rat.Floor
import Mathlib.Tactic.Linarith
import Mathlib.Tactic.FieldSimp
import Mathlib.Tactic.NormNum

/-! # C47 The time grid of the finite difference solvers -/

namespace Spec

variable {K : Type}

/-- `n` steps on the time grid `times i, times (i + 1), ..`; step number `i` gets the counter `k0 + i`, and the transformation is
applied after each step, at the new time. -/
def march {G : Type} (step : K → K → Nat → G → Option G) (transform : Option (K → G → G)) (times : Nat → K) (k0 : Nat) :
    Nat → Nat → G → Option G
  | _, 0, g => some g
  | i, n + 1, g => (step (times i) (times (i + 1)) (k0 + i) g).bind fun g =>
      march step transform times k0 (i + 1) n (transform.elim g (fun f => f (times (i + 1)) g))

end Spec

namespace Lemmas
open Model Spec

variable {K : Type} [Field K] [LinearOrder K]

theorem solveLoop_march {G : Type} (direction : K → K → Bool × K) (timeStep : K → K) (step : K → K → Nat → G → Option G)
    (transform : Option (K → G → G)) (times : Nat → K) (N k0 : Nat)
    (h : ∀ i, i < N → direction (times i) (timeStep (times i)) = (decide (i + 1 = N), times (i + 1)))
    (n i : Nat) (hn : i + n = N) (g : G) :
    solveLoop direction timeStep step transform n (decide (i = N)) (times i) g (k0 + i) =
      (march step transform times k0 i n g).map (fun g => (g, times N, k0 + N)) := by
  induction n generalizing i g with
  | zero =>
    rw [Nat.add_zero] at hn
    subst hn
    rfl
  | succ n ih =>
    unfold solveLoop march
    have hi : i < N := by omega
    rw [if_neg (by simp; omega), h i hi]
    simp only [Option.bind_eq_bind]
    cases step (times i) (times (i + 1)) (k0 + i) g with
    | none => rfl
    | some g' =>
      simp only [Option.bind_some]
      exact ih (i + 1) (by omega) _

variable [IsStrictOrderedRing K]

theorem timeBackward_grid (s e dt : K) (N : Nat) (hlt : ∀ i : Nat, i < N → e < s - i * dt) (hN : s - N * dt ≤ e) (i : Nat) (hi : i < N) :
    timeBackward e (if i < N then s - i * dt else e) dt = (decide (i + 1 = N), if i + 1 < N then s - ((i + 1 : Nat) : K) * dt else e) := by
  unfold timeBackward
  rw [if_pos hi]
  have e1 : s - (i : K) * dt - dt = s - ((i + 1 : Nat) : K) * dt := by push_cast; ring
  rw [e1]
  by_cases h : i + 1 < N
  · rw [if_pos h, max_eq_right (hlt _ h).le, decide_eq_false (not_le.2 (hlt _ h)), decide_eq_false (by omega)]
  · have h2 : i + 1 = N := by omega
    rw [if_neg h, h2, max_eq_left hN]
    simp

theorem timeForward_grid (s e dt : K) (N : Nat) (hlt : ∀ i : Nat, i < N → s + i * dt < e) (hN : e ≤ s + N * dt) (i : Nat) (hi : i < N) :
    timeForward e (if i < N then s + i * dt else e) dt = (decide (i + 1 = N), if i + 1 < N then s + ((i + 1 : Nat) : K) * dt else e) := by
  unfold timeForward
  rw [if_pos hi]
  have e1 : s + (i : K) * dt + dt = s + ((i + 1 : Nat) : K) * dt := by push_cast; ring
  rw [e1]
  by_cases h : i + 1 < N
  · rw [if_pos h, min_eq_right (hlt _ h).le, decide_eq_false (not_le.2 (hlt _ h)), decide_eq_false (by omega)]
  · have h2 : i + 1 = N := by omega
    rw [if_neg h, h2, min_eq_left hN]
    simp

/-- `N` steps of length `dt` cover an interval of length `d`, and `N - 1` do not. -/
theorem ceil_cover [FloorRing K] (d dt : K) (hd : 0 ≤ d) (hdt : 0 < dt) :
    (∀ i : Nat, i < ⌈d / dt⌉.toNat → (i : K) * dt < d) ∧ d ≤ (⌈d / dt⌉.toNat : K) * dt := by
  have h0 : 0 ≤ ⌈d / dt⌉ := Int.ceil_nonneg (div_nonneg hd hdt.le)
  have hcast : ((⌈d / dt⌉.toNat : Nat) : K) = (⌈d / dt⌉ : K) := by
    have : ((⌈d / dt⌉.toNat : Nat) : Int) = ⌈d / dt⌉ := Int.toNat_of_nonneg h0
    exact_mod_cast congrArg (fun z : Int => (z : K)) this
  constructor
  · intro i hi
    rw [← lt_div_iff₀ hdt]
    have : (i : Int) < ⌈d / dt⌉ := by omega
    exact_mod_cast Int.lt_ceil.1 this
  · rw [hcast, ← div_le_iff₀ hdt]
    exact Int.le_ceil _

/-- `n` steps of length `d / n`. -/
theorem equal_cover (d : K) (n : Nat) (hd : 0 < d) (hn : 0 < n) : (∀ i : Nat, i < n → (i : K) * (d / n) < d) ∧ d ≤ (n : K) * (d / n) := by
  have hn' : (0 : K) < n := by exact_mod_cast hn
  constructor
  · intro i hi
    have hi' : (i : K) < n := by exact_mod_cast hi
    calc (i : K) * (d / n) < n * (d / n) := mul_lt_mul_of_pos_right hi' (div_pos hd hn')
      _ = d := by field_simp
  · exact le_of_eq (by field_simp)

theorem solveLoop_stop {G : Type} (direction : K → K → Bool × K) (timeStep : K → K) (step : K → K → Nat → G → Option G)
    (transform : Option (K → G → G)) (n : Nat) (t : K) (g : G) (k : Nat) : solveLoop direction timeStep step transform n true t g k = some (g, t, k) := by
  cases n <;> rfl

end Lemmas

namespace Props
open Model Lemmas Spec

variable {K : Type} [Field K] [LinearOrder K] [IsStrictOrderedRing K] [FloorRing K] {G : Type}

/-- C47, backward with a constant step: the steps begin at `start`, `start - dt`, .., they are all of length `dt` except that the last
one ends exactly at `end`; there are `⌈(start - end) / dt⌉` of them. -/
theorem C47_backward_dt (s e dt : K) (he : 0 ≤ e) (hse : e ≤ s) (hdt : 0 < dt) (g : G) (k0 : Nat) (step : K → K → Nat → G → Option G)
    (transform : Option (K → G → G)) :
    solveBackward s e g none k0 (some (.const dt)) step transform =
      (march step transform (fun i => if i < ⌈(s - e) / dt⌉.toNat then s - i * dt else e) k0 0 ⌈(s - e) / dt⌉.toNat g).map
        (fun g => (g, e, k0 + ⌈(s - e) / dt⌉.toNat)) := by
  unfold solveBackward solveWith
  rw [min_eq_left hse, max_eq_left he]
  simp only
  have habs : |e - s| = s - e := by rw [abs_of_nonpos (by linarith)]; ring
  rw [habs]
  obtain ⟨h1, h2⟩ := ceil_cover (s - e) dt (by linarith) hdt
  generalize hNdef : ⌈(s - e) / dt⌉.toNat = N at *
  have key := solveLoop_march (timeBackward e) (fun _ => dt) step transform (fun i => if i < N then s - i * dt else e) N k0
    (fun i hi => timeBackward_grid s e dt N (fun i hi => by linarith [h1 i hi]) (by linarith) i hi) N 0 (by omega) g
  simp only [if_neg (lt_irrefl N), Nat.add_zero] at key
  rw [← key]
  by_cases hN : N = 0
  · have : s = e := by
      rw [hN] at h2; simp at h2; linarith
    rw [hN, this]
    rfl
  · have h3 : s ≠ e := by
      have := h1 0 (by omega)
      simp at this
      exact this.ne'
    rw [if_pos (by omega), decide_eq_false h3, decide_eq_false (Ne.symm hN)]
    simp

/-- C47, backward with a number of steps: `n` equal steps from `start` to `end`. -/
theorem C47_backward_steps (s e : K) (he : 0 ≤ e) (hse : e < s) (n : Nat) (hn : 0 < n) (g : G) (k0 : Nat) (step : K → K → Nat → G → Option G)
    (transform : Option (K → G → G)) :
    solveBackward s e g (some n) k0 none step transform =
      (march step transform (fun i => if i < n then s - i * ((s - e) / n) else e) k0 0 n g).map (fun g => (g, e, k0 + n)) := by
  unfold solveBackward solveWith
  rw [min_eq_left hse.le, max_eq_left he]
  simp only
  have habs : |e - s| = s - e := by rw [abs_of_nonpos (by linarith)]; ring
  rw [habs]
  obtain ⟨h1, h2⟩ := equal_cover (s - e) n (by linarith) hn
  have key := solveLoop_march (timeBackward e) (fun _ => (s - e) / n) step transform (fun i => if i < n then s - i * ((s - e) / n) else e) n k0
    (fun i hi => timeBackward_grid s e _ n (fun i hi => by linarith [h1 i hi]) (by linarith) i hi) n 0 (by omega) g
  simp only [if_neg (lt_irrefl n), Nat.add_zero] at key
  rw [← key, if_pos hn, decide_eq_false hse.ne', decide_eq_false (by omega)]
  simp

/-- C47, forward with a constant step. -/
theorem C47_forward_dt (s e dt : K) (hse : s ≤ e) (hdt : 0 < dt) (g : G) (k0 : Nat) (step : K → K → Nat → G → Option G)
    (transform : Option (K → G → G)) :
    solveForward s e g none k0 (some (.const dt)) step transform =
      (march step transform (fun i => if i < ⌈(e - s) / dt⌉.toNat then s + i * dt else e) k0 0 ⌈(e - s) / dt⌉.toNat g).map
        (fun g => (g, e, k0 + ⌈(e - s) / dt⌉.toNat)) := by
  unfold solveForward solveWith
  rw [max_eq_left hse]
  simp only
  have habs : |e - s| = e - s := abs_of_nonneg (by linarith)
  rw [habs]
  obtain ⟨h1, h2⟩ := ceil_cover (e - s) dt (by linarith) hdt
  generalize hNdef : ⌈(e - s) / dt⌉.toNat = N at *
  have key := solveLoop_march (timeForward e) (fun _ => dt) step transform (fun i => if i < N then s + i * dt else e) N k0
    (fun i hi => timeForward_grid s e dt N (fun i hi => by linarith [h1 i hi]) (by linarith) i hi) N 0 (by omega) g
  simp only [if_neg (lt_irrefl N), Nat.add_zero] at key
  rw [← key]
  by_cases hN : N = 0
  · have : s = e := by
      rw [hN] at h2; simp at h2; linarith
    rw [hN, this]
    rfl
  · have h3 : s ≠ e := by
      have := h1 0 (by omega)
      simp at this
      exact this.ne
    rw [if_pos (by omega), decide_eq_false h3, decide_eq_false (Ne.symm hN)]
    simp

/-- C47, forward with a number of steps. -/
theorem C47_forward_steps (s e : K) (hse : s < e) (n : Nat) (hn : 0 < n) (g : G) (k0 : Nat) (step : K → K → Nat → G → Option G)
    (transform : Option (K → G → G)) :
    solveForward s e g (some n) k0 none step transform =
      (march step transform (fun i => if i < n then s + i * ((e - s) / n) else e) k0 0 n g).map (fun g => (g, e, k0 + n)) := by
  unfold solveForward solveWith
  rw [max_eq_left hse.le]
  simp only
  have habs : |e - s| = e - s := abs_of_nonneg (by linarith)
  rw [habs]
  obtain ⟨h1, h2⟩ := equal_cover (e - s) n (by linarith) hn
  have key := solveLoop_march (timeForward e) (fun _ => (e - s) / n) step transform (fun i => if i < n then s + i * ((e - s) / n) else e) n k0
    (fun i hi => timeForward_grid s e _ n (fun i hi => by linarith [h1 i hi]) (by linarith) i hi) n 0 (by omega) g
  simp only [if_neg (lt_irrefl n), Nat.add_zero] at key
  rw [← key, if_pos hn, decide_eq_false hse.ne, decide_eq_false (by omega)]
  simp

omit [IsStrictOrderedRing K] [FloorRing K] in
/-- Loop with variable steps. -/
theorem solveLoop_callable (e : K) (f : K → K) (step : K → K → Nat → G → Option G) (transform : Option (K → G → G)) (P : K → G → Prop)
    (hstep : ∀ t next k g g', e ≤ next → P t g → step t next k g = some g' → P next (transform.elim g' (fun h => h next g')))
    (n : Nat) (stop : Bool) (t : K) (g : G) (k : Nat) (ht : e ≤ t) (hs : stop = true ↔ t = e) (hP : P t g) (r : G × K × Nat)
    (h : solveLoop (timeBackward e) f step transform n stop t g k = some r) :
    e ≤ r.2.1 ∧ k ≤ r.2.2 ∧ r.2.2 ≤ k + n ∧ (r.2.2 < k + n → r.2.1 = e) ∧ P r.2.1 r.1 := by
  induction n generalizing stop t g k with
  | zero =>
    simp only [solveLoop, Option.some.injEq] at h
    subst h
    exact ⟨ht, le_refl _, le_refl _, fun h => absurd h (by simp), hP⟩
  | succ n ih =>
    unfold solveLoop at h
    split at h
    · rename_i hst
      simp only [Option.some.injEq] at h
      subst h
      exact ⟨ht, le_refl _, by simp, fun _ => hs.1 hst, hP⟩
    · simp only [Option.bind_eq_bind, Option.bind_eq_some_iff, timeBackward] at h
      obtain ⟨g', hg', h⟩ := h
      obtain ⟨h1, h2, h3, h4, h5⟩ := ih _ _ _ _ (le_max_left _ _) (by
        rw [decide_eq_true_iff]
        exact ⟨fun h => le_antisymm h (le_max_left _ _), fun h => le_of_eq h⟩) (hstep _ _ _ _ _ (le_max_left _ _) hP hg') h
      exact ⟨h1, by omega, by omega, fun h => h4 (by omega), h5⟩

/-- C47, steps from a callable: the solver never goes past `end`; if it performs fewer than `maximum_steps` steps it stops exactly at
`end`. A property of the values that every step keeps holds for the result. -/
theorem C47_backward_callable (s e : K) (he : 0 ≤ e) (hse : e ≤ s) (f : K → K) (m : Nat) (g : G) (k0 : Nat) (step : K → K → Nat → G → Option G)
    (transform : Option (K → G → G)) (P : K → G → Prop) (hP : P s g)
    (hstep : ∀ t next k g g', e ≤ next → P t g → step t next k g = some g' → P next (transform.elim g' (fun h => h next g')))
    (r : G × K × Nat) (h : solveBackward s e g none k0 (some (.callable f m)) step transform = some r) :
    e ≤ r.2.1 ∧ r.2.2 ≤ k0 + m ∧ (r.2.2 < k0 + m → r.2.1 = e) ∧ P r.2.1 r.1 := by
  unfold solveBackward solveWith at h
  rw [min_eq_left hse, max_eq_left he] at h
  obtain ⟨h1, _, h3, h4, h5⟩ := solveLoop_callable e f step transform P hstep m _ s g k0 hse (by simp) hP r h
  exact ⟨h1, h3, h4, h5⟩

/-- C47: `end` on the wrong side of `start`: nothing happens. -/
theorem C47_no_steps (s e dt : K) (g : G) (k0 : Nat) (step : K → K → Nat → G → Option G) (transform : Option (K → G → G)) :
    (0 ≤ s → s ≤ e → solveBackward s e g none k0 (some (.const dt)) step transform = some (g, s, k0)) ∧
    (e ≤ s → solveForward s e g none k0 (some (.const dt)) step transform = some (g, s, k0)) := by
  constructor
  · intro h0 h
    unfold solveBackward solveWith
    rw [min_eq_right h, max_eq_left h0]
    simp only [decide_true]
    exact solveLoop_stop _ _ _ _ _ _ _ _
  · intro h
    unfold solveForward solveWith
    rw [max_eq_right h]
    simp only [decide_true]
    exact solveLoop_stop _ _ _ _ _ _ _ _

/-- C47, deviation: for a negative start time the backward solver goes forward, with one step to time 0. -/
theorem C47_negative_start (s e dt : K) (hs : s < 0) (hdt : 0 < dt) (g : G) (k0 : Nat) (step : K → K → Nat → G → Option G)
    (transform : Option (K → G → G)) :
    solveBackward s e g none k0 (some (.const dt)) step transform =
      (step s 0 k0 g).map (fun g => (transform.elim g (fun f => f 0 g), 0, k0 + 1)) := by
  unfold solveBackward solveWith
  have hm : max (min e s) 0 = 0 := max_eq_right (le_trans (min_le_right _ _) hs.le)
  rw [hm]
  simp only
  have hpos : 0 < ⌈|0 - s| / dt⌉.toNat := by
    have : 0 < ⌈|0 - s| / dt⌉ := Int.ceil_pos.2 (div_pos (abs_pos.2 (by linarith)) hdt)
    omega
  obtain ⟨n, hn⟩ : ∃ n, ⌈|0 - s| / dt⌉.toNat = n + 1 := ⟨⌈|0 - s| / dt⌉.toNat - 1, by omega⟩
  rw [hn, decide_eq_false hs.ne]
  unfold solveLoop
  simp only [Bool.false_eq_true, if_false, timeBackward, max_eq_left (show s - dt ≤ 0 by linarith), le_refl, decide_true, Option.bind_eq_bind]
  cases step s 0 k0 g with
  | none => rfl
  | some g' =>
    simp only [Option.bind_some]
    rw [solveLoop_stop]; rfl

/-- The times that are visited, with their counters. -/
example : solveBackward (1 : Rat) 0 ([] : List (Rat × Rat × Nat)) none 5 (some (.const (2 / 5)))
    (fun t u k g => some (g ++ [(t, u, k)])) none =
    some ([(1, 3 / 5, 5), (3 / 5, 1 / 5, 6), (1 / 5, 0, 7)], 0, 8) := by decide +kernel

example : solveForward (1 : Rat) 2 ([] : List (Rat × Rat × Nat)) (some 2) 0 none
    (fun t u k g => some (g ++ [(t, u, k)])) (some fun t g => g ++ [(t, 0, 0)]) =
    some ([(1, 3 / 2, 0), (3 / 2, 0, 0), (3 / 2, 2, 1), (2, 0, 0)], 2, 2) := by decide +kernel

example : solveBackward (-1 : Rat) 0 ([] : List (Rat × Rat × Nat)) none 0 (some (.const (1 / 4)))
    (fun t u k g => some (g ++ [(t, u, k)])) none = some ([(-1, 0, 0)], 0, 1) := by decide +kernel

end Props
