import Verif.Spec.LegacyBrownian
import Verif.Model.LegacyBrownian
import Verif.Props.RandomOps
import Mathlib.Data.List.GetD
import Mathlib.Algebra.Order.Floor.Semiring
import Mathlib.Data.Rat.Floor

/-! # C104: the legacy Brownian motion, Euler sampling -/

namespace Props
open Model
open scoped BigOperators

namespace LegacyBm

variable {K : Type} [Field K] [LinearOrder K]

/-- Position of the `m`-th kept point in a list. -/
def keptAt : List (K × Bool) → Nat → Nat
  | [], _ => 0
  | (_, true) :: _, 0 => 0
  | (_, true) :: rest, m + 1 => keptAt rest m + 1
  | (_, false) :: rest, m => keptAt rest m + 1

theorem keptAt_lt : ∀ (l : List (K × Bool)) (m : Nat), m < (l.filter (fun p => p.2)).length → keptAt l m < l.length
  | [], m, h => by simp at h
  | (_, true) :: rest, 0, h => by simp [keptAt]
  | (t, true) :: rest, m + 1, h => by
    have := keptAt_lt rest m (by simpa using h)
    simpa [keptAt] using this
  | (t, false) :: rest, m, h => by
    have := keptAt_lt rest m (by simpa using h)
    simpa [keptAt] using this

theorem keptAt_mono : ∀ (l : List (K × Bool)) (m : Nat), m + 1 < (l.filter (fun p => p.2)).length → keptAt l m < keptAt l (m + 1)
  | [], m, h => by simp at h
  | (_, true) :: rest, 0, h => by simp [keptAt]
  | (t, true) :: rest, m + 1, h => by
    have := keptAt_mono rest m (by simpa using h)
    simpa [keptAt] using this
  | (t, false) :: rest, m, h => by
    have := keptAt_mono rest m (by simpa using h)
    simpa [keptAt] using this

theorem keptAt_get : ∀ (l : List (K × Bool)) (m : Nat), m < (l.filter (fun p => p.2)).length →
    (l.map Prod.fst).getD (keptAt l m) 0 = ((l.filter (fun p => p.2)).map Prod.fst).getD m 0
  | [], m, h => by simp at h
  | (_, true) :: rest, 0, h => by simp [keptAt]
  | (t, true) :: rest, m + 1, h => by
    have := keptAt_get rest m (by simpa using h)
    simpa [keptAt] using this
  | (t, false) :: rest, m, h => by
    have := keptAt_get rest m (by simpa using h)
    simpa [keptAt] using this

variable {S : Type}

/-- The states written by the loop. -/
theorem loop_state (step : Nat → K → K → S → S) : ∀ (rest : List (K × Bool)) (i : Nat) (t0 : K) (s : S),
    (legacyLoop step i t0 rest s).length = (rest.filter (fun p => p.2)).length ∧
    ∀ m, m < (rest.filter (fun p => p.2)).length →
      (legacyLoop step i t0 rest s)[m]? = some (Spec.gridState (fun k => step (i + k)) (t0 :: rest.map Prod.fst) s (keptAt rest m + 1)) := by
  have shift : ∀ (rest : List K) (i : Nat) (t0 t : K) (s : S) (n : Nat),
      Spec.gridState (fun k => step (i + k)) (t0 :: t :: rest) s (n + 1) = Spec.gridState (fun k => step (i + 1 + k)) (t :: rest) (step i t0 t s) n := by
    intro rest i t0 t s n
    induction n with
    | zero => rfl
    | succ n ih =>
      rw [Spec.gridState, ih]
      show step (i + (n + 1)) _ _ _ = step (i + 1 + n) _ _ _
      rw [show i + (n + 1) = i + 1 + n by omega]
      rfl
  intro rest
  induction rest with
  | nil => intro i t0 s; exact ⟨rfl, fun m hm => by simp at hm⟩
  | cons p rest ih =>
    intro i t0 s
    obtain ⟨t, keep⟩ := p
    obtain ⟨h1, h2⟩ := ih (i + 1) t (step i t0 t s)
    cases keep with
    | true =>
      simp only [legacyLoop, if_true]
      refine ⟨by simp [h1], fun m hm => ?_⟩
      cases m with
      | zero =>
        rw [List.getElem?_cons_zero, keptAt, List.map_cons, shift]
        rfl
      | succ m =>
        rw [List.getElem?_cons_succ, h2 m (by simpa using hm), keptAt, List.map_cons, shift]
    | false =>
      simp only [legacyLoop, Bool.false_eq_true, if_false]
      refine ⟨by simp [h1], fun m hm => ?_⟩
      rw [h2 m (by simpa using hm), keptAt, List.map_cons, shift]

variable [IsStrictOrderedRing K] [FloorRing K]

theorem range_mem {limit delta : K} (hd : 0 < delta) (k : Nat) (hk : (k : K) * delta < limit) : (k : K) * delta ∈ tfRange limit delta := by
  unfold tfRange
  refine List.mem_map.2 ⟨k, List.mem_range.2 ?_, rfl⟩
  have : (k : K) < limit / delta := (lt_div_iff₀ hd).2 hk
  have h2 : ((k : Int) : K) < limit / delta := by exact_mod_cast this
  have := Int.lt_ceil.2 h2
  omega

theorem range_mem_iff {limit delta x : K} (hd : 0 < delta) : x ∈ tfRange limit delta ↔ ∃ k : Nat, x = k * delta ∧ x < limit := by
  constructor
  · intro h
    unfold tfRange at h
    obtain ⟨k, hk, rfl⟩ := List.mem_map.1 h
    refine ⟨k, rfl, ?_⟩
    have hk := List.mem_range.1 hk
    have : (k : Int) < ⌈limit / delta⌉ := by omega
    have := Int.lt_ceil.1 this
    have h2 : (k : K) < limit / delta := by exact_mod_cast this
    exact (lt_div_iff₀ hd).1 h2
  · rintro ⟨k, rfl, h⟩
    exact range_mem hd k h

/-- The grid of positive times: it starts at zero, is sorted, has gaps of at most the step, and the kept points are the times. -/
theorem grid_spec (times : List K) (hne : times ≠ []) (hpos : ∀ t ∈ times, 0 < t) (hs : times.Pairwise (· ≤ ·)) (gridStep : K) (hstep : 0 < gridStep) :
    ∃ rest, legacyGrid times gridStep = some ((0, false) :: rest) ∧ ((0 : K) :: rest.map Prod.fst).Pairwise (· ≤ ·) ∧
      ((0 : K) :: rest.map Prod.fst).IsChain (fun a b => b - a ≤ gridStep) ∧ (rest.filter (fun p => p.2)).map Prod.fst = times := by
  have hlast := List.getLast?_eq_some_getLast hne
  have hlmem : times.getLast hne ∈ times := List.getLast_mem hne
  obtain ⟨last, hl⟩ : ∃ l, l = times.getLast hne := ⟨_, rfl⟩
  rw [← hl] at hlast hlmem
  have htot : Std.Total (fun a b : K × Bool => a.1 ≤ b.1) := ⟨fun a b => le_total a.1 b.1⟩
  have htr : IsTrans (K × Bool) (fun a b => a.1 ≤ b.1) := ⟨fun a b c h1 h2 => le_trans h1 h2⟩
  obtain ⟨u, hu⟩ : ∃ u, u = (tfRange last gridStep).map (fun t => (t, false)) ++ times.map (fun t => (t, true)) := ⟨_, rfl⟩
  have hg : legacyGrid times gridStep = some (u.insertionSort (fun a b => a.1 ≤ b.1)) := by
    unfold legacyGrid
    rw [hlast, hu]
    rfl
  have hsort : (u.insertionSort (fun a b => a.1 ≤ b.1)).Pairwise (fun a b => a.1 ≤ b.1) := List.pairwise_insertionSort _ _
  have hperm : (u.insertionSort (fun a b => a.1 ≤ b.1)).Perm u := List.perm_insertionSort _ _
  have hle_last : ∀ t ∈ times, t ≤ last := by
    intro t ht
    rw [hl]
    obtain ⟨i, hi, rfl⟩ := List.mem_iff_getElem.1 ht
    rw [List.getLast_eq_getElem]
    rcases Nat.lt_or_ge i (times.length - 1) with h | h
    · exact List.pairwise_iff_getElem.1 hs i (times.length - 1) hi (by omega) h
    · have : i = times.length - 1 := by omega
      subst this
      exact le_rfl
  have hmem : ∀ p, p ∈ u ↔ (p.2 = false ∧ ∃ k : Nat, p.1 = k * gridStep ∧ p.1 < last) ∨ (p.2 = true ∧ p.1 ∈ times) := by
    rintro ⟨t, b⟩
    rw [hu, List.mem_append, List.mem_map, List.mem_map]
    constructor
    · rintro (⟨x, hx, he⟩ | ⟨x, hx, he⟩)
      · obtain ⟨rfl, rfl⟩ := Prod.mk.inj he
        exact Or.inl ⟨rfl, (range_mem_iff hstep).1 hx⟩
      · obtain ⟨rfl, rfl⟩ := Prod.mk.inj he
        exact Or.inr ⟨rfl, hx⟩
    · rintro (⟨h1, h2⟩ | ⟨h1, h2⟩)
      · dsimp only at h1 h2
        subst h1
        exact Or.inl ⟨t, (range_mem_iff hstep).2 h2, rfl⟩
      · dsimp only at h1 h2
        subst h1
        exact Or.inr ⟨t, h2, rfl⟩
  have hnonneg : ∀ p ∈ u, 0 ≤ p.1 := by
    intro p hp
    rcases (hmem p).1 hp with ⟨-, k, hk, -⟩ | ⟨-, h⟩
    · rw [hk]
      positivity
    · exact (hpos _ h).le
  have hzero : ((0 : K), false) ∈ u := (hmem _).2 (Or.inl ⟨rfl, 0, by simp, hpos _ hlmem⟩)
  obtain ⟨w, hw⟩ : ∃ w, w = u.insertionSort (fun a b => a.1 ≤ b.1) := ⟨_, rfl⟩
  rw [← hw] at hg hsort hperm
  have hkept : (w.filter (fun p => p.2)).map Prod.fst = times := by
    have h1 : ((w.filter (fun p => p.2)).map Prod.fst).Perm times := by
      have := (hperm.filter (fun p => p.2)).map Prod.fst
      refine this.trans ?_
      rw [hu, List.filter_append, List.filter_map, List.filter_map, List.map_append, List.map_map, List.map_map]
      simp [Function.comp_def]
    have h2 : ((w.filter (fun p => p.2)).map Prod.fst).Pairwise (· ≤ ·) := by
      rw [List.pairwise_map]
      exact hsort.filter _
    exact h1.eq_of_pairwise (fun a b _ _ h h' => le_antisymm h h') h2 hs
  cases hwc : w with
  | nil =>
    rw [hwc] at hperm
    rw [hperm.nil_eq.symm] at hzero
    simp at hzero
  | cons p rest =>
    have hp0 : p = (0, false) := by
      have hpu : p ∈ u := hperm.mem_iff.1 (by rw [hwc]; exact List.mem_cons_self)
      have h0w : ((0 : K), false) ∈ w := hperm.mem_iff.2 hzero
      have hple : p.1 ≤ 0 := by
        rw [hwc] at h0w hsort
        rcases List.mem_cons.1 h0w with h | h
        · rw [← h]
        · exact (List.pairwise_cons.1 hsort).1 _ h
      have hp1 : p.1 = 0 := le_antisymm hple (hnonneg p hpu)
      rcases (hmem p).1 hpu with ⟨h, -⟩ | ⟨-, h⟩
      · exact Prod.ext hp1 h
      · exact absurd (hpos _ h) (by rw [hp1]; exact lt_irrefl _)
    have hmapsort : ((0 : K) :: rest.map Prod.fst).Pairwise (· ≤ ·) := by
      have : (w.map Prod.fst).Pairwise (· ≤ ·) := by
        rw [List.pairwise_map]
        exact hsort
      rwa [hwc, hp0] at this
    refine ⟨rest, by rw [hg, hwc, hp0], hmapsort, ?_, ?_⟩
    · have hall : ∀ x, x ∈ (0 : K) :: rest.map Prod.fst ↔ ∃ b, (x, b) ∈ u := by
        intro x
        have : (0 : K) :: rest.map Prod.fst = w.map Prod.fst := by rw [hwc, hp0]; rfl
        rw [this, List.mem_map]
        constructor
        · rintro ⟨q, hq, rfl⟩
          exact ⟨q.2, hperm.mem_iff.1 hq⟩
        · rintro ⟨b, hb⟩
          exact ⟨(x, b), hperm.mem_iff.2 hb, rfl⟩
      obtain ⟨l, hl'⟩ : ∃ l, l = (0 : K) :: rest.map Prod.fst := ⟨_, rfl⟩
      rw [← hl'] at hmapsort hall ⊢
      rw [List.isChain_iff_getElem]
      intro i hi
      by_contra hc
      rw [not_le] at hc
      have hi0 : i < l.length := by omega
      have ha0 : 0 ≤ l[i] := by
        obtain ⟨b, hb⟩ := (hall l[i]).1 (List.getElem_mem hi0)
        exact hnonneg _ hb
      have hblast : l[i + 1] ≤ last := by
        obtain ⟨b, hb⟩ := (hall l[i + 1]).1 (List.getElem_mem hi)
        rcases (hmem _).1 hb with ⟨-, -, -, h⟩ | ⟨-, h⟩
        · exact h.le
        · exact hle_last _ h
      obtain ⟨k, hk⟩ : ∃ k : Nat, k = ⌊l[i] / gridStep⌋₊ := ⟨_, rfl⟩
      have hk1 : (k : K) * gridStep ≤ l[i] := by
        rw [hk]
        exact (le_div_iff₀ hstep).1 (Nat.floor_le (div_nonneg ha0 hstep.le))
      have hk2 : l[i] < ((k + 1 : Nat) : K) * gridStep := by
        have := Nat.lt_floor_add_one (l[i] / gridStep)
        rw [← hk] at this
        rw [Nat.cast_add, Nat.cast_one]
        exact (div_lt_iff₀ hstep).1 this
      have hk3 : ((k + 1 : Nat) : K) * gridStep < l[i + 1] := by
        rw [Nat.cast_add, Nat.cast_one, add_mul, one_mul]
        linarith
      have hin : ((k + 1 : Nat) : K) * gridStep ∈ l := (hall _).2 ⟨false, (hmem _).2 (Or.inl ⟨rfl, k + 1, rfl, lt_of_lt_of_le hk3 hblast⟩)⟩
      obtain ⟨j, hj, hje⟩ := List.mem_iff_getElem.1 hin
      rcases Nat.lt_or_ge i j with h | h
      · have : l[i + 1] ≤ l[j] := by
          rcases Nat.lt_or_ge (i + 1) j with h' | h'
          · exact List.pairwise_iff_getElem.1 hmapsort (i + 1) j hi hj h'
          · have : j = i + 1 := by omega
            subst this
            exact le_rfl
        rw [hje] at this
        exact absurd this (not_le.2 hk3)
      · have : l[j] ≤ l[i] := by
          rcases Nat.lt_or_ge j i with h' | h'
          · exact List.pairwise_iff_getElem.1 hmapsort j i hj hi0 h'
          · have : j = i := by omega
            subst this
            exact le_rfl
        rw [hje] at this
        exact absurd this (not_le.2 hk2)
    · rw [hwc, hp0] at hkept
      simpa using hkept

end LegacyBm

variable {K : Type} [Field K] [LinearOrder K] [IsStrictOrderedRing K] [FloorRing K]

/-- **C104, the Euler scheme.** For positive sorted times the states are those of a scheme on a sorted grid which starts at zero, contains the times and has steps of at
most the given size. One state is returned for each time, the state of the scheme at the point of the grid with this time. -/
theorem C104_euler {S : Type} (step : Nat → K → K → S → S) (zero x0 : S) (times : List K) (hne : times ≠ []) (hpos : ∀ t ∈ times, 0 < t) (hs : times.Pairwise (· ≤ ·))
    (gridStep : K) (hstep : 0 < gridStep) :
    ∃ (grid : List K) (pos : Nat → Nat) (result : List S), legacyEuler step zero x0 times gridStep = some result ∧ grid.head? = some 0 ∧ grid.Pairwise (· ≤ ·) ∧
      grid.IsChain (fun a b => b - a ≤ gridStep) ∧ result.length = times.length ∧
      (∀ m, m + 1 < times.length → pos m < pos (m + 1)) ∧
      ∀ m, m < times.length → pos m < grid.length ∧ grid.getD (pos m) 0 = times.getD m 0 ∧ result[m]? = some (Spec.gridState step grid x0 (pos m)) := by
  obtain ⟨rest, h1, h2, h3, h4⟩ := LegacyBm.grid_spec times hne hpos hs gridStep hstep
  obtain ⟨l1, l2⟩ := LegacyBm.loop_state step rest 0 0 x0
  have hlen : (rest.filter (fun p => p.2)).length = times.length := by rw [← h4, List.length_map]
  refine ⟨0 :: rest.map Prod.fst, fun m => LegacyBm.keptAt rest m + 1, legacyLoop step 0 0 rest x0, ?_, rfl, h2, h3, by rw [l1, hlen], fun m hm => ?_, fun m hm => ⟨?_, ?_, ?_⟩⟩
  · unfold legacyEuler
    rw [h1]
    simp [l1, hlen]
  · have := LegacyBm.keptAt_mono rest m (by rw [hlen]; exact hm)
    dsimp only
    omega
  · have := LegacyBm.keptAt_lt rest m (by rw [hlen]; exact hm)
    simpa using this
  · have := LegacyBm.keptAt_get rest m (by rw [hlen]; exact hm)
    rw [h4] at this
    simpa using this
  · have := l2 m (by rw [hlen]; exact hm)
    simpa using this

/-- **C104, the Euler scheme with constant coefficients.** The state at a time is the initial state, the drift times the time and the volatility times the sum of the
normal numbers, each multiplied with the root of its step; the steps add up to the time. -/
theorem C104_euler_constant (dim : Nat) (mu : Nat → ℝ) (S : Nat → Nat → ℝ) (dw : Nat → Nat → ℝ) (grid : List ℝ) (h0 : grid.head? = some 0) (hs : grid.Pairwise (· ≤ ·)) (x0 : Nat → ℝ)
    (n : Nat) (hn : n < grid.length) (j : Nat) :
    Spec.gridState (legacyEulerStep dim (fun _ _ => mu) (fun _ _ => S) dw) grid x0 n j =
      x0 j + mu j * grid.getD n 0 + ∑ l ∈ Finset.range dim, S j l * ∑ i ∈ Finset.range n, dw i l * Real.sqrt (grid.getD (i + 1) 0 - grid.getD i 0) ∧
    ∑ i ∈ Finset.range n, Real.sqrt (grid.getD (i + 1) 0 - grid.getD i 0) ^ 2 = grid.getD n 0 := by
  have hz : grid.getD 0 0 = 0 := by
    cases grid with
    | nil => rfl
    | cons a l => simpa using h0
  constructor
  · induction n with
    | zero =>
      rw [hz]
      simp [Spec.gridState]
    | succ n ih =>
      rw [Spec.gridState]
      unfold legacyEulerStep
      unfold legacyEulerStep at ih
      rw [ih (by omega)]
      have : ∀ l, S j l * ∑ i ∈ Finset.range (n + 1), dw i l * Real.sqrt (grid.getD (i + 1) 0 - grid.getD i 0) =
          S j l * ∑ i ∈ Finset.range n, dw i l * Real.sqrt (grid.getD (i + 1) 0 - grid.getD i 0) + S j l * (dw n l * Real.sqrt (grid.getD (n + 1) 0 - grid.getD n 0)) := by
        intro l
        rw [Finset.sum_range_succ, mul_add]
      simp only [this, Finset.sum_add_distrib]
      ring
  · induction n with
    | zero =>
      rw [hz]
      simp
    | succ n ih =>
      rw [Finset.sum_range_succ, ih (by omega), Real.sq_sqrt]
      · ring
      · rw [List.getD_eq_getElem _ _ hn, List.getD_eq_getElem _ _ (by omega), sub_nonneg]
        exact List.pairwise_iff_getElem.1 hs n (n + 1) (by omega) hn (by omega)

/-- **C104, draws of the steps.** By default step `i` of the Euler scheme uses the normal numbers of call `i` of the generator, one for each path and component. -/
theorem C104_draws (src : RandomSource) (hsrc : src.Valid) (chol : Model.NdArray ℝ → Model.NdArray ℝ) (dim N : Nat) (seed : Option Seed) (i : Nat) :
    ∃ r, legacyDraws src chol dim N none seed i = .ok r ∧ r.shape = [N, dim, 1] ∧
      ∀ p j, p < N → j < dim → r.get [p, j, 0] = (src.normal i seed [N, dim, 1]).get [p, j, 0] := by
  obtain ⟨r, h1, h2, h3⟩ := (C103_pseudo src hsrc chol i [N] [dim] 1 (some (zerosTensor [dim, 1])) none none seed (Or.inl rfl)
    ⟨fun m hm => (by cases hm; rfl), fun l hl => (by cases hl), Or.inl (by simp)⟩).1
  refine ⟨r, h1, h2, fun p j hp hj => ?_⟩
  have := h3 [p] [j] 0 (.cons hp .nil) (.cons hj .nil) (by norm_num)
  simpa [RandomOps.meanValue, RandomOps.scaleValue, mvnScale, zerosTensor] using this

/-- **C104, generators without a state deviate.** With stateless or quasi random numbers each step of the Euler scheme draws the same numbers. In one dimension the
normal number is multiplied with the sum of the roots of the steps, for two steps of one half with the root of two in place of one. -/
theorem C104_stateless_deviates (src : RandomSource) (chol : Model.NdArray ℝ → Model.NdArray ℝ) (dim N : Nat) (seed : Option Seed) :
    (∀ type, type = .stateless ∨ type = .statelessAntithetic ∨ type = .sobol ∨ type = .halton ∨ type = .haltonRandomized →
      ∀ i j, legacyDraws src chol dim N (some type) seed i = legacyDraws src chol dim N (some type) seed j) ∧
    ∀ (mu s x0 z : ℝ), Spec.gridState (legacyEulerStep 1 (fun _ _ _ => mu) (fun _ _ _ _ => s) (fun _ _ => z)) [0, 1 / 2, 1] (fun _ => x0) 2 0 =
      x0 + mu + s * (Real.sqrt 2 * z) := by
  constructor
  · rintro type (rfl | rfl | rfl | rfl | rfl) i j <;> rfl
  · intro mu s x0 z
    have := (C104_euler_constant 1 (fun _ => mu) (fun _ _ => s) (fun _ _ => z) [0, 1 / 2, 1] rfl (by norm_num) (fun _ => x0) 2 (by norm_num) 0).1
    rw [this]
    have h2 : Real.sqrt 2 = 2 * Real.sqrt (1 / 2) := by
      rw [Real.sqrt_eq_iff_mul_self_eq (by norm_num) (by positivity)]
      have := Real.mul_self_sqrt (show (0 : ℝ) ≤ 1 / 2 by norm_num)
      nlinarith
    rw [h2]
    have e : (1 : ℝ) - 1 / 2 = 1 / 2 := by norm_num
    simp only [Finset.sum_range_succ, Finset.sum_range_zero, List.getD_cons_zero, List.getD_cons_succ, e, sub_zero]
    ring

/-- **C104, time zero deviates.** At the single time zero the Euler scheme returns zeros and not the initial state. -/
theorem C104_zero_time_deviates {S : Type} (step : Nat → K → K → S → S) (zero x0 : S) (gridStep : K) : legacyEuler step zero x0 [0] gridStep = some [zero] := by
  simp [legacyEuler, legacyGrid, tfRange]
  rfl

/-- Steps of at most one fourth up to the times `1 / 2` and `5 / 8`, which count the steps: three and four, as `1 / 2` is also a point of the uniform grid. -/
example : legacyEuler (fun _ _ _ n => n + 1) 0 0 [1 / 2, 5 / 8] (1 / 4 : ℚ) = some [3, 4] := by decide +kernel

end Props
