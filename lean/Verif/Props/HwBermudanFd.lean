import Verif.Props.HwBermudan
import Verif.Props.FdSolvers

/-!
# Property theorems C111, second part: Bermudan swaptions by finite differences
-/

namespace HwBermudan
open Model Spec Lemmas

variable {K : Type} [Field K] [LinearOrder K]

/-- The times that are kept after `x`. -/
def keptAfter (tol : K) : K → List K → List (K × K)
  | _, [] => []
  | x, y :: ys => if y - x > tol then (y, y - x) :: keptAfter tol y ys else keptAfter tol y ys

theorem kept_eq (tol : K) (x : K) (l : List K) :
    (List.zip l (List.zipWith (fun (a b : K) => a - b) l (x :: l).dropLast)).filter (fun (p : K × K) => decide (p.2 > tol)) = keptAfter tol x l := by
  induction l generalizing x with
  | nil => rfl
  | cons y ys ih =>
    have h := ih y
    rw [List.dropLast_cons_of_ne_nil (by simp), List.zipWith_cons_cons, List.zip_cons_cons, keptAfter, List.filter_cons, h]
    by_cases hc : y - x > tol
    · simp [hc]
    · simp [hc]

variable [IsStrictOrderedRing K]

/-- Sorted times of which any two are equal or far apart. -/
def FarApart (tol : K) (l : List K) : Prop := ∀ a ∈ l, ∀ b ∈ l, a < b → tol < b - a

theorem keptAfter_spec (tol : K) (ht : 0 ≤ tol) (x : K) (l : List K) (hs : (x :: l).Pairwise (· ≤ ·)) (hsep : FarApart tol (x :: l)) :
    (x :: (keptAfter tol x l).map Prod.fst).Pairwise (fun a b => tol < b - a) ∧
    (∀ y, y ∈ x :: (keptAfter tol x l).map Prod.fst ↔ y ∈ x :: l) ∧
    ∀ (i : Nat) (p q d : K), (x :: (keptAfter tol x l).map Prod.fst)[i]? = some p → (keptAfter tol x l)[i]? = some (q, d) → d = q - p := by
  induction l generalizing x with
  | nil => simp [keptAfter]
  | cons y ys ih =>
    have hs' := (List.pairwise_cons.1 hs)
    have hxy : x ≤ y := hs'.1 y List.mem_cons_self
    have hsep' : FarApart tol (y :: ys) := fun a ha b hb h => hsep a (List.mem_cons_of_mem _ ha) b (List.mem_cons_of_mem _ hb) h
    obtain ⟨h1, h2, h3⟩ := ih y hs'.2 hsep'
    rcases hxy.lt_or_eq with hlt | heq
    · have hgap := hsep x List.mem_cons_self y (List.mem_cons_of_mem _ List.mem_cons_self) hlt
      rw [keptAfter, if_pos hgap]
      refine ⟨?_, ?_, ?_⟩
      · rw [List.map_cons, List.pairwise_cons]
        refine ⟨?_, h1⟩
        intro b hb
        have hb' := (h2 b).1 hb
        have : y ≤ b := by
          rcases List.mem_cons.1 hb' with rfl | h
          · exact le_refl _
          · exact (List.pairwise_cons.1 hs'.2).1 b h
        linarith
      · intro z
        rw [List.map_cons, List.mem_cons, h2 z, ← List.mem_cons]
      · intro i p q d hp hq
        cases i with
        | zero =>
          simp only [List.getElem?_cons_zero, Option.some.injEq, Prod.mk.injEq] at hp hq
          rw [← hq.2, ← hq.1, ← hp]
        | succ i =>
          rw [List.getElem?_cons_succ] at hp hq
          exact h3 i p q d hp hq
    · subst heq
      rw [keptAfter, if_neg (by simpa using ht)]
      exact ⟨h1, fun z => by rw [h2 z]; simp, h3⟩

theorem solveLoop_march_le {G : Type} (direction : K → K → Bool × K) (timeStep : K → K) (step : K → K → Nat → G → Option G)
    (transform : Option (K → G → G)) (times : Nat → K) (N k0 : Nat)
    (h : ∀ i, i < N → direction (times i) (timeStep (times i)) = (decide (i + 1 = N), times (i + 1)))
    (n i fuel : Nat) (hn : i + n = N) (hf : n ≤ fuel) (g : G) :
    solveLoop direction timeStep step transform fuel (decide (i = N)) (times i) g (k0 + i) =
      (march step transform times k0 i n g).map (fun g => (g, times N, k0 + N)) := by
  induction n generalizing i g fuel with
  | zero =>
    rw [Nat.add_zero] at hn
    subst hn
    rw [decide_eq_true rfl, solveLoop_stop]
    rfl
  | succ n ih =>
    obtain ⟨f, rfl⟩ : ∃ f, fuel = f + 1 := ⟨fuel - 1, by omega⟩
    unfold solveLoop march
    have hi : i < N := by omega
    rw [if_neg (by simp; omega), h i hi]
    simp only [Option.bind_eq_bind]
    cases step (times i) (times (i + 1)) (k0 + i) g with
    | none => rfl
    | some g' =>
      simp only [Option.bind_some]
      exact ih (i + 1) f (by omega) (by omega) _

omit [Field K] [IsStrictOrderedRing K] in
theorem pairwise_get {l : List K} {R : K → K → Prop} (h : l.Pairwise R) {i j : Nat} {a b : K} (hij : i < j) (ha : l[i]? = some a) (hb : l[j]? = some b) :
    R a b := by
  obtain ⟨hi1, hi2⟩ := List.getElem?_eq_some_iff.1 ha
  obtain ⟨hj1, hj2⟩ := List.getElem?_eq_some_iff.1 hb
  have := List.pairwise_iff_getElem.1 h i j hi1 hj1 hij
  rwa [hi2, hj2] at this

theorem gridIndex_point (times : List K) (tol : K) (ht : 0 < tol) (hg : times.Pairwise (fun a b => tol < b - a)) (i : Nat) (t : K)
    (hi : times[i]? = some t) : BermudanBatch.gridIndex times tol t = i := by
  have hsorted : times.Pairwise (· ≤ ·) := hg.imp (fun {a b} h => by linarith)
  have hil := (List.getElem?_eq_some_iff.1 hi).1
  have hidx : searchRight times (t - tol) = i := by
    apply searchRight_eq times hsorted _ i (by omega)
    · intro c h1 hc
      have := pairwise_get hg (show i - 1 < i by omega) hc hi
      linarith
    · intro c hc
      rw [hi] at hc
      rw [← Option.some.inj hc]
      linarith
  unfold BermudanBatch.gridIndex pdeGridIndex
  simp only [hidx, hi, Option.map_some, sub_self, abs_zero, ht, if_true, Option.getD_some]

end HwBermudan

namespace Props
open Model Spec Lemmas HwBermudan
open NdArray (Valid)

section
variable {K : Type} [Field K] [LinearOrder K] [IsStrictOrderedRing K]

/-- C111.  The time grid of the finite differences, if its points are equal or more than the tolerance apart: it has no repetitions, begins at zero,
ends with the last exercise time, contains all exercise times, and the recorded steps are the differences of neighbours. -/
theorem C111_fd_grid [FloorRing K] (a : BermudanBatch K) (step : Option K) (tol : K) (ht : 0 ≤ tol) (ht' : tol < 100)
    (hstep : ∀ d, step = some d → 0 < d) (hlong : 0 < a.longestTime) (hrange : ∀ t ∈ a.uniqueTimes, 0 ≤ t ∧ t ≤ a.longestTime)
    (hsep : FarApart tol (a.uniqueTimes ++ tfRange a.longestTime (step.getD (a.longestTime / 100)))) :
    (a.pdeTimeGrid step tol).1.Pairwise (fun x y => tol < y - x) ∧ (a.pdeTimeGrid step tol).1.head? = some 0 ∧
    (a.pdeTimeGrid step tol).1.getLast? = some a.longestTime ∧ (∀ t ∈ a.uniqueTimes, t ∈ (a.pdeTimeGrid step tol).1) ∧
    ∀ (i : Nat) (p q : K), (a.pdeTimeGrid step tol).1[i]? = some p → (a.pdeTimeGrid step tol).1[i + 1]? = some q →
      (a.pdeTimeGrid step tol).2[i + 1]? = some (q - p) := by
  set delta := step.getD (a.longestTime / 100) with hdelta
  have hd : 0 < delta := by
    cases h : step with
    | none => rw [hdelta, h]; simp only [Option.getD_none]; positivity
    | some d => rw [hdelta, h]; exact hstep d h
  set pts := a.uniqueTimes ++ tfRange a.longestTime delta with hpts
  have hperm := List.perm_insertionSort (· ≤ ·) pts
  have hsort : (pts.insertionSort (· ≤ ·)).Pairwise (· ≤ ·) := List.pairwise_insertionSort _ _
  have hr : ∀ t ∈ tfRange a.longestTime delta, 0 ≤ t ∧ t < a.longestTime := by
    intro t h
    unfold tfRange at h
    rw [List.mem_map] at h
    obtain ⟨k, hk, rfl⟩ := h
    refine ⟨by positivity, ?_⟩
    exact (ceil_cover a.longestTime delta hlong.le hd).1 k (List.mem_range.1 hk)
  have h0 : (0 : K) ∈ pts := by
    rw [hpts, List.mem_append]
    right
    unfold tfRange
    rw [List.mem_map]
    refine ⟨0, ?_, by simp⟩
    rw [List.mem_range]
    have : 0 < ⌈a.longestTime / delta⌉ := Int.ceil_pos.2 (div_pos hlong hd)
    omega
  have hlm : a.longestTime ∈ a.uniqueTimes := by
    have hne : a.uniqueTimes ≠ [] := by
      intro h
      unfold BermudanBatch.longestTime at hlong
      rw [h] at hlong
      exact lt_irrefl _ hlong
    unfold BermudanBatch.longestTime
    rw [List.getLastD_eq_getLast?, List.getLast?_eq_some_getLast hne]
    exact List.getLast_mem hne
  obtain ⟨x, l, hxl⟩ : ∃ x l, pts.insertionSort (· ≤ ·) = x :: l := by
    cases h : pts.insertionSort (· ≤ ·) with
    | nil =>
      have := hperm.mem_iff.2 h0
      rw [h] at this
      simp at this
    | cons x l => exact ⟨x, l, rfl⟩
  have hsep' : FarApart tol (x :: l) := by
    intro p hp q hq h
    rw [← hxl] at hp hq
    exact hsep p (hperm.mem_iff.1 hp) q (hperm.mem_iff.1 hq) h
  rw [hxl] at hsort
  obtain ⟨h1, h2, h3⟩ := keptAfter_spec tol ht x l hsort hsep'
  have hgrid : a.pdeTimeGrid step tol = (x :: (keptAfter tol x l).map Prod.fst, 100 :: (keptAfter tol x l).map Prod.snd) := by
    unfold BermudanBatch.pdeTimeGrid BermudanBatch.sortedTimes
    dsimp only
    rw [← hdelta, ← hpts, hxl, List.zip_cons_cons, List.tail_cons, List.filter_cons, kept_eq]
    simp [ht']
  rw [hgrid]
  dsimp only
  have hmem : ∀ y, y ∈ x :: (keptAfter tol x l).map Prod.fst ↔ y ∈ pts := by
    intro y
    rw [h2 y, ← hxl]
    exact hperm.mem_iff
  have hall : ∀ y ∈ x :: (keptAfter tol x l).map Prod.fst, 0 ≤ y ∧ y ≤ a.longestTime := by
    intro y hy
    have := (hmem y).1 hy
    rw [hpts, List.mem_append] at this
    rcases this with h | h
    · exact hrange y h
    · exact ⟨(hr y h).1, (hr y h).2.le⟩
  refine ⟨h1, ?_, ?_, ?_, ?_⟩
  · have hx0 : x = 0 := by
      apply le_antisymm
      · have := (hmem 0).2 h0
        rcases List.mem_cons.1 this with h | h
        · exact h ▸ le_refl _
        · have := (List.pairwise_cons.1 h1).1 0 h
          linarith
      · exact (hall x List.mem_cons_self).1
    rw [hx0]
    rfl
  · rw [List.getLast?_eq_some_getLast (by simp)]
    refine congrArg some ?_
    apply le_antisymm
    · exact (hall _ (List.getLast_mem (by simp))).2
    · have hl := (hmem a.longestTime).2 (by rw [hpts]; exact List.mem_append_left _ hlm)
      have hs2 : (x :: (keptAfter tol x l).map Prod.fst).Pairwise (· ≤ ·) := h1.imp (fun {a b} h => by linarith)
      obtain ⟨i, hi⟩ := List.mem_iff_getElem?.1 hl
      have hil := (List.getElem?_eq_some_iff.1 hi).1
      refine getElem_sorted_le _ hs2 i ((x :: (keptAfter tol x l).map Prod.fst).length - 1) _ _ (by omega) hi ?_
      rw [← List.getLast?_eq_getElem?, List.getLast?_eq_some_getLast (by simp)]
  · intro t h
    exact (hmem t).2 (by rw [hpts]; exact List.mem_append_left _ h)
  · intro i p q hp hq
    rw [List.getElem?_cons_succ, List.getElem?_map] at hq ⊢
    cases hk : (keptAfter tol x l)[i]? with
    | none => rw [hk] at hq; simp at hq
    | some z =>
      obtain ⟨q', d⟩ := z
      rw [hk] at hq
      simp only [Option.map_some, Option.some.injEq] at hq ⊢
      rw [h3 i p q' d hp hk, hq]

/-- Exercise times 1 and 2 with steps of 3/4; the point 0 and the end are not repeated. -/
example : (BermudanBatch.pdeTimeGrid (⟨[], 2, 1, fun idx => if idx = [0] then 1 else 2, fun _ => 3, fun _ => 1, fun _ => 0, fun _ => 1⟩ : BermudanBatch ℚ)
    (some (3 / 4)) (1 / 10000000)) = ([0, 3 / 4, 1, 3 / 2, 2], [100, 3 / 4, 1 / 4, 1 / 2, 1 / 2]) := by decide +kernel

/-- C111.  The solver visits the points of the grid from the last exercise time down to zero, one after the other, with the transformation at each
point that is reached; the price is the notional times the value at the initial forward rate. -/
theorem C111_fd_visits [FloorRing K] (a : BermudanBatch K) (isPayer : Bool) (numPoints : Nat) (step : Option K) (tol : K) (ht : 0 < tol)
    (ht' : tol < 100) (hstep : ∀ d, step = some d → 0 < d) (hlong : 0 < a.longestTime) (hrange : ∀ t ∈ a.uniqueTimes, 0 ≤ t ∧ t ≤ a.longestTime)
    (hsep : FarApart tol (a.uniqueTimes ++ tfRange a.longestTime (step.getD (a.longestTime / 100))))
    (bond : K → K → K → K) (forward : K) (scheme : (K → K) → (K → K) → K → K → Nat → List K → Option (List K)) (maximumSteps : Nat)
    (entry : List Nat) (n : Nat) (hn : (a.pdeTimeGrid step tol).1.length = n + 1) (hmax : n ≤ maximumSteps) :
    a.priceFd isPayer numPoints step tol bond forward scheme maximumSteps entry =
      (march (scheme (a.lowerBoundary isPayer (a.pdeTimeGrid step tol).1 (tfLinspace (-(1 / 5)) (1 / 5) numPoints) bond tol entry)
          (a.upperBoundary isPayer (a.pdeTimeGrid step tol).1 (tfLinspace (-(1 / 5)) (1 / 5) numPoints) bond tol entry))
        (some (a.valuesTransform isPayer (a.pdeTimeGrid step tol).1 (tfLinspace (-(1 / 5)) (1 / 5) numPoints) bond tol entry))
        (fun i => (a.pdeTimeGrid step tol).1.getD (n - i) 0) 0 0 n
        (a.finalValue isPayer (a.pdeTimeGrid step tol).1 (tfLinspace (-(1 / 5)) (1 / 5) numPoints) bond entry)).map
        (fun v => a.notional entry * linearInterpolate forward (tfLinspace (-(1 / 5)) (1 / 5) numPoints) v) := by
  obtain ⟨g1, g2, g3, g4, g5⟩ := C111_fd_grid a step tol ht.le ht' hstep hlong hrange hsep
  set grid := (a.pdeTimeGrid step tol).1 with hgrid
  set dt := (a.pdeTimeGrid step tol).2 with hdt
  have hget : ∀ i, i ≤ n → grid[i]? = some (grid.getD i 0) := by
    intro i hi
    rw [List.getD_eq_getElem?_getD, List.getElem?_eq_getElem (by omega)]; rfl
  have hfirst : grid.getD 0 0 = 0 := by
    rw [List.head?_eq_getElem?, hget 0 (by omega)] at g2
    exact Option.some.inj g2
  have hlast : grid.getD n 0 = a.longestTime := by
    rw [List.getLast?_eq_getElem?, hn, Nat.add_sub_cancel, hget n le_rfl] at g3
    exact Option.some.inj g3
  have hnpos : 0 < n := by
    rcases Nat.eq_zero_or_pos n with h | h
    · rw [h, hfirst] at hlast
      exact absurd hlast hlong.ne
    · exact h
  have hpos : ∀ i, 0 < i → i ≤ n → 0 < grid.getD i 0 := by
    intro i hi hin
    have := pairwise_get g1 hi (hget 0 (by omega)) (hget i hin)
    rw [hfirst] at this
    linarith
  have hdir : ∀ i, i < n → timeBackward 0 (grid.getD (n - i) 0) (BermudanBatch.pdeTimeStep grid dt tol (grid.getD (n - i) 0)) =
      (decide (i + 1 = n), grid.getD (n - (i + 1)) 0) := by
    intro i hi
    obtain ⟨m, hm⟩ : ∃ m, n - i = m + 1 := ⟨n - i - 1, by omega⟩
    have hm2 : n - (i + 1) = m := by omega
    have hstep' : BermudanBatch.pdeTimeStep grid dt tol (grid.getD (m + 1) 0) = grid.getD (m + 1) 0 - grid.getD m 0 := by
      unfold BermudanBatch.pdeTimeStep
      rw [gridIndex_point grid tol ht g1 (m + 1) _ (hget (m + 1) (by omega))]
      dsimp only
      rw [if_pos (by omega), Int.toNat_natCast, List.getD_eq_getElem?_getD, g5 m _ _ (hget m (by omega)) (hget (m + 1) (by omega))]
      rfl
    rw [hm, hm2, hstep']
    unfold timeBackward
    have e : grid.getD (m + 1) 0 - (grid.getD (m + 1) 0 - grid.getD m 0) = grid.getD m 0 := by ring
    rw [e]
    rcases Nat.eq_zero_or_pos m with h | h
    · have h2 : i + 1 = n := by omega
      rw [h, hfirst, decide_eq_true h2]
      simp
    · have hp := hpos m h (by omega)
      rw [max_eq_right hp.le, decide_eq_false (not_le.2 hp), decide_eq_false (by omega)]
  unfold BermudanBatch.priceFd
  dsimp only
  rw [← hgrid, ← hdt]
  unfold solveBackward solveWith
  rw [min_eq_left hlong.le, max_eq_left (le_refl (0 : K))]
  dsimp only
  have key := solveLoop_march_le (timeBackward 0) (BermudanBatch.pdeTimeStep grid dt tol)
    (scheme (a.lowerBoundary isPayer grid (tfLinspace (-(1 / 5)) (1 / 5) numPoints) bond tol entry)
      (a.upperBoundary isPayer grid (tfLinspace (-(1 / 5)) (1 / 5) numPoints) bond tol entry))
    (some (a.valuesTransform isPayer grid (tfLinspace (-(1 / 5)) (1 / 5) numPoints) bond tol entry))
    (fun i => grid.getD (n - i) 0) n 0 hdir n 0 maximumSteps (by omega) hmax
    (a.finalValue isPayer grid (tfLinspace (-(1 / 5)) (1 / 5) numPoints) bond entry)
  rw [Nat.sub_zero, hlast, decide_eq_false (by omega), Nat.add_zero] at key
  rw [decide_eq_false hlong.ne', key, Option.map_map]
  rfl

omit [IsStrictOrderedRing K] in
/-- C111.  The flat list of indices of the finite differences: at the place of grid point `s` and item `k` are the entries `s`, `k` and `k`. -/
theorem C111_indices (idx0 idx1 idx2 : List Nat) (h : idx1.length = idx2.length) (s k : Nat) (hs : s < idx0.length) (hk : k < idx1.length) :
    (prepareIndicesIjj idx0 idx1 idx2)[s * idx1.length + k]? = some (idx0.getD s 0, idx1.getD k 0, idx2.getD k 0) := by
  have g0 : ∀ (l : List Nat) (i : Nat), i < l.length → l[i]? = some (l.getD i 0) := by
    intro l i hi
    rw [List.getD_eq_getElem?_getD, List.getElem?_eq_getElem hi]; rfl
  have i0 := repeatEach_getElem? idx0 idx1.length s k hk
  have i1 := tile_getElem? idx1 idx0.length s k hs hk
  have i2 := tile_getElem? idx2 idx0.length s k hs (h ▸ hk)
  rw [g0 _ _ hs] at i0
  rw [g0 _ _ hk] at i1
  rw [← h, g0 idx2 k (h ▸ hk)] at i2
  unfold prepareIndicesIjj repeatList tileList
  dsimp only
  rw [List.getElem?_zipWith, i0, List.zip, List.getElem?_zipWith, i1, i2]

example : prepareIndicesIjj [0, 1] [5, 6] [7, 8] = [(0, 5, 7), (0, 6, 8), (1, 5, 7), (1, 6, 8)] := by decide

/-- The value for its holder of the swap that an entry of the batch exercises into, at a short rate. -/
def fdSwap (a : BermudanBatch K) (isPayer : Bool) (bond : K → K → K → K) (rate : K) (entry : List Nat) (e : Nat) : K :=
  let value := payerSwapValue a.numPayments (fun p => a.coupon (entry ++ [e, p]) * a.daycount (entry ++ [e, p]))
    (fun p => bond rate (a.exerciseTimes (entry ++ [e])) (a.paymentTimes (entry ++ [e, p])))
  if isPayer then value else -value

theorem fdBond_eq (a : BermudanBatch K) (times rates : List K) (hsort : times.Pairwise (· ≤ ·)) (bond : K → K → K → K) (g : Nat)
    (hg : g < rates.length) (entry : List Nat) (hb : Valid a.batch entry) (e p : Nat) (he : e < a.numExercise) (hp : p < a.numPayments)
    (hmem : a.exerciseTimes (entry ++ [e]) ∈ times) :
    a.fdBond times rates bond g (entry ++ [e, p]) =
      bond (rates.getD g 0) (a.exerciseTimes (entry ++ [e])) (a.paymentTimes (entry ++ [e, p])) := by
  have hv := payment_valid a hb he hp
  have hrep : a.repeatedTimes (entry ++ [e, p]) = a.exerciseTimes (entry ++ [e]) := by
    unfold BermudanBatch.repeatedTimes
    have : entry ++ [e, p] = (entry ++ [e]) ++ [p] := by simp
    rw [this, List.dropLast_concat]
  have hk := NdArray.flat_lt hv
  unfold BermudanBatch.fdBond
  dsimp only
  set mats := (tfUnique (flatValues a.paymentShape a.paymentTimes)).insertionSort (· ≤ ·) with hmats
  have hidx := C111_indices (List.range rates.length) ((flatValues a.paymentShape a.repeatedTimes).map (fun (t : K) => searchLeft times t))
    ((flatValues a.paymentShape a.paymentTimes).map (fun (t : K) => searchLeft mats t))
    (by rw [List.length_map, List.length_map, flatValues_length, flatValues_length]) g (flatIndex a.paymentShape (entry ++ [e, p]))
    (by simpa using hg) (by rw [List.length_map, flatValues_length]; exact hk)
  rw [List.length_map, flatValues_length] at hidx
  rw [NdArray.flat_cons, List.getD_eq_getElem?_getD, List.getElem?_map, hidx, Option.map_some, Option.getD_some]
  dsimp only
  have g1 : (List.range rates.length).getD g 0 = g := by rw [List.getD_eq_getElem?_getD, List.getElem?_range hg]; rfl
  have g2 : ((flatValues a.paymentShape a.repeatedTimes).map (fun (t : K) => searchLeft times t)).getD
      (flatIndex a.paymentShape (entry ++ [e, p])) 0 = searchLeft times (a.exerciseTimes (entry ++ [e])) := by
    rw [List.getD_eq_getElem?_getD, List.getElem?_map, flatValues_get _ _ hv, Option.map_some, Option.getD_some, hrep]
  have g3 : ((flatValues a.paymentShape a.paymentTimes).map (fun (t : K) => searchLeft mats t)).getD
      (flatIndex a.paymentShape (entry ++ [e, p])) 0 = searchLeft mats (a.paymentTimes (entry ++ [e, p])) := by
    rw [List.getD_eq_getElem?_getD, List.getElem?_map, flatValues_get _ _ hv, Option.map_some, Option.getD_some]
  have hmm : a.paymentTimes (entry ++ [e, p]) ∈ mats := by
    rw [hmats, (List.perm_insertionSort (· ≤ ·) _).mem_iff, mem_tfUnique, mem_flatValues]
    exact ⟨_, hv, rfl⟩
  have hms : mats.Pairwise (· ≤ ·) := List.pairwise_insertionSort _ _
  rw [g1, g2, g3, List.getD_eq_getElem?_getD (l := times), searchLeft_mem times hsort _ hmem, List.getD_eq_getElem?_getD (l := mats),
    searchLeft_mem mats hms _ hmm]
  rfl

/-- C111.  The payoffs on the grid of short rates, for a strictly increasing time grid that contains the exercise times: at an own exercise time the
swap of that exercise, at the other times of the grid zero. -/
theorem C111_fd_payoff (a : BermudanBatch K) (isPayer : Bool) (times rates : List K) (hsort : times.Pairwise (· < ·)) (bond : K → K → K → K)
    (entry : List Nat) (hb : Valid a.batch entry) (hm : 0 < a.numPayments) (hmem : ∀ e, e < a.numExercise → a.exerciseTimes (entry ++ [e]) ∈ times)
    (hd : ∀ e e', e < a.numExercise → e' < a.numExercise → a.exerciseTimes (entry ++ [e]) = a.exerciseTimes (entry ++ [e']) → e = e')
    (g : Nat) (hg : g < rates.length) (j : Nat) (t : K) (hj : times[j]? = some t) :
    (∀ e, e < a.numExercise → a.exerciseTimes (entry ++ [e]) = t →
      a.payoffAt isPayer times rates bond entry j g = fdSwap a isPayer bond (rates.getD g 0) entry e) ∧
    ((∀ e, e < a.numExercise → a.exerciseTimes (entry ++ [e]) ≠ t) → a.payoffAt isPayer times rates bond entry j g = 0) := by
  have hs' : times.Pairwise (· ≤ ·) := hsort.imp le_of_lt
  have hidx : ∀ e, e < a.numExercise → times[(a.fdTimeIndex times).get (entry ++ [e])]? = some (a.exerciseTimes (entry ++ [e])) :=
    fun e he => searchLeft_mem times hs' _ (hmem e he)
  have hmap := C111_map a.batch a.numExercise rates.length (a.fdTimeIndex times) ⟨rates.length :: a.exerciseShape, fun idx =>
    a.swapPayoff isPayer (a.fdBond times rates bond (idx.headD 0)) idx.tail⟩ rfl rfl g hg entry hb (fun e e' he he' h => by
      apply hd e e' he he'
      have h1 := hidx e he
      rw [h, hidx e' he'] at h1
      exact (Option.some.inj h1).symm)
  constructor
  · intro e he het
    have hje : (a.fdTimeIndex times).get (entry ++ [e]) = j := by
      have hn : times.Nodup := hsort.imp ne_of_lt
      have h1 := hidx e he
      rw [het] at h1
      obtain ⟨hl1, e1⟩ := List.getElem?_eq_some_iff.1 h1
      obtain ⟨hl2, e2⟩ := List.getElem?_eq_some_iff.1 hj
      exact (hn.getElem_inj_iff).1 (e1.trans e2.symm)
    have h2 := (hmap.1 e he).2
    rw [hje] at h2
    unfold BermudanBatch.payoffAt BermudanBatch.fdPayoff
    rw [h2]
    change a.swapPayoff isPayer (a.fdBond times rates bond g) (entry ++ [e]) = _
    rw [swapPayoff_eq a isPayer _ entry e (fun p => a.coupon (entry ++ [e, p]) * a.daycount (entry ++ [e, p]))
      (fun p => bond (rates.getD g 0) (a.exerciseTimes (entry ++ [e])) (a.paymentTimes (entry ++ [e, p]))) hm (fun p hp => by
        have := fdBond_eq a times rates hs' bond g hg entry hb e p he hp (hmem e he)
        simpa using this) (fun _ _ => rfl)]
    rfl
  · intro hne
    exact (hmap.2 j (fun e he h' => by
      apply hne e he
      have h1 := hidx e he
      rw [h', hj] at h1
      exact (Option.some.inj h1).symm)).2

/-- C111.  At every point of the time grid the values become the larger of holding on and exercising: the positive part of the own swap at the own
exercise times, and zero otherwise. -/
theorem C111_fd_exercise (a : BermudanBatch K) (isPayer : Bool) (times rates : List K) (tol : K) (ht : 0 < tol)
    (hg : times.Pairwise (fun a b => tol < b - a)) (bond : K → K → K → K) (entry : List Nat) (hb : Valid a.batch entry) (hm : 0 < a.numPayments)
    (hmem : ∀ e, e < a.numExercise → a.exerciseTimes (entry ++ [e]) ∈ times)
    (hd : ∀ e e', e < a.numExercise → e' < a.numExercise → a.exerciseTimes (entry ++ [e]) = a.exerciseTimes (entry ++ [e']) → e = e')
    (j : Nat) (t : K) (hj : times[j]? = some t) (values : List K) (hl : values.length = rates.length) (g : Nat) (v : K) (hv : values[g]? = some v) :
    ∃ payoff, OwnPayoff a.numExercise (fun e => a.exerciseTimes (entry ++ [e])) (fdSwap a isPayer bond (rates.getD g 0) entry) t payoff ∧
      (a.valuesTransform isPayer times rates bond tol entry t values)[g]? = some (max v payoff) := by
  have hlt : times.Pairwise (· < ·) := hg.imp (fun {a b} h => by linarith)
  have hgl : g < rates.length := hl ▸ (List.getElem?_eq_some_iff.1 hv).1
  obtain ⟨h1, h2⟩ := C111_fd_payoff a isPayer times rates hlt bond entry hb hm hmem hd g hgl j t hj
  refine ⟨max (a.payoffAt isPayer times rates bond entry j g) 0, ?_, ?_⟩
  · by_cases h : ∃ e, e < a.numExercise ∧ a.exerciseTimes (entry ++ [e]) = t
    · obtain ⟨e, he, het⟩ := h
      exact Or.inl ⟨e, he, het, by rw [h1 e he het]⟩
    · have hne : ∀ e, e < a.numExercise → a.exerciseTimes (entry ++ [e]) ≠ t := fun e he h' => h ⟨e, he, h'⟩
      exact Or.inr ⟨hne, by rw [h2 hne, max_self]⟩
  · unfold BermudanBatch.valuesTransform
    dsimp only
    rw [gridIndex_point times tol ht hg j t hj, List.getElem?_map, List.getElem?_zipIdx, hv]
    simp only [Option.map_some, zero_add, Int.toNat_natCast]
    rw [if_pos (by omega)]

/-- At time 2 the second entry of `orderBatch` exercises into a swap to time 10, which is worth 8/5 at the highest short rate. -/
example : (orderBatch ℚ).valuesTransform true [0, 1, 2, 3] [-(1 / 5), 0, 1 / 5] (fun r t T => 1 - r * (T - t)) (1 / 10000000) [1] 2 [1, 2, 1] =
    [1, 2, 8 / 5] := by decide +kernel

/-- The last time index of the payoffs is the largest exercise index of the batch. -/
theorem fdPayoff_last (a : BermudanBatch K) (isPayer : Bool) (times rates : List K) (bond : K → K → K → K) :
    (a.fdPayoff isPayer times rates bond).shape.getLastD 0 - 1 =
      (flatValues (rates.length :: a.exerciseShape) (fun idx => searchLeft times (a.exerciseTimes idx.tail))).foldl max 0 := by
  unfold BermudanBatch.fdPayoff mapPayoffToSimTimes sparseToDense
  simp [BermudanBatch.fdTimeIndex]

theorem foldl_max_eq (l : List Nat) (m : Nat) (h : ∀ x ∈ l, x ≤ m) (hm : m ∈ l) : l.foldl max 0 = m := by
  have aux : ∀ (l : List Nat) (a : Nat), a ≤ l.foldl max a ∧ (∀ x ∈ l, x ≤ l.foldl max a) ∧ (∀ b, a ≤ b → (∀ x ∈ l, x ≤ b) → l.foldl max a ≤ b) := by
    intro l
    induction l with
    | nil => intro a; exact ⟨le_refl _, by simp, fun b h _ => h⟩
    | cons y ys ih =>
      intro a
      obtain ⟨h1, h2, h3⟩ := ih (max a y)
      refine ⟨le_trans (le_max_left _ _) h1, ?_, ?_⟩
      · intro x hx
        rcases List.mem_cons.1 hx with rfl | hx
        · exact le_trans (le_max_right _ _) h1
        · exact h2 x hx
      · intro b hab hb
        exact h3 b (max_le hab (hb y List.mem_cons_self)) (fun x hx => hb x (List.mem_cons_of_mem _ hx))
  obtain ⟨_, h2, h3⟩ := aux l 0
  exact le_antisymm (h3 m (Nat.zero_le _) h) (h2 m hm)

/-- C111.  The solver begins with what exercising pays at the end of the grid, if the last of the times in the order of their occurrence is the
largest.  What is missing: the other orders, see `C111_fd_order_deviates`. -/
theorem C111_fd_final_partial (a : BermudanBatch K) (isPayer : Bool) (times rates : List K) (hsort : times.Pairwise (· < ·)) (bond : K → K → K → K)
    (entry : List Nat) (hb : Valid a.batch entry) (hm : 0 < a.numPayments)
    (hmem : ∀ t ∈ a.uniqueTimes, t ∈ times) (hlast : times.getLast? = some a.longestTime) (hne : a.uniqueTimes ≠ [])
    (hd : ∀ e e', e < a.numExercise → e' < a.numExercise → a.exerciseTimes (entry ++ [e]) = a.exerciseTimes (entry ++ [e']) → e = e')
    (g : Nat) (hg : g < rates.length) :
    ∃ payoff, OwnPayoff a.numExercise (fun e => a.exerciseTimes (entry ++ [e])) (fdSwap a isPayer bond (rates.getD g 0) entry) a.longestTime payoff ∧
      (a.finalValue isPayer times rates bond entry)[g]? = some payoff := by
  have hs' : times.Pairwise (· ≤ ·) := hsort.imp le_of_lt
  have htne : times ≠ [] := by rintro rfl; simp at hlast
  rw [List.getLast?_eq_getElem?] at hlast
  have hll := (List.getElem?_eq_some_iff.1 hlast).1
  have hidx : (a.fdPayoff isPayer times rates bond).shape.getLastD 0 - 1 = times.length - 1 := by
    rw [fdPayoff_last]
    apply foldl_max_eq
    · intro x hx
      obtain ⟨idx, hv, rfl⟩ := (mem_flatValues _ _ _).1 hx
      cases hv with
      | @cons i d is ds h1 h2 =>
        have : a.exerciseTimes is ∈ a.uniqueTimes := by
          unfold BermudanBatch.uniqueTimes
          rw [mem_tfUnique, mem_flatValues]
          exact ⟨_, h2, rfl⟩
        have h3 := searchLeft_mem times hs' _ (hmem _ this)
        have h4 := (List.getElem?_eq_some_iff.1 h3).1
        simp only [List.tail_cons] at h4 ⊢
        omega
    · have hL : a.longestTime ∈ a.uniqueTimes := by
        unfold BermudanBatch.longestTime
        rw [List.getLastD_eq_getLast?, List.getLast?_eq_some_getLast hne]
        exact List.getLast_mem hne
      rw [mem_flatValues]
      unfold BermudanBatch.uniqueTimes at hL
      rw [mem_tfUnique, mem_flatValues] at hL
      obtain ⟨idx, hv, hx⟩ := hL
      refine ⟨g :: idx, .cons hg hv, ?_⟩
      rw [List.tail_cons, hx]
      apply searchLeft_eq times hs' _ _ (by omega)
      · intro c h1 hc
        exact pairwise_get hsort (show times.length - 1 - 1 < times.length - 1 by omega) hc hlast
      · intro c hc
        rw [hlast] at hc
        exact (Option.some.inj hc).le
  obtain ⟨h1, h2⟩ := C111_fd_payoff a isPayer times rates hsort bond entry hb hm (fun e he => hmem _ (exercise_mem a hb he)) hd g hg
    (times.length - 1) a.longestTime hlast
  refine ⟨max (a.payoffAt isPayer times rates bond entry (times.length - 1) g) 0, ?_, ?_⟩
  · by_cases h : ∃ e, e < a.numExercise ∧ a.exerciseTimes (entry ++ [e]) = a.longestTime
    · obtain ⟨e, he, het⟩ := h
      exact Or.inl ⟨e, he, het, by rw [h1 e he het]⟩
    · have hne : ∀ e, e < a.numExercise → a.exerciseTimes (entry ++ [e]) ≠ a.longestTime := fun e he h' => h ⟨e, he, h'⟩
      exact Or.inr ⟨hne, by rw [h2 hne, max_self]⟩
  · unfold BermudanBatch.finalValue
    rw [List.getElem?_map, List.getElem?_range hg, Option.map_some, hidx]

/-- The entry alone: the solver starts at time 3 with 7/5, and with a scheme that loses a tenth in each step the price at 1/10 is 81/125. -/
example : (orderSingle ℚ).finalValue true [0, 1, 2, 3] [-(1 / 5), 0, 1 / 5] (fun r t T => 1 - r * (T - t)) [] = [0, 0, 7 / 5] ∧
    (orderSingle ℚ).priceFd true 3 (some 1) (1 / 10000000) (fun r t T => 1 - r * (T - t)) (1 / 10)
      (fun _ _ _ _ _ v => some (v.map (fun x => x * 9 / 10))) 10 [] = some (81 / 125) := by decide +kernel

/-- C111, deviation: the order matters for finite differences too.  For the batch of `C111_order_deviates` the solver starts at time 2 with what
exercising pays at time 3. -/
theorem C111_fd_order_deviates :
    (orderBatch ℚ).longestTime = 2 ∧ (orderBatch ℚ).pdeTimeGrid (some 1) (1 / 10000000) = ([0, 1, 2, 3], [100, 1, 1, 1]) ∧
    (orderBatch ℚ).finalValue true [0, 1, 2, 3] [-(1 / 5), 1 / 5] (fun _ t _ => 1 - t / 10) [1] = [3 / 10, 3 / 10] ∧
    fdSwap (orderBatch ℚ) true (fun _ t _ => 1 - t / 10) (1 / 5) [1] 0 = 2 / 10 ∧
    fdSwap (orderBatch ℚ) true (fun _ t _ => 1 - t / 10) (1 / 5) [1] 1 = 3 / 10 := by decide +kernel

/-- C111, deviation: an exercise time that is less than the tolerance after another point of the grid is dropped, and the exercise takes place at the
next point of the grid, here at 3/2 instead of 1 plus a hundred millionth. -/
theorem C111_fd_tolerance_deviates :
    let a : BermudanBatch ℚ := ⟨[], 2, 1, fun idx => if idx = [0] then 1 + 1 / 100000000 else 2, fun _ => 10, fun _ => 1, fun _ => 0, fun _ => 1⟩
    a.pdeTimeGrid (some (1 / 2)) (1 / 10000000) = ([0, 1 / 2, 1, 3 / 2, 2], [100, 1 / 2, 1 / 2, 1 / 2 - 1 / 100000000, 1 / 2]) ∧
    a.payoffAt true [0, 1 / 2, 1, 3 / 2, 2] [-(1 / 5), 1 / 5] (fun _ t _ => 1 - t / 10) [] 2 0 = 0 ∧
    a.payoffAt true [0, 1 / 2, 1, 3 / 2, 2] [-(1 / 5), 1 / 5] (fun _ t _ => 1 - t / 10) [] 3 0 = 3 / 20 := by decide +kernel

/-- C111, deviation: for a payer swaption the value at the highest short rate is set, at an exercise time, to the value of the swap at the lowest short
rate, without its positive part; if bond prices fall with the short rate and coupons are not negative, this is below the value of the swap there. At
other times it is set to zero. -/
theorem C111_upper_deviates (a : BermudanBatch K) (times rates : List K) (tol : K) (ht : 0 < tol)
    (hg : times.Pairwise (fun a b => tol < b - a)) (bond : K → K → K → K) (entry : List Nat) (hb : Valid a.batch entry) (hm : 0 < a.numPayments)
    (hmem : ∀ e, e < a.numExercise → a.exerciseTimes (entry ++ [e]) ∈ times)
    (hd : ∀ e e', e < a.numExercise → e' < a.numExercise → a.exerciseTimes (entry ++ [e]) = a.exerciseTimes (entry ++ [e']) → e = e')
    (hr : rates.headD 0 < rates.getLastD 0) (hbond : ∀ t T r r', r < r' → bond r' t T < bond r t T)
    (hacc : ∀ idx, 0 ≤ a.coupon idx * a.daycount idx) (e : Nat) (he : e < a.numExercise) :
    a.upperBoundary true times rates bond tol entry (a.exerciseTimes (entry ++ [e])) = fdSwap a true bond (rates.headD 0) entry e ∧
    a.upperBoundary true times rates bond tol entry (a.exerciseTimes (entry ++ [e])) < fdSwap a true bond (rates.getLastD 0) entry e := by
  have hlt : times.Pairwise (· < ·) := hg.imp (fun {a b} h => by linarith)
  have hlen : 0 < rates.length := by
    rcases Nat.eq_zero_or_pos rates.length with h | h
    · rw [List.length_eq_zero_iff] at h
      rw [h] at hr
      exact absurd hr (lt_irrefl _)
    · exact h
  obtain ⟨j, hj⟩ := List.mem_iff_getElem?.1 (hmem e he)
  have h1 := (C111_fd_payoff a true times rates hlt bond entry hb hm hmem hd 0 hlen j _ hj).1 e he rfl
  have h0 : rates.getD 0 0 = rates.headD 0 := by cases rates <;> rfl
  have h2 : a.upperBoundary true times rates bond tol entry (a.exerciseTimes (entry ++ [e])) = fdSwap a true bond (rates.headD 0) entry e := by
    unfold BermudanBatch.upperBoundary
    dsimp only
    rw [gridIndex_point times tol ht hg j _ hj, if_pos rfl, if_pos (by omega), Int.toNat_natCast, h1, h0]
  refine ⟨h2, ?_⟩
  rw [h2]
  unfold fdSwap payerSwapValue
  dsimp only
  rw [if_pos rfl, if_pos rfl]
  have hs : ∑ p ∈ Finset.range a.numPayments, a.coupon (entry ++ [e, p]) * a.daycount (entry ++ [e, p]) *
        bond (rates.getLastD 0) (a.exerciseTimes (entry ++ [e])) (a.paymentTimes (entry ++ [e, p])) ≤
      ∑ p ∈ Finset.range a.numPayments, a.coupon (entry ++ [e, p]) * a.daycount (entry ++ [e, p]) *
        bond (rates.headD 0) (a.exerciseTimes (entry ++ [e])) (a.paymentTimes (entry ++ [e, p])) :=
    Finset.sum_le_sum (fun p _ => mul_le_mul_of_nonneg_left (hbond _ _ _ _ hr).le (hacc _))
  have hl := hbond (a.exerciseTimes (entry ++ [e])) (a.paymentTimes (entry ++ [e, a.numPayments - 1])) _ _ hr
  linarith

/-- With linear bond prices: the boundary at the highest rate 1/5 gets minus a fifth of the time to maturity. -/
example : (orderBatch ℚ).upperBoundary true [0, 1, 2, 3] [-(1 / 5), 0, 1 / 5] (fun r t T => 1 - r * (T - t)) (1 / 10000000) [1] 2 = -(8 / 5) ∧
    fdSwap (orderBatch ℚ) true (fun r t T => 1 - r * (T - t)) (1 / 5) [1] 0 = 8 / 5 := by decide +kernel

omit [IsStrictOrderedRing K] in
/-- C111.  The lower boundary of a payer swaption is zero. -/
theorem C111_lower (a : BermudanBatch K) (times rates : List K) (tol : K) (bond : K → K → K → K) (entry : List Nat) (t : K) :
    a.lowerBoundary true times rates bond tol entry t = 0 ∧ a.upperBoundary false times rates bond tol entry t = 0 :=
  ⟨rfl, rfl⟩

/-- C111, deviation: receiver swaptions are priced as payer swaptions. -/
theorem C111_receiver_deviates [FloorRing K] (a : BermudanBatch K) (numPoints : Nat) (step : Option K) (tol : K) (bond : K → K → K → K) (forward : K)
    (scheme : (K → K) → (K → K) → K → K → Nat → List K → Option (List K)) (maximumSteps : Nat) (entry : List Nat) (isPayer : Bool) :
    a.bermudanFd isPayer numPoints step tol bond forward scheme maximumSteps entry =
      a.priceFd true numPoints step tol bond forward scheme maximumSteps entry := rfl

end

end Props
