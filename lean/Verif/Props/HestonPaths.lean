import Verif.Props.Heston

/-! # C61: the times and the parameters of the sampled paths -/

namespace Lemmas
open Model Spec

theorem zip_fst_snd {A B : Type} (l : List (A × B)) : (l.map Prod.fst).zip (l.map Prod.snd) = l := by
  induction l with
  | nil => rfl
  | cons a l ih => simp [ih]

/-- With one requested time both loops agree. -/
theorem recordingLoop_one {S Z : Type} (step : ℝ → ℝ → S → Z → S) (l : List (ℝ × Bool)) (zs : List Z) (t : ℝ) (x : S) :
    recordingLoop step 1 l zs t 0 x [some x] = [some (lastLoop step 1 l zs t 0 x)] := by
  induction l generalizing zs t x with
  | nil => simp [recordingLoop, lastLoop]
  | cons p l ih =>
    obtain ⟨t', keep⟩ := p
    cases zs with
    | nil => simp [recordingLoop, lastLoop]
    | cons z zs =>
      cases keep with
      | false => simpa [recordingLoop, lastLoop] using ih zs t' _
      | true => cases l <;> cases zs <;> simp [recordingLoop, lastLoop]

/-- The marked entries of two lists. -/
theorem filter_zip {A B : Type} (xs : List A) (l : List (B × Bool)) (hl : xs.length = l.length) (j : Nat) (b : B)
    (hj : ((l.filter Prod.snd).map Prod.fst)[j]? = some b) :
    ∃ (i : Nat) (a : A), l[i]? = some (b, true) ∧ xs[i]? = some a ∧ (((xs.zip (l.map Prod.snd)).filter Prod.snd).map (fun p => some p.1))[j]? = some (some a) := by
  induction l generalizing xs j with
  | nil => simp at hj
  | cons p l ih =>
    obtain ⟨b', keep⟩ := p
    cases xs with
    | nil => simp at hl
    | cons x xs =>
      have hl' : xs.length = l.length := by simpa using hl
      cases keep with
      | false =>
        obtain ⟨i, a, h1, h2, h3⟩ := ih xs hl' j (by simpa using hj)
        exact ⟨i + 1, a, by simpa using h1, by simpa using h2, by simpa using h3⟩
      | true =>
        cases j with
        | zero =>
          refine ⟨0, x, ?_, by simp, by simp⟩
          simpa using hj
        | succ j =>
          obtain ⟨i, a, h1, h2, h3⟩ := ih xs hl' j (by simpa using hj)
          exact ⟨i + 1, a, by simpa using h1, by simpa using h2, by simpa using h3⟩

/-- What the loop returns if the first point of the grid is not requested. -/
theorem samplePaths_eq (h : Heston) (t0 : ℝ) (rest : List (ℝ × Bool)) (requested : Nat) (hr : requested = (rest.filter Prod.snd).length)
    (hr0 : 0 < requested) (tol : ℝ) (x0 : ℝ × ℝ) (draws : List (ℝ × ℝ)) (hd : draws.length = rest.length) :
    h.samplePaths requested ((t0, false) :: rest) tol x0 draws =
      (((schemeStates (hestonStep tol) t0 x0 (rest.map Prod.fst)
        (((t0 :: rest.map Prod.fst).map (fun t => h.params (t + Heston.minStep (t0 :: rest.map Prod.fst) / 2))).zip draws)).tail.zip
          (rest.map Prod.snd)).filter Prod.snd).map (fun p => some p.1) := by
  have e : h.samplePaths requested ((t0, false) :: rest) tol x0 draws =
      recordingLoop (hestonStep tol) requested rest
        (((t0 :: rest.map Prod.fst).map (fun t => h.params (t + Heston.minStep (t0 :: rest.map Prod.fst) / 2))).zip draws) t0 0 x0
        ((List.replicate requested none).set 0 (some x0)) := by
    unfold Heston.samplePaths
    by_cases h1 : requested = 1
    · simp only [h1, if_true, List.map_cons, List.tail_cons, List.headD_cons]
      exact (recordingLoop_one _ _ _ _ _).symm
    · simp only [h1, if_false, List.map_cons, List.tail_cons, List.headD_cons]
  rw [e]
  set zs := ((t0 :: rest.map Prod.fst).map (fun t => h.params (t + Heston.minStep (t0 :: rest.map Prod.fst) / 2))).zip draws with hzs
  have hzl : zs.length = (rest.map Prod.fst).length := by
    rw [hzs, List.length_zip, List.length_map, List.length_cons, hd, List.length_map]
    omega
  have hst := schemeStates_length (hestonStep tol) t0 x0 (rest.map Prod.fst) zs hzl
  conv_lhs => rw [← zip_fst_snd rest]
  rw [recordingLoop_eq _ _ _ _ _ _ _ _ _ hzl (by simp)]
  set states := schemeStates (hestonStep tol) t0 x0 (rest.map Prod.fst) zs
  have hf : (((states.tail.zip (rest.map Prod.snd)).filter Prod.snd)).length = (rest.filter Prod.snd).length := by
    have h1 : ∀ (A : Type) (xs : List A) (l : List (ℝ × Bool)), xs.length = l.length →
        ((xs.zip (l.map Prod.snd)).filter Prod.snd).length = (l.filter Prod.snd).length := by
      intro A xs l hl
      induction l generalizing xs with
      | nil => simp
      | cons p l ih =>
        obtain ⟨b', keep⟩ := p
        cases xs with
        | nil => simp at hl
        | cons x xs => cases keep <;> simpa using ih xs (by simpa using hl)
    exact h1 _ _ _ (by rw [List.length_tail, hst]; simp)
  rw [recordLoop_eq requested _ 0 _ (by simp) (by rw [hf, hr, Nat.zero_add])]
  simp

theorem tfRange_cons (last step : ℝ) (h1 : 0 < last) (h2 : 0 < step) : ∃ l, tfRange last step = 0 :: l ∧ ∀ t ∈ l, 0 ≤ t := by
  have hpos : 0 < ⌈last / step⌉.toNat := by
    have : 0 < ⌈last / step⌉ := Int.ceil_pos.2 (by positivity)
    omega
  obtain ⟨n, hn⟩ : ∃ n, ⌈last / step⌉.toNat = n + 1 := ⟨⌈last / step⌉.toNat - 1, by omega⟩
  unfold tfRange
  rw [hn, List.range_succ_eq_map]
  refine ⟨_, by rw [List.map_cons, Nat.cast_zero, zero_mul], ?_⟩
  intro t ht
  simp only [List.mem_map] at ht
  obtain ⟨a, _, rfl⟩ := ht
  positivity

theorem filter_false {A : Type} (l : List A) : (l.map (fun t => (t, false))).filter Prod.snd = [] := by
  induction l with
  | nil => rfl
  | cons a l ih => simp

theorem filter_true {A : Type} (l : List A) : ((l.map (fun t => (t, true))).filter Prod.snd).map Prod.fst = l := by
  induction l with
  | nil => rfl
  | cons a l ih => simpa using ih

/-- The grid of the code. -/
theorem heston_grid (h : Heston) (times : List ℝ) (timeStep : ℝ) (hs : times.Pairwise (· ≤ ·)) (h0 : ∀ t ∈ times, 0 ≤ t) (hl : 0 < times.getLastD 0)
    (hstep : 0 < timeStep) (hj : ∀ t ∈ h.jumps, 0 ≤ t) :
    ∃ rest, h.grid times timeStep = (0, false) :: rest ∧ ((0 : ℝ) :: rest.map Prod.fst).Pairwise (· ≤ ·) ∧ (rest.filter Prod.snd).map Prod.fst = times ∧
      (∀ t ∈ h.jumps, t ∈ rest.map Prod.fst) := by
  obtain ⟨l, e1, e2⟩ := tfRange_cons _ _ hl hstep
  let others := l.map (fun t => (t, false)) ++ times.map (fun t => (t, true)) ++ h.jumps.map (fun t => (t, false))
  have hothers : ∀ b ∈ others, (0 : ℝ) ≤ b.1 := by
    intro b hb
    simp only [others, List.mem_append, List.mem_map] at hb
    rcases hb with (⟨t, ht, rfl⟩ | ⟨t, ht, rfl⟩) | ⟨t, ht, rfl⟩
    · exact e2 t ht
    · exact h0 t ht
    · exact hj t ht
  have hgrid : h.grid times timeStep = (0, false) :: others.insertionSort (fun a b => a.1 ≤ b.1) := by
    unfold Heston.grid
    rw [e1]
    exact List.insertionSort_cons_of_forall_rel (r := fun a b : ℝ × Bool => a.1 ≤ b.1) (a := (0, false)) (l := others) hothers
  have hperm : (others.insertionSort (fun a b => a.1 ≤ b.1)).Perm others := List.perm_insertionSort _ _
  have : Std.Total (fun a b : ℝ × Bool => a.1 ≤ b.1) := ⟨fun a b => le_total a.1 b.1⟩
  have : IsTrans (ℝ × Bool) (fun a b : ℝ × Bool => a.1 ≤ b.1) := ⟨fun a b c h1 h2 => le_trans h1 h2⟩
  have hsort : (others.insertionSort (fun a b => a.1 ≤ b.1)).Pairwise (fun a b => a.1 ≤ b.1) := List.pairwise_insertionSort _ _
  refine ⟨_, hgrid, ?_, ?_, ?_⟩
  · rw [List.pairwise_cons]
    refine ⟨?_, List.pairwise_map.2 hsort⟩
    intro a ha
    obtain ⟨b, hb, rfl⟩ := List.mem_map.1 ha
    exact hothers b (hperm.mem_iff.1 hb)
  · apply List.Perm.eq_of_pairwise (le := (· ≤ ·))
    · intro a b _ _ h1 h2; exact le_antisymm h1 h2
    · exact List.pairwise_map.2 (hsort.filter _)
    · exact hs
    · have h1 := (hperm.filter Prod.snd).map Prod.fst
      have h2 : (others.filter Prod.snd).map Prod.fst = times := by
        simp only [others, List.filter_append, List.map_append, filter_false, filter_true]
        simp
      rwa [h2] at h1
  · intro t ht
    refine List.mem_map.2 ⟨(t, false), hperm.mem_iff.2 ?_, rfl⟩
    simp only [others, List.mem_append, List.mem_map]
    exact Or.inr ⟨t, ht, rfl⟩

theorem foldl_min_bounds (l : List ℝ) (a : ℝ) : l.foldl min a ≤ a ∧ ∀ x ∈ l, l.foldl min a ≤ x := by
  induction l generalizing a with
  | nil => simp
  | cons b l ih =>
    obtain ⟨h1, h2⟩ := ih (min a b)
    rw [List.foldl_cons]
    refine ⟨h1.trans (min_le_left _ _), ?_⟩
    intro x hx
    rcases List.mem_cons.1 hx with rfl | hx
    · exact h1.trans (min_le_right _ _)
    · exact h2 x hx

theorem minStep_le (times : List ℝ) (i : Nat) (a b : ℝ) (ha : times[i]? = some a) (hb : times[i + 1]? = some b) : Heston.minStep times ≤ b - a := by
  have hlt : i + 1 < times.length := (List.getElem?_eq_some_iff.1 hb).1
  have hmem : b - a ∈ List.zipWith (fun a b => a - b) times.tail times.dropLast := by
    apply List.mem_of_getElem? (i := i)
    rw [List.getElem?_zipWith, List.getElem?_tail, hb, List.getElem?_dropLast, if_pos (by omega), ha]
  unfold Heston.minStep
  simp only
  generalize List.zipWith (fun a b => a - b) times.tail times.dropLast = dt at hmem
  cases dt with
  | nil => simp at hmem
  | cons d dt =>
    obtain ⟨h1, h2⟩ := foldl_min_bounds dt d
    rcases List.mem_cons.1 hmem with h | h
    · rw [h]; exact h1
    · exact h2 _ h

theorem takeWhile_congr_mem {A : Type} (l : List A) (p q : A → Bool) (h : ∀ a ∈ l, p a = q a) : l.takeWhile p = l.takeWhile q := by
  induction l with
  | nil => rfl
  | cons a l ih =>
    rw [List.takeWhile_cons, List.takeWhile_cons, h a (by simp), ih fun b hb => h b (List.mem_cons_of_mem _ hb)]

end Lemmas

namespace Props
open Model Spec Lemmas

/-- C61: without a supplied grid, the samples are the states of one path at the requested times: the path starts with the initial state and follows
the steps of the scheme, with the parameters that the code evaluates for each step. -/
theorem C61_times (h : Heston) (times : List ℝ) (timeStep tol : ℝ) (hs : times.Pairwise (· ≤ ·)) (h0 : ∀ t ∈ times, 0 ≤ t) (hl : 0 < times.getLastD 0)
    (hstep : 0 < timeStep) (hj : ∀ t ∈ h.jumps, 0 ≤ t) :
    ∃ grid : List ℝ, grid.head? = some 0 ∧ grid.Pairwise (· ≤ ·) ∧ (∀ t ∈ h.jumps, t ∈ grid) ∧
      ∀ (x0 : ℝ × ℝ) (draws : List (ℝ × ℝ)), draws.length + 1 = grid.length → ∃ (samples : List (Option (ℝ × ℝ))) (X : Nat → ℝ × ℝ),
        h.sample times timeStep tol none x0 draws = some samples ∧ X 0 = x0 ∧
        (∀ i, i < draws.length → X (i + 1) = hestonStep tol (grid.getD (i + 1) 0) (grid.getD (i + 1) 0 - grid.getD i 0) (X i)
          (h.params (grid.getD i 0 + Heston.minStep grid / 2), draws.getD i (0, 0))) ∧
        ∀ (j : Nat) (t : ℝ), times[j]? = some t → ∃ i, grid[i]? = some t ∧ samples[j]? = some (some (X i)) := by
  obtain ⟨rest, e1, e2, e3, e4⟩ := heston_grid h times timeStep hs h0 hl hstep hj
  refine ⟨0 :: rest.map Prod.fst, rfl, e2, fun t ht => List.mem_cons_of_mem _ (e4 t ht), ?_⟩
  intro x0 draws hd
  have hd' : draws.length = rest.length := by simpa using hd
  have hlen : times.length = (rest.filter Prod.snd).length := by rw [← e3]; simp
  have hpos : 0 < times.length := by
    cases times with
    | nil => simp at hl
    | cons a b => simp
  have hsamp := samplePaths_eq h 0 rest times.length hlen hpos tol x0 draws hd'
  set ts := rest.map Prod.fst with hts
  set zs := ((0 :: ts).map (fun t => h.params (t + Heston.minStep (0 :: ts) / 2))).zip draws with hzs
  have htl : ts.length = rest.length := by simp [hts]
  have hzl : zs.length = ts.length := by
    rw [hzs, List.length_zip, List.length_map, List.length_cons, hd', htl]
    omega
  have hst := schemeStates_length (hestonStep tol) 0 x0 ts zs hzl
  set states := schemeStates (hestonStep tol) 0 x0 ts zs with hstd
  have hsome : ∀ i, i < ts.length + 1 → states[i]? = some (states.getD i (0, 0)) := fun i hi => some_getD states i (0, 0) (by omega)
  refine ⟨_, fun i => states.getD i (0, 0), by unfold Heston.sample; rw [e1, hsamp], ?_, ?_, ?_⟩
  · have hh := schemeStates_head (hestonStep tol) 0 x0 ts zs
    rw [← hstd, hsome 0 (by omega)] at hh
    exact Option.some.inj hh
  · intro i hi
    have hz : zs[i]? = some (h.params ((0 :: ts).getD i 0 + Heston.minStep (0 :: ts) / 2), draws.getD i (0, 0)) := by
      rw [hzs]
      apply List.getElem?_zip_eq_some.2
      constructor
      · rw [List.getElem?_map, some_getD (0 :: ts) i 0 (by simp; omega)]
        rfl
      · exact some_getD _ _ _ hi
    have := schemeStates_step (hestonStep tol) 0 x0 ts zs hzl i (by omega) _ (hsome i (by omega)) _ hz
    rw [← hstd, hsome (i + 1) (by omega)] at this
    exact Option.some.inj this
  · intro j t hjt
    rw [← e3] at hjt
    obtain ⟨i, a, f1, f2, f3⟩ := filter_zip states.tail rest (by rw [List.length_tail, hst]; omega) j t hjt
    refine ⟨i + 1, ?_, ?_⟩
    · rw [List.getElem?_cons_succ, hts, List.getElem?_map, f1]; rfl
    · have hi : i < states.tail.length := (List.getElem?_eq_some_iff.1 f2).1
      rw [List.getElem?_tail, hsome (i + 1) (by rw [List.length_tail] at hi; omega)] at f2
      rw [f3, ← Option.some.inj f2]

/-- C61: if the grid has no repeated point, every step uses the parameters in force during the step. Missing: repeated points, see
`C61_old_parameters`. -/
theorem C61_parameters_partial (param : TimeParam) (grid : List ℝ) (hj : ∀ t ∈ param.jumpList, t ∈ grid) (hs : grid.Pairwise (· ≤ ·))
    (hmin : 0 < Heston.minStep grid) (i : Nat) (a b : ℝ) (ha : grid[i]? = some a) (hb : grid[i + 1]? = some b) (s : ℝ) (h1 : a < s) (h2 : s ≤ b) :
    param.eval (a + Heston.minStep grid / 2) = param.eval s := by
  cases param with
  | constant c => rfl
  | piecewise jumps values =>
    have hle := minStep_le grid i a b ha hb
    simp only [TimeParam.eval, piecewiseConstant, if_true]
    congr 1
    unfold searchLeft
    congr 1
    apply takeWhile_congr_mem
    intro t ht
    obtain ⟨k, hk, rfl⟩ := List.getElem_of_mem (hj t ht)
    have hcase : grid[k] ≤ a ∨ b ≤ grid[k] := by
      obtain ⟨hi, rfl⟩ := List.getElem?_eq_some_iff.1 ha
      obtain ⟨hi', rfl⟩ := List.getElem?_eq_some_iff.1 hb
      rw [List.pairwise_iff_getElem] at hs
      rcases Nat.lt_or_ge i k with hik | hik
      · right
        rcases Nat.eq_or_lt_of_le hik with e | e
        · subst e; exact le_rfl
        · exact hs _ _ _ _ e
      · left
        rcases Nat.eq_or_lt_of_le hik with e | e
        · subst e; exact le_rfl
        · exact hs _ _ _ _ e
    rcases hcase with hc | hc
    · rw [decide_eq_true (by linarith), decide_eq_true (by linarith)]
    · rw [decide_eq_false (by linarith), decide_eq_false (by linarith)]

/-- C61 (deviation): if a requested time is a jump of the parameters, the grid has a repeated point and the step after the jump uses the parameters
from before the jump. Here the value `b` of `theta` after time 1 has no influence on the samples at the times 1 and 2. -/
theorem C61_old_parameters (k s r : ℝ) (a b b' tol : ℝ) (x0 : ℝ × ℝ) (draws : List (ℝ × ℝ)) :
    Heston.sample ⟨.constant k, .piecewise [1] [a, b], .constant s, .constant r⟩ [1, 2] 1 tol none x0 draws =
    Heston.sample ⟨.constant k, .piecewise [1] [a, b'], .constant s, .constant r⟩ [1, 2] 1 tol none x0 draws := by
  have hr : tfRange (2 : ℝ) 1 = [0, 1] := by
    unfold tfRange
    have : ⌈(2 : ℝ) / 1⌉.toNat = 2 := by norm_num; rfl
    rw [this]
    simp [List.range_succ]
  have hg : ∀ b, Heston.grid ⟨.constant k, .piecewise [1] [a, b], .constant s, .constant r⟩ [1, 2] 1 =
      [(0, false), (1, false), (1, true), (1, false), (2, true)] := by
    intro b
    unfold Heston.grid
    simp only [List.getLastD_cons, List.getLastD_nil, hr, Heston.jumps, TimeParam.jumpList]
    norm_num
  have hp : ∀ b t, t ≤ 1 → Heston.params ⟨.constant k, .piecewise [1] [a, b], .constant s, .constant r⟩ t = ⟨k, a, s, r⟩ := by
    intro b t ht
    have : ¬ (1 : ℝ) < t := by linarith
    simp [Heston.params, TimeParam.eval, piecewiseConstant, searchLeft, this]
  unfold Heston.sample
  simp only [hg, Heston.samplePaths]
  have hm : Heston.minStep [0, 1, 1, 1, 2] = 0 := by simp [Heston.minStep]
  have hz : ∀ b, (([(0, false), (1, false), (1, true), (1, false), (2, true)] : List (ℝ × Bool)).map Prod.fst).map (fun t =>
      Heston.params ⟨.constant k, .piecewise [1] [a, b], .constant s, .constant r⟩ (t + Heston.minStep ([(0, false), (1, false), (1, true), (1, false), (2, true)].map Prod.fst) / 2)) =
      [⟨k, a, s, r⟩, ⟨k, a, s, r⟩, ⟨k, a, s, r⟩, ⟨k, a, s, r⟩, Heston.params ⟨.constant k, .piecewise [1] [a, b], .constant s, .constant r⟩ 2] := by
    intro b
    simp only [List.map_cons, List.map_nil, hm]
    norm_num [hp]
  simp only [hz]
  rcases draws with _ | ⟨d0, _ | ⟨d1, _ | ⟨d2, _ | ⟨d3, ds⟩⟩⟩⟩ <;> simp [recordingLoop]

/-- C61 (deviation): with a supplied grid and the requested times 0 and 1, the state at time 1 is returned as the first sample, and the second
sample is never written. -/
theorem C61_given_grid (h : Heston) (timeStep tol : ℝ) (x0 z : ℝ × ℝ) :
    h.sample [0, 1] timeStep tol (some [0, 1]) x0 [z] = some [some (hestonStep tol 1 1 x0 (h.params (1 / 2), z)), none] := by
  have hg : prepareGrid [(0 : ℝ), 1] timeStep 0 none (some [0, 1]) = some ([0, 1], [true, true], [0, 1]) := by
    simp [prepareGrid, gridFromGrid, searchLeft, List.range_succ]
  unfold Heston.sample
  simp [hg, Heston.samplePaths, recordingLoop, Heston.minStep]

end Props
