import Verif.Model.Sampling
import Verif.Spec.Sampling
import Verif.Props.PrepareGrid
import Verif.Props.HullWhite
import Mathlib.Tactic.Linarith
import Mathlib.Tactic.Ring
import Mathlib.Tactic.FieldSimp
import Mathlib.Tactic.FinCases

/-! # C58, C59: the schemes of Euler and Milstein -/

namespace Lemmas
open Model Spec
open scoped BigOperators

variable {S Z : Type}

theorem some_getD {A : Type} (l : List A) (i : Nat) (d : A) (h : i < l.length) : l[i]? = some (l.getD i d) := by
  rw [List.getD_eq_getElem?_getD, List.getElem?_eq_getElem h]
  rfl

theorem schemeStates_length (step : ℝ → ℝ → S → Z → S) (t : ℝ) (x : S) (ts : List ℝ) (zs : List Z) (h : zs.length = ts.length) :
    (schemeStates step t x ts zs).length = ts.length + 1 := by
  induction ts generalizing t x zs with
  | nil => simp [schemeStates]
  | cons t' ts ih =>
    cases zs with
    | nil => simp at h
    | cons z zs => simp [schemeStates, ih _ _ zs (by simpa using h)]

theorem schemeStates_head (step : ℝ → ℝ → S → Z → S) (t : ℝ) (x : S) (ts : List ℝ) (zs : List Z) :
    (schemeStates step t x ts zs)[0]? = some x := by
  cases ts <;> cases zs <;> simp [schemeStates]

theorem schemeStates_step (step : ℝ → ℝ → S → Z → S) (t : ℝ) (x : S) (ts : List ℝ) (zs : List Z) (h : zs.length = ts.length) (i : Nat)
    (hi : i < ts.length) (s : S) (hs : (schemeStates step t x ts zs)[i]? = some s) (z : Z) (hz : zs[i]? = some z) :
    (schemeStates step t x ts zs)[i + 1]? =
      some (step ((t :: ts).getD (i + 1) 0) ((t :: ts).getD (i + 1) 0 - (t :: ts).getD i 0) s z) := by
  induction i generalizing t x ts zs with
  | zero =>
    cases ts with
    | nil => simp at hi
    | cons t' ts =>
      cases zs with
      | nil => simp at h
      | cons z' zs =>
        simp [schemeStates] at hs hz
        subst hs hz
        simp only [schemeStates, List.getElem?_cons_succ, schemeStates_head]
        simp
  | succ i ih =>
    cases ts with
    | nil => simp at hi
    | cons t' ts =>
      cases zs with
      | nil => simp at h
      | cons z' zs =>
        simp only [schemeStates, List.getElem?_cons_succ] at hs hz ⊢
        exact ih t' _ ts zs (by simpa using h) (by simpa using hi) hs hz

theorem recordingLoop_eq (step : ℝ → ℝ → S → Z → S) (requested : Nat) (ts : List ℝ) (ms : List Bool) (zs : List Z) (t : ℝ) (count : Nat) (x : S)
    (result : List (Option S)) (h : zs.length = ts.length) (hm : ms.length = ts.length) :
    recordingLoop step requested (ts.zip ms) zs t count x result =
      recordLoop requested ((schemeStates step t x ts zs).tail.zip ms) count result := by
  induction ts generalizing ms zs t count x result with
  | nil => simp [recordingLoop, recordLoop, schemeStates]
  | cons t' ts ih =>
    cases zs with
    | nil => simp at h
    | cons z zs =>
      cases ms with
      | nil => simp at hm
      | cons m ms =>
        have h' : zs.length = ts.length := by simpa using h
        have hm' : ms.length = ts.length := by simpa using hm
        have key : schemeStates step t' (step t' (t' - t) x z) ts zs =
            step t' (t' - t) x z :: (schemeStates step t' (step t' (t' - t) x z) ts zs).tail := by
          cases ts <;> cases zs <;> simp [schemeStates]
        simp only [List.zip_cons_cons, recordingLoop, schemeStates, List.tail_cons]
        rw [key]
        simp only [List.zip_cons_cons, recordLoop]
        rw [ih ms zs t' _ _ _ h' hm']

theorem lastLoop_one (step : ℝ → ℝ → S → Z → S) (l : List (ℝ × Bool)) (zs : List Z) (t : ℝ) (x : S) : lastLoop step 1 l zs t 1 x = x := by
  cases l <;> cases zs <;> simp [lastLoop]

theorem lastLoop_eq (step : ℝ → ℝ → S → Z → S) (ts : List ℝ) (ms : List Bool) (zs : List Z) (t : ℝ) (x : S) (h : zs.length = ts.length)
    (hm : ms.length = ts.length) (i : Nat) (hi : ms[i]? = some true) (hlt : ∀ k < i, ms[k]? = some false) :
    some (lastLoop step 1 (ts.zip ms) zs t 0 x) = (schemeStates step t x ts zs)[i + 1]? := by
  induction i generalizing ts ms zs t x with
  | zero =>
    cases ts with
    | nil => rw [List.length_nil, List.length_eq_zero_iff] at hm; subst hm; simp at hi
    | cons t' ts =>
      cases zs with
      | nil => simp at h
      | cons z zs =>
        cases ms with
        | nil => simp at hm
        | cons m ms =>
          simp at hi
          subst hi
          simp [lastLoop, lastLoop_one, schemeStates, schemeStates_head]
  | succ i ih =>
    cases ts with
    | nil => rw [List.length_nil, List.length_eq_zero_iff] at hm; subst hm; simp at hi
    | cons t' ts =>
      cases zs with
      | nil => simp at h
      | cons z zs =>
        cases ms with
        | nil => simp at hm
        | cons m ms =>
          have h0 := hlt 0 (by omega)
          simp at h0
          subst h0
          have := ih ts ms zs t' (step t' (t' - t) x z) (by simpa using h) (by simpa using hm) (by simpa using hi)
            (fun k hk => by simpa using hlt (k + 1) (by omega))
          simp only [List.zip_cons_cons, lastLoop, schemeStates, List.getElem?_cons_succ]
          simpa using this

end Lemmas

namespace Props
open Model Spec Lemmas
open scoped BigOperators

variable {S Z : Type}

/-- C58: for any scheme, if the positions of the requested times in the grid increase, the loop returns the states at these positions. -/
theorem C58_recording (step : ℝ → ℝ → S → Z → S) (t : ℝ) (ts : List ℝ) (x0 : S) (draws : List Z) (hd : draws.length = ts.length) (indices : List Nat)
    (hne : indices ≠ []) (hs : indices.Pairwise (· < ·)) (hlt : ∀ i ∈ indices, i < ts.length + 1) :
    whileSample step indices.length (t :: ts) ((List.range (ts.length + 1)).map (fun i => indices.contains i)) x0 draws =
      indices.map (fun i => (schemeStates step t x0 ts draws)[i]?) := by
  have hsl := schemeStates_length step t x0 ts draws hd
  set states := schemeStates step t x0 ts draws with hst
  set mask := (List.range (ts.length + 1)).map (fun i => indices.contains i) with hmask
  have hml : mask.length = ts.length + 1 := by simp [hmask]
  have hmi : ∀ i, i < ts.length + 1 → mask[i]? = some (indices.contains i) := by
    intro i hi
    rw [hmask, List.getElem?_map, List.getElem?_range hi]
    rfl
  obtain ⟨m0, ms, hms⟩ : ∃ m0 ms, mask = m0 :: ms := by
    cases h : mask with
    | nil => rw [h] at hml; simp at hml
    | cons a b => exact ⟨a, b, rfl⟩
  have hms' : ms.length = ts.length := by rw [hms] at hml; simpa using hml
  obtain ⟨s0, ss, hss⟩ : ∃ s0 ss, states = s0 :: ss := by
    cases h : states with
    | nil => rw [h] at hsl; simp at hsl
    | cons a b => exact ⟨a, b, rfl⟩
  have hs0 : s0 = x0 := by
    have := schemeStates_head step t x0 ts draws
    rw [← hst, hss] at this
    simpa using this
  unfold whileSample
  simp only [List.headD_cons, List.tail_cons]
  by_cases h1 : indices.length = 1
  · -- one requested time
    rw [if_pos h1]
    obtain ⟨i, rfl⟩ := List.length_eq_one_iff.1 h1
    simp only [List.map_cons, List.map_nil, List.cons.injEq, and_true, List.length_singleton]
    have hi : i < ts.length + 1 := hlt i (by simp)
    have hm0 : m0 = decide (i = 0) := by
      have := hmi 0 (by omega)
      rw [hms] at this
      simp at this
      rw [this]
      simp [eq_comm]
    rw [hms]
    simp only [List.headD_cons, List.tail_cons, hm0]
    cases i with
    | zero =>
      simp only [decide_true, if_true, lastLoop_one]
      rw [hss, hs0]
      rfl
    | succ i =>
      simp only [Nat.add_eq_zero_iff, one_ne_zero, and_false, decide_false, Bool.false_eq_true, if_false]
      apply lastLoop_eq step ts ms draws t x0 hd hms' i
      · have := hmi (i + 1) hi
        rw [hms] at this
        simpa using this
      · intro k hk
        have := hmi (k + 1) (by omega)
        rw [hms] at this
        rw [List.getElem?_cons_succ] at this
        rw [this]
        simp
        omega
  · rw [if_neg h1]
    have hreq : 0 < indices.length := List.length_pos_iff.2 hne
    have hfold : recordingLoop step indices.length (ts.zip mask.tail) draws t (if mask.headD false then 1 else 0) x0
        ((List.replicate indices.length none).set 0 (some x0)) =
        recordLoop indices.length (states.zip mask) 0 (List.replicate indices.length none) := by
      rw [hms, List.tail_cons, recordingLoop_eq step _ ts ms draws t _ x0 _ hd hms', ← hst, hss]
      simp only [List.tail_cons, List.headD_cons, List.zip_cons_cons, recordLoop, if_pos hreq, zero_add, hs0]
      rfl
    rw [hfold]
    have hf := filter_mask x0 states indices hs (by rw [hsl]; exact hlt)
    rw [hsl, ← hmask] at hf
    have hcount : ((states.zip mask).filter Prod.snd).length = indices.length := by
      have := congrArg List.length hf
      rwa [List.length_map, List.length_map] at this
    rw [recordLoop_eq indices.length _ 0 _ (by simp) (by rw [hcount]; omega), List.take_zero, List.nil_append,
      show (fun (p : S × Bool) => some p.1) = some ∘ (fun p => p.1) from rfl, ← List.map_map, hf, List.map_map]
    apply List.map_congr_left
    intro i hi
    have := hlt i hi
    simp only [Function.comp, List.getD_eq_getElem?_getD]
    rw [List.getElem?_eq_getElem (by omega)]
    rfl

/-- C58: for any scheme the loop with `watch_params` (property C40) returns the same states. -/
theorem C58_for_loop (step : ℝ → ℝ → S → Z → S) (t : ℝ) (ts : List ℝ) (x0 : S) (draws : List Z) (hd : draws.length = ts.length) (indices : List Nat)
    (hne : indices ≠ []) (hs : indices.Pairwise (· < ·)) (hlt : ∀ i ∈ indices, i < ts.length + 1) :
    forSample step (indices.map (fun (i : Nat) => (i : Int))) (t :: ts) x0 draws =
      whileSample step indices.length (t :: ts) ((List.range (ts.length + 1)).map (fun i => indices.contains i)) x0 draws := by
  rw [C58_recording step t ts x0 draws hd indices hne hs hlt]
  unfold forSample
  rw [List.map_map]
  rfl

/-- C58: the loop of the Milstein sampler with `watch_params` returns the same states, if the last point of the grid is the one that is requested when there is only one. -/
theorem C58_for_loop_milstein (step : ℝ → ℝ → S → Z → S) (t : ℝ) (ts : List ℝ) (x0 : S) (draws : List Z) (hd : draws.length = ts.length) (indices : List Nat)
    (hne : indices ≠ []) (hs : indices.Pairwise (· < ·)) (hlt : ∀ i ∈ indices, i < ts.length + 1) (hone : indices.length = 1 → indices = [ts.length]) :
    forSampleMilstein step (indices.map (fun (i : Nat) => (i : Int))) (t :: ts) x0 draws =
      whileSample step indices.length (t :: ts) ((List.range (ts.length + 1)).map (fun i => indices.contains i)) x0 draws := by
  rw [← C58_for_loop step t ts x0 draws hd indices hne hs hlt]
  unfold forSampleMilstein forSample
  by_cases h : indices.length = 1
  · rw [hone h]
    simp
  · rw [if_neg (by simpa using h)]

/-- C58: the states of the Euler sampler form an Euler path, with the coefficients at the end of each step. Missing: the documentation has the
coefficients at the start of the step, see `C58_end_of_step`. -/
theorem C58_euler_partial {d : Nat} (drift : ℝ → (Fin d → ℝ) → Fin d → ℝ) (vol : ℝ → (Fin d → ℝ) → Matrix (Fin d) (Fin d) ℝ) (t : ℝ) (ts : List ℝ)
    (x0 : Fin d → ℝ) (draws : List (Fin d → ℝ)) (hd : draws.length = ts.length) :
    ∃ X : Nat → Fin d → ℝ,
      IsEulerPath drift vol x0 (fun i => (t :: ts).getD i 0) (fun i => (t :: ts).getD (i + 1) 0) (fun i => draws.getD i 0) ts.length X ∧
      ∀ i, i < ts.length + 1 → (schemeStates (eulerStep drift vol) t x0 ts draws)[i]? = some (X i) := by
  have hl := schemeStates_length (eulerStep drift vol) t x0 ts draws hd
  set states := schemeStates (eulerStep drift vol) t x0 ts draws with hst
  have hsome : ∀ i, i < ts.length + 1 → states[i]? = some (states.getD i 0) := fun i hi => some_getD states i 0 (by omega)
  refine ⟨fun i => states.getD i 0, ⟨?_, ?_⟩, hsome⟩
  · have h0 := schemeStates_head (eulerStep drift vol) t x0 ts draws
    rw [← hst, hsome 0 (by omega)] at h0
    exact Option.some.inj h0
  · intro i hi k
    have h1 := schemeStates_step (eulerStep drift vol) t x0 ts draws hd i hi _ (hsome i (by omega)) _ (some_getD draws i 0 (by omega))
    rw [← hst, hsome (i + 1) (by omega)] at h1
    have h2 := congrFun (Option.some.inj h1) k
    simp only at h2 ⊢
    rw [h2]
    simp only [eulerStep, Matrix.mulVec, dotProduct]
    congr 1
    · ring
    · apply Finset.sum_congr rfl
      intro j _
      ring

/-- C58: if the coefficients do not depend on time, the sampled states are the documented Euler path. -/
theorem C58_autonomous {d : Nat} (drift : (Fin d → ℝ) → Fin d → ℝ) (vol : (Fin d → ℝ) → Matrix (Fin d) (Fin d) ℝ) (t : ℝ) (ts : List ℝ)
    (x0 : Fin d → ℝ) (draws : List (Fin d → ℝ)) (hd : draws.length = ts.length) :
    ∃ X : Nat → Fin d → ℝ,
      IsEulerPath (fun _ => drift) (fun _ => vol) x0 (fun i => (t :: ts).getD i 0) (fun i => (t :: ts).getD i 0) (fun i => draws.getD i 0) ts.length X ∧
      ∀ i, i < ts.length + 1 → (schemeStates (eulerStep (fun _ => drift) (fun _ => vol)) t x0 ts draws)[i]? = some (X i) := by
  obtain ⟨X, h1, h2⟩ := C58_euler_partial (fun _ => drift) (fun _ => vol) t ts x0 draws hd
  exact ⟨X, h1, h2⟩

/-- C58 (deviation): the coefficients are taken at the end of the step, not at its start as documented. -/
theorem C58_end_of_step : ∃ (drift : ℝ → (Fin 1 → ℝ) → Fin 1 → ℝ) (vol : ℝ → (Fin 1 → ℝ) → Matrix (Fin 1) (Fin 1) ℝ) (x0 : Fin 1 → ℝ)
    (draws : List (Fin 1 → ℝ)), ∀ X : Nat → Fin 1 → ℝ,
      IsEulerPath drift vol x0 (fun i => [0, 1].getD i 0) (fun i => [0, 1].getD i 0) (fun i => draws.getD i 0) 1 X →
      whileSample (eulerStep drift vol) 1 [0, 1] [false, true] x0 draws ≠ [some (X 1)] := by
  refine ⟨fun t _ _ => t, fun _ _ => 0, fun _ => 0, [fun _ => 0], ?_⟩
  rintro X ⟨h0, h1⟩ hcon
  have h2 := h1 0 (by norm_num) 0
  rw [h0] at h2
  have hX : X 1 0 = 0 := by simpa using h2
  have h3 := congrFun (Option.some.inj (List.cons.inj hcon).1) 0
  rw [hX] at h3
  simp [lastLoop, eulerStep] at h3

/-- C58: the samples belong to the requested times. For any scheme, if the grid is sorted and has a point at most `tol` before each requested time at
its reported index, and requested times are more than `tol` apart, the sample for a time is the state at that grid point. -/
theorem C58_times (step : ℝ → ℝ → S → Z → S) (times all : List ℝ) (timeStep tol tol' : ℝ) (n : Option Nat) (g : Option (List ℝ)) (mask : List Bool)
    (indices : List Int) (hg : prepareGrid times timeStep tol n g = some (all, mask, indices)) (hs : all.Pairwise (· ≤ ·)) (hne : times ≠ [])
    (hlen : indices.length = times.length)
    (hi : ∀ (j : Nat) (t : ℝ), times[j]? = some t → ∃ (i : Nat) (g : ℝ), indices[j]? = some (i : Int) ∧ all[i]? = some g ∧ g ≤ t ∧ t - g ≤ tol')
    (hsep : times.Pairwise (fun a b => a + tol' < b)) (j : Nat) (t : ℝ) (hj : times[j]? = some t) :
    ∃ (i : Nat) (g : ℝ), all[i]? = some g ∧ g ≤ t ∧ t - g ≤ tol' ∧ ∀ (x0 : S) (draws : List Z), draws.length + 1 = all.length →
      (whileSample step times.length all mask x0 draws)[j]? = some ((schemeStates step (all.headD 0) x0 all.tail draws)[i]?) := by
  obtain ⟨a0, as, rfl⟩ : ∃ a0 as, all = a0 :: as := by
    obtain ⟨i, g, _, h2, _⟩ := hi j t hj
    cases all with
    | nil => simp at h2
    | cons a b => exact ⟨a, b, rfl⟩
  obtain ⟨hml, hmask⟩ := C39_mask times timeStep tol n g _ mask indices hg
  set idx := indices.map Int.toNat with hidx
  have hil : idx.length = times.length := by rw [hidx, List.length_map, hlen]
  have hat : ∀ (j : Nat) (t : ℝ), times[j]? = some t → ∃ (i : Nat) (g : ℝ), idx[j]? = some i ∧ (a0 :: as)[i]? = some g ∧ g ≤ t ∧ t - g ≤ tol' := by
    intro j t hj
    obtain ⟨i, g, h1, h2, h3, h4⟩ := hi j t hj
    exact ⟨i, g, by rw [hidx, List.getElem?_map, h1]; rfl, h2, h3, h4⟩
  have hnonneg : ∀ k ∈ indices, 0 ≤ k := by
    intro k hk
    obtain ⟨j, hj⟩ := List.getElem?_of_mem hk
    have hjl : j < times.length := by
      by_contra hc
      rw [List.getElem?_eq_none (by omega)] at hj
      simp at hj
    obtain ⟨i, g, h1, _⟩ := hi j times[j] (List.getElem?_eq_getElem hjl)
    rw [h1] at hj
    rw [← Option.some.inj hj]
    exact Int.natCast_nonneg i
  have hmem : ∀ i : Nat, (i : Int) ∈ indices ↔ i ∈ idx := by
    intro i
    rw [hidx, List.mem_map]
    constructor
    · intro h; exact ⟨i, h, by simp⟩
    · rintro ⟨k, hk, rfl⟩
      rwa [Int.toNat_of_nonneg (hnonneg k hk)]
  have hmaskeq : mask = (List.range (as.length + 1)).map (fun i => idx.contains i) := by
    apply List.ext_getElem?
    intro i
    by_cases hilt : i < as.length + 1
    · rw [List.getElem?_map, List.getElem?_range hilt]
      have : i < mask.length := by rw [hml]; simpa using hilt
      have h1 := hmask i mask[i] (List.getElem?_eq_getElem this)
      rw [List.getElem?_eq_getElem this]
      simp only [Option.map_some, Option.some.injEq]
      rw [hmem] at h1
      rw [Bool.eq_iff_iff, h1]
      simp
    · rw [List.getElem?_eq_none (by rw [hml]; simpa using hilt), List.getElem?_eq_none (by simpa using hilt)]
  have hpw : idx.Pairwise (· < ·) := by
    rw [List.pairwise_iff_getElem]
    intro p q hp hq hpq
    have hp' : p < times.length := by omega
    have hq' : q < times.length := by omega
    obtain ⟨ip, gp, e1, e2, e3, e4⟩ := hat p times[p] (List.getElem?_eq_getElem hp')
    obtain ⟨iq, gq, f1, f2, f3, f4⟩ := hat q times[q] (List.getElem?_eq_getElem hq')
    rw [List.getElem?_eq_getElem hp] at e1
    rw [List.getElem?_eq_getElem hq] at f1
    rw [Option.some.inj e1, Option.some.inj f1]
    by_contra hc
    have hlt := (List.pairwise_iff_getElem.1 hsep) p q hp' hq' hpq
    have hip : ip < (a0 :: as).length := by
      by_contra hc
      rw [List.getElem?_eq_none (by omega)] at e2
      simp at e2
    have hmono := getD_mono _ hs iq ip (not_lt.1 hc) hip
    rw [getD_of_some _ _ _ e2, getD_of_some _ _ _ f2] at hmono
    linarith
  have hbound : ∀ i ∈ idx, i < as.length + 1 := by
    intro i hii
    obtain ⟨j, hj⟩ := List.getElem?_of_mem hii
    have hjl : j < times.length := by
      by_contra hc
      rw [List.getElem?_eq_none (by omega)] at hj
      simp at hj
    obtain ⟨i', g, e1, e2, _⟩ := hat j times[j] (List.getElem?_eq_getElem hjl)
    rw [e1] at hj
    rw [← Option.some.inj hj]
    by_contra hc
    rw [List.getElem?_eq_none (by simpa using hc)] at e2
    simp at e2
  have hidxne : idx ≠ [] := by
    intro h
    rw [h] at hil
    exact hne (List.length_eq_zero_iff.1 hil.symm)
  obtain ⟨i, g', e1, e2, e3, e4⟩ := hat j t hj
  refine ⟨i, g', e2, e3, e4, fun x0 draws hd => ?_⟩
  rw [← hil, hmaskeq, C58_recording step a0 as x0 draws (by simpa using hd) idx hidxne hpw hbound, List.getElem?_map, e1]
  rfl

/-- C58: with a number of steps each sample is the state at a grid point equal to the requested time. -/
theorem C58_num_steps (step : ℝ → ℝ → S → Z → S) (times : List ℝ) (tol last : ℝ) (n : Nat) (hn : 0 < n) (hpos : ∀ t ∈ times, 0 ≤ t)
    (hlast : times.getLast? = some last) (hinc : times.Pairwise (· < ·)) :
    ∃ all mask indices, prepareGrid times (last / n) tol (some n) none = some (all, mask, indices) ∧ all.head? = some 0 ∧ all.Pairwise (· ≤ ·) ∧
      ∀ (j : Nat) (t : ℝ), times[j]? = some t → ∃ i : Nat, all[i]? = some t ∧ ∀ (x0 : S) (draws : List Z), draws.length + 1 = all.length →
        (whileSample step times.length all mask x0 draws)[j]? = some ((schemeStates step 0 x0 all.tail draws)[i]?) := by
  have hne : times ≠ [] := by rintro rfl; simp at hlast
  have hl0 : 0 ≤ last := hpos last (List.mem_of_getLast? hlast)
  have hn' : (1 : ℝ) ≤ n := by exact_mod_cast hn
  obtain ⟨all, mask, indices, h1, h2, h3, _, h5, h6⟩ := C39_num_times times (last / n) tol last n hpos hlast (by positivity) (div_le_self hl0 hn')
  refine ⟨all, mask, indices, h1, h3, h2, ?_⟩
  intro j t hj
  obtain ⟨i, g, e1, e2, e3, e4⟩ := C58_times step times all (last / n) tol 0 (some n) none mask indices h1 h2 hne h5
    (fun j t hj => by
      obtain ⟨i, e1, e2⟩ := h6 j t hj
      exact ⟨i, t, e1, e2, le_rfl, by simp⟩) (by simpa using hinc) j t hj
  have : g = t := le_antisymm e2 (by linarith)
  subst this
  refine ⟨i, e1, fun x0 draws hd => ?_⟩
  have hh : all.headD 0 = 0 := by cases all <;> simp_all
  rw [e4 x0 draws hd, hh]

/-- C58: with a time step each sample is the state at a grid point at most the tolerance before the requested time, if requested times are more than
twice the tolerance apart and so is the time step. -/
theorem C58_time_step (step : ℝ → ℝ → S → Z → S) (times : List ℝ) (timeStep tol : ℝ) (hne : times ≠ []) (h0 : 0 ≤ tol) (h1 : tol < 1)
    (hstep : 2 * tol < timeStep) (hsep : Separated tol times) (hinc : times.Pairwise (· < ·)) :
    ∃ all mask indices, prepareGrid times timeStep tol none none = some (all, mask, indices) ∧ all.Pairwise (· ≤ ·) ∧
      ∀ (j : Nat) (t : ℝ), times[j]? = some t → ∃ (i : Nat) (g : ℝ), all[i]? = some g ∧ g ≤ t ∧ t - g ≤ tol ∧
        ∀ (x0 : S) (draws : List Z), draws.length + 1 = all.length → (whileSample step times.length all mask x0 draws)[j]? = some ((schemeStates step (all.headD 0) x0 all.tail draws)[i]?) := by
  obtain ⟨all, mask, indices, e1, e2, e3, e4⟩ := C39_time_step_partial times timeStep tol hne h0 h1
    (fun last _ => C39_separated times timeStep tol last h0 hstep hsep)
  have hs : all.Pairwise (· ≤ ·) := e2.imp fun h => h.1.le
  refine ⟨all, mask, indices, e1, hs, ?_⟩
  intro j t hj
  exact C58_times step times all timeStep tol tol none none mask indices e1 hs hne e3 e4
    (hinc.imp_of_mem fun ha hb hab => by have := hsep _ ha _ hb hab; linarith) j t hj

/-- C58 (deviation): with a supplied grid and two requested times next to the same grid point, the sample for the second one is the state at another
grid point. Here the times 0.9 and 1.1 on the grid 0, 1, 2 give the states at 1 and 2. -/
theorem C58_same_point : ∃ (mask : List Bool) (indices : List Int),
    prepareGrid [(9 / 10 : ℚ), 11 / 10] 1 0 none (some [0, 1, 2]) = some ([0, 1, 2], mask, indices) ∧ indices = [1, 1] ∧
    ∀ (step : ℝ → ℝ → S → Z → S) (x0 : S) (z1 z2 : Z),
      whileSample step 2 [0, 1, 2] mask x0 [z1, z2] =
        [(schemeStates step 0 x0 [1, 2] [z1, z2])[1]?, (schemeStates step 0 x0 [1, 2] [z1, z2])[2]?] := by
  refine ⟨[false, true, false], [1, 1], by decide +kernel, rfl, ?_⟩
  intro step x0 z1 z2
  simp [whileSample, recordingLoop, schemeStates]

/-- The two samples of a path with drift 1 on the grid 0, 1/2, 1, 2 at the times 1/2 and 2. -/
example : whileSample (eulerStep (d := 1) (fun _ _ _ => 1) (fun _ _ => 0)) 2 [0, 1 / 2, 1, 2] [false, true, false, true] (fun _ => 5) [0, 0, 0] =
    [some (fun _ => 11 / 2), some (fun _ => 7)] := by
  simp [whileSample, recordingLoop, eulerStep, Pi.zero_def]
  constructor <;> funext i <;> norm_num

end Props
