import Verif.Model.Yields
import Verif.Lemmas.Segments
import Mathlib.Analysis.SpecialFunctions.Exp
import Mathlib.Analysis.SpecialFunctions.ExpDeriv
import Mathlib.Analysis.Calculus.Deriv.Mul
import Mathlib.Tactic.IntervalCases
import Mathlib.Topology.Order.MonotoneConvergence
import Mathlib.Tactic.Linarith
import Mathlib.Tactic.Ring
import Mathlib.Tactic.FieldSimp
import Mathlib.Tactic.Positivity

/-! # C44 Present values from yields and back -/

namespace Spec

/-- Present value of cashflows `(amount, time)` at the continuously compounded yield `y`. -/
noncomputable def presentValue (flows : List (ℝ × ℝ)) (y : ℝ) : ℝ :=
  (flows.map (fun (p : ℝ × ℝ) => p.1 * Real.exp (-(p.2 * y)))).sum

/-- Time weighted present value (dollar duration). -/
noncomputable def dollarDuration (flows : List (ℝ × ℝ)) (y : ℝ) : ℝ :=
  (flows.map (fun (p : ℝ × ℝ) => p.1 * p.2 * Real.exp (-(p.2 * y)))).sum

/-- The cashflows of group `g`. -/
def groupFlows (cashflows times : List ℝ) (groups : List Nat) (g : Nat) : List (ℝ × ℝ) :=
  (((cashflows.zip times).zip groups).filter (fun (p : (ℝ × ℝ) × Nat) => p.2 == g)).map Prod.fst

/-- Nothing is paid back, nothing is paid in the past, and something is paid in the future. -/
structure Pays (flows : List (ℝ × ℝ)) : Prop where
  nonneg : ∀ p ∈ flows, 0 ≤ p.1 ∧ 0 ≤ p.2
  some : ∃ p ∈ flows, 0 < p.1 ∧ 0 < p.2

/-- The arguments describe `n` groups. -/
structure Grouped (cashflows times : List ℝ) (groups : List Nat) (n : Nat) : Prop where
  timesLength : times.length = cashflows.length
  groupsLength : groups.length = cashflows.length
  last : groups.getLast?.elim 0 (· + 1) = n

/-- Newton's iteration for the yield, from zero. -/
noncomputable def yieldIterate (flows : List (ℝ × ℝ)) (P : ℝ) : Nat → ℝ
  | 0 => 0
  | k + 1 => yieldIterate flows P k +
      (presentValue flows (yieldIterate flows P k) - P) / dollarDuration flows (yieldIterate flows P k)

end Spec

namespace Lemmas
open Model Spec

/-- The sum over a group of `cashflow * h(time, yield)` is a sum over the flows of the group. -/
theorem group_sum (h : ℝ → ℝ → ℝ) (ys : List ℝ) (g : Nat) : ∀ (cs ts : List ℝ) (gs : List Nat), ts.length = cs.length →
    gs.length = cs.length →
    ((List.zip (List.zipWith (fun (c e : ℝ) => c * e) cs
        (List.zipWith h ts (gs.map (fun (g : Nat) => ys.getD g 0)))) gs).filter (fun (p : ℝ × Nat) => p.2 == g)).map Prod.fst =
      (groupFlows cs ts gs g).map (fun (p : ℝ × ℝ) => p.1 * h p.2 (ys.getD g 0)) := by
  intro cs
  induction cs with
  | nil => intro ts gs h1 h2; simp [groupFlows]
  | cons c cs ih =>
    intro ts gs h1 h2
    rcases ts with _ | ⟨t, ts⟩
    · simp at h1
    rcases gs with _ | ⟨k, gs⟩
    · simp at h2
    have := ih ts gs (by simpa using h1) (by simpa using h2)
    unfold groupFlows at this ⊢
    simp only [List.map_cons, List.zipWith_cons_cons, List.zip_cons_cons]
    by_cases hk : k = g
    · subst hk
      rw [List.filter_cons_of_pos (by simp), List.filter_cons_of_pos (by simp)]
      simp only [List.map_cons]
      rw [this]
    · rw [List.filter_cons_of_neg (by simpa using hk), List.filter_cons_of_neg (by simpa using hk)]
      exact this

theorem segmentSum_length (xs : List ℝ) (gs : List Nat) : (segmentSum xs gs).length = gs.getLast?.elim 0 (· + 1) := by
  simp [segmentSum]

theorem discountedFlows_mul (cs ts ys : List ℝ) (gs : List Nat) (h1 : ts.length = cs.length) (h2 : gs.length = cs.length) :
    List.zipWith (fun (d t : ℝ) => d * t) (discountedFlows cs ts ys gs) ts =
      List.zipWith (fun (c e : ℝ) => c * e) cs
        (List.zipWith (fun (t y : ℝ) => Real.exp (-t * y) * t) ts (gs.map (fun (g : Nat) => ys.getD g 0))) := by
  unfold discountedFlows
  simp only
  apply List.ext_getElem
  · simp [h1, h2]
  · intro i _ _
    simp [mul_assoc]

variable {cs ts : List ℝ} {gs : List Nat} {n : Nat}

theorem pv_entry (h : Grouped cs ts gs n) (ys : List ℝ) {g : Nat} (hg : g < n) :
    (segmentSum (discountedFlows cs ts ys gs) gs)[g]? = some (presentValue (groupFlows cs ts gs g) (ys.getD g 0)) := by
  unfold segmentSum
  rw [h.last, List.getElem?_map, List.getElem?_range hg]
  simp only [Option.map_some, discountedFlows]
  rw [group_sum _ _ _ _ _ _ h.timesLength h.groupsLength]
  simp [presentValue]

theorem duration_entry (h : Grouped cs ts gs n) (ys : List ℝ) {g : Nat} (hg : g < n) :
    (segmentSum (List.zipWith (fun (d t : ℝ) => d * t) (discountedFlows cs ts ys gs) ts) gs)[g]? =
      some (dollarDuration (groupFlows cs ts gs g) (ys.getD g 0)) := by
  unfold segmentSum
  rw [h.last, List.getElem?_map, List.getElem?_range hg, discountedFlows_mul _ _ _ _ h.timesLength h.groupsLength]
  simp only [Option.map_some]
  rw [group_sum _ _ _ _ _ _ h.timesLength h.groupsLength]
  simp only [dollarDuration, Option.some.injEq]
  congr 1
  apply List.map_congr_left
  intro p _
  rw [neg_mul]; ring

theorem yieldDelta_length (h : Grouped cs ts gs n) (ps ys : List ℝ) (hp : ps.length = n) :
    (yieldDelta cs ts gs ps ys).length = n := by
  have := h.last
  simp [yieldDelta, pvAndDuration, segmentSum_length, hp]
  omega

theorem yieldDelta_entry (h : Grouped cs ts gs n) (ps ys : List ℝ) (hp : ps.length = n) {g : Nat} (hg : g < n) :
    (yieldDelta cs ts gs ps ys)[g]? = some ((presentValue (groupFlows cs ts gs g) (ys.getD g 0) - ps.getD g 0) /
      dollarDuration (groupFlows cs ts gs g) (ys.getD g 0)) := by
  unfold yieldDelta pvAndDuration
  simp only [List.getElem?_zipWith, pv_entry h ys hg, duration_entry h ys hg]
  have : ps[g]? = some (ps.getD g 0) := by
    rw [List.getD_eq_getElem?_getD, List.getElem?_eq_getElem (by omega)]; rfl
  rw [this]

/-- The list of `k`-th iterates. -/
noncomputable def iterates (cs ts : List ℝ) (gs : List Nat) (ps : List ℝ) (n k : Nat) : List ℝ :=
  (List.range n).map (fun (g : Nat) => yieldIterate (groupFlows cs ts gs g) (ps.getD g 0) k)

theorem iterates_getD (ps : List ℝ) (k : Nat) {g : Nat} (hg : g < n) :
    (iterates cs ts gs ps n k).getD g 0 = yieldIterate (groupFlows cs ts gs g) (ps.getD g 0) k := by
  simp [iterates, List.getD_eq_getElem?_getD, List.getElem?_range hg]

theorem iterates_succ (h : Grouped cs ts gs n) (ps : List ℝ) (hp : ps.length = n) (k : Nat) :
    List.zipWith (fun (y d : ℝ) => y + d) (iterates cs ts gs ps n k)
      (yieldDelta cs ts gs ps (iterates cs ts gs ps n k)) = iterates cs ts gs ps n (k + 1) := by
  apply List.ext_getElem?
  intro g
  by_cases hg : g < n
  · rw [List.getElem?_zipWith, yieldDelta_entry h ps _ hp hg, iterates_getD ps k hg]
    simp [iterates, List.getElem?_range hg, yieldIterate]
  · rw [List.getElem?_eq_none (by simp [iterates]; omega), List.getElem?_eq_none (by simp [iterates]; omega)]

/-- The loop returns the iterates of all groups at the same step; it stops when all last steps are small. -/
theorem yieldLoop_spec (h : Grouped cs ts gs n) (ps : List ℝ) (hp : ps.length = n) (tol : ℝ) (fuel k : Nat) :
    ∃ m, k ≤ m ∧ m ≤ k + fuel ∧ yieldLoop cs ts gs ps tol fuel (iterates cs ts gs ps n k) = iterates cs ts gs ps n m ∧
      (0 < fuel → k < m) ∧
      (m < k + fuel → ∃ j, m = j + 1 ∧ ∀ g, g < n → |yieldIterate (groupFlows cs ts gs g) (ps.getD g 0) (j + 1) -
        yieldIterate (groupFlows cs ts gs g) (ps.getD g 0) j| ≤ tol) := by
  induction fuel generalizing k with
  | zero => exact ⟨k, le_rfl, le_rfl, rfl, by omega, by omega⟩
  | succ fuel ih =>
    unfold yieldLoop
    simp only [iterates_succ h ps hp k]
    split
    · rename_i hall
      refine ⟨k + 1, by omega, by omega, rfl, by omega, fun _ => ⟨k, rfl, ?_⟩⟩
      intro g hg
      have := hall _ (List.mem_of_getElem? (yieldDelta_entry h ps (iterates cs ts gs ps n k) hp hg))
      rw [iterates_getD ps k hg] at this
      simpa [yieldIterate] using this
    · obtain ⟨m, h1, h2, h3, h4, h5⟩ := ih (k + 1)
      exact ⟨m, by omega, by omega, h3, by omega, fun hm => h5 (by omega)⟩

theorem zero_iterates (ps : List ℝ) (hp : ps.length = n) : ps.map (fun (_ : ℝ) => (0 : ℝ)) = iterates cs ts gs ps n 0 := by
  apply List.ext_getElem
  · simp [iterates, hp]
  · intro i h1 h2
    simp [iterates, yieldIterate]

/-! One group. -/

variable {flows : List (ℝ × ℝ)}

theorem tangent_below (hf : ∀ p ∈ flows, 0 ≤ p.1 ∧ 0 ≤ p.2) (x y : ℝ) :
    presentValue flows y - dollarDuration flows y * (x - y) ≤ presentValue flows x := by
  induction flows with
  | nil => simp [presentValue, dollarDuration]
  | cons p ps ih =>
    have h1 := ih (fun q hq => hf q (List.mem_cons_of_mem _ hq))
    obtain ⟨hc, ht⟩ := hf p (List.mem_cons_self ..)
    have h2 : p.1 * Real.exp (-(p.2 * y)) - p.1 * p.2 * Real.exp (-(p.2 * y)) * (x - y) ≤ p.1 * Real.exp (-(p.2 * x)) := by
      have e : Real.exp (-(p.2 * x)) = Real.exp (-(p.2 * y)) * Real.exp (-(p.2 * (x - y))) := by
        rw [← Real.exp_add]; congr 1; ring
      have := Real.add_one_le_exp (-(p.2 * (x - y)))
      rw [e]
      have hpos : 0 ≤ p.1 * Real.exp (-(p.2 * y)) := mul_nonneg hc (Real.exp_pos _).le
      nlinarith
    simp only [presentValue, dollarDuration, List.map_cons, List.sum_cons] at h1 ⊢
    nlinarith

theorem duration_nonneg (hf : ∀ p ∈ flows, 0 ≤ p.1 ∧ 0 ≤ p.2) (y : ℝ) : 0 ≤ dollarDuration flows y := by
  apply List.sum_nonneg
  intro x hx
  obtain ⟨p, hp, rfl⟩ := List.mem_map.mp hx
  obtain ⟨h1, h2⟩ := hf p hp
  positivity

theorem duration_pos (hf : Pays flows) (y : ℝ) : 0 < dollarDuration flows y := by
  obtain ⟨hn, q, hq, hq1, hq2⟩ := hf
  induction flows with
  | nil => simp at hq
  | cons p ps ih =>
    have hn' : ∀ p ∈ ps, 0 ≤ p.1 ∧ 0 ≤ p.2 := fun r hr => hn r (List.mem_cons_of_mem _ hr)
    obtain ⟨hc, ht⟩ := hn p (List.mem_cons_self ..)
    have h0 := duration_nonneg hn' y
    simp only [dollarDuration, List.map_cons, List.sum_cons] at h0 ⊢
    rcases List.mem_cons.mp hq with rfl | hq'
    · have := mul_pos (mul_pos hq1 hq2) (Real.exp_pos (-(q.2 * y)))
      linarith
    · have := ih hn' hq'
      simp only [dollarDuration] at this
      have : 0 ≤ p.1 * p.2 * Real.exp (-(p.2 * y)) := by positivity
      linarith

theorem presentValue_hasDerivAt (flows : List (ℝ × ℝ)) (y : ℝ) :
    HasDerivAt (presentValue flows) (-dollarDuration flows y) y := by
  induction flows with
  | nil =>
    have : presentValue [] = fun _ => (0 : ℝ) := by ext; simp [presentValue]
    rw [this]
    simpa [dollarDuration] using hasDerivAt_const y (0 : ℝ)
  | cons p ps ih =>
    have e : presentValue (p :: ps) = fun y => p.1 * Real.exp (-(p.2 * y)) + presentValue ps y := by
      ext; simp [presentValue]
    rw [e]
    have h1 : HasDerivAt (fun y => -(p.2 * y)) (-p.2) y := by
      have := (hasDerivAt_id y).const_mul (-p.2)
      simpa using this
    have h2 := (h1.exp.const_mul p.1).add ih
    refine h2.congr_deriv ?_
    simp only [dollarDuration, List.map_cons, List.sum_cons]
    ring

theorem dollarDuration_continuous (flows : List (ℝ × ℝ)) : Continuous (dollarDuration flows) := by
  induction flows with
  | nil =>
    have : dollarDuration [] = fun _ => (0 : ℝ) := by ext; simp [dollarDuration]
    rw [this]; exact continuous_const
  | cons p ps ih =>
    have e : dollarDuration (p :: ps) = fun y => p.1 * p.2 * Real.exp (-(p.2 * y)) + dollarDuration ps y := by
      ext; simp [dollarDuration]
    rw [e]; fun_prop

theorem presentValue_continuous (flows : List (ℝ × ℝ)) : Continuous (presentValue flows) :=
  continuous_iff_continuousAt.mpr (fun y => (presentValue_hasDerivAt flows y).continuousAt)

theorem presentValue_strictAnti (hf : Pays flows) : StrictAnti (presentValue flows) := by
  intro x y hxy
  have := tangent_below hf.nonneg x y
  nlinarith [duration_pos hf y]

theorem iterate_above (hf : Pays flows) (P : ℝ) (k : Nat) : P ≤ presentValue flows (yieldIterate flows P (k + 1)) := by
  have h := tangent_below hf.nonneg (yieldIterate flows P (k + 1)) (yieldIterate flows P k)
  have hd := duration_pos hf (yieldIterate flows P k)
  refine le_trans ?_ h
  rw [show yieldIterate flows P (k + 1) - yieldIterate flows P k =
    (presentValue flows (yieldIterate flows P k) - P) / dollarDuration flows (yieldIterate flows P k) by
      simp [yieldIterate], mul_div_cancel₀ _ hd.ne']
  linarith

theorem iterate_mono (hf : Pays flows) (P : ℝ) (k : Nat) :
    yieldIterate flows P (k + 1) ≤ yieldIterate flows P (k + 1 + 1) := by
  have h := iterate_above hf P k
  have hd := duration_pos hf (yieldIterate flows P (k + 1))
  have : 0 ≤ (presentValue flows (yieldIterate flows P (k + 1)) - P) / dollarDuration flows (yieldIterate flows P (k + 1)) :=
    div_nonneg (by linarith) hd.le
  rw [show yieldIterate flows P (k + 1 + 1) = yieldIterate flows P (k + 1) +
    (presentValue flows (yieldIterate flows P (k + 1)) - P) / dollarDuration flows (yieldIterate flows P (k + 1)) from rfl]
  linarith

theorem iterate_tendsto (hf : Pays flows) (P y : ℝ) (hy : presentValue flows y = P) :
    Filter.Tendsto (yieldIterate flows P) Filter.atTop (nhds y) := by
  have hmono : Monotone (fun k => yieldIterate flows P (k + 1)) := monotone_nat_of_le_succ (fun k => iterate_mono hf P k)
  have hle : ∀ k, yieldIterate flows P (k + 1) ≤ y := by
    intro k
    by_contra hn
    push Not at hn
    have := presentValue_strictAnti hf hn
    have := iterate_above hf P k
    linarith
  have hb : BddAbove (Set.range (fun k => yieldIterate flows P (k + 1))) := ⟨y, by rintro _ ⟨k, rfl⟩; exact hle k⟩
  have ht := tendsto_atTop_ciSup hmono hb
  set L := ⨆ k, yieldIterate flows P (k + 1) with hL
  have hstep : Filter.Tendsto (fun k => yieldIterate flows P (k + 1) +
      (presentValue flows (yieldIterate flows P (k + 1)) - P) / dollarDuration flows (yieldIterate flows P (k + 1)))
      Filter.atTop (nhds (L + (presentValue flows L - P) / dollarDuration flows L)) := by
    refine ht.add (Filter.Tendsto.div ?_ ?_ (duration_pos hf L).ne')
    · exact (((presentValue_continuous flows).tendsto L).comp ht).sub_const P
    · exact ((dollarDuration_continuous flows).tendsto L).comp ht
  have hshift : Filter.Tendsto (fun k => yieldIterate flows P (k + 1 + 1)) Filter.atTop (nhds L) :=
    ht.comp (Filter.tendsto_add_atTop_nat 1)
  have heq := tendsto_nhds_unique hshift hstep
  have h0 : (presentValue flows L - P) / dollarDuration flows L = 0 := by linarith
  have hPL : presentValue flows L = P := by
    rcases div_eq_zero_iff.mp h0 with h | h
    · linarith
    · exact absurd h (duration_pos hf L).ne'
  have : L = y := (presentValue_strictAnti hf).injective (hPL.trans hy.symm)
  rw [this] at ht
  exact (Filter.tendsto_add_atTop_iff_nat 1).mp ht

end Lemmas

namespace Props
open Model Lemmas Spec

/-- C44: `pv_from_yields` gives the present value of every group at its own yield. -/
theorem C44_present_values (cashflows times yields : List ℝ) (groups : List Nat) (n : Nat)
    (h : Grouped cashflows times groups n) :
    (pvFromYields cashflows times yields (some groups)).length = n ∧
    ∀ g, g < n → (pvFromYields cashflows times yields (some groups))[g]? =
      some (presentValue (groupFlows cashflows times groups g) (yields.getD g 0)) :=
  ⟨by rw [show pvFromYields cashflows times yields (some groups) =
      segmentSum (discountedFlows cashflows times yields groups) groups from rfl, segmentSum_length, h.last],
    fun _ hg => pv_entry h yields hg⟩

/-- C44: without groups there is a single present value. -/
theorem C44_single (cashflows times : List ℝ) (y : ℝ) :
    pvFromYields cashflows times [y] none = [presentValue (cashflows.zip times) y] := by
  simp only [pvFromYields, presentValue]
  congr 1
  rw [← List.map_uncurry_zip_eq_zipWith]
  congr 1
  apply List.map_congr_left
  rintro ⟨c, t⟩ _
  simp

/-- C44: the present value is strictly decreasing in the yield, with derivative minus the dollar duration, so there is at
most one yield. -/
theorem C44_decreasing (flows : List (ℝ × ℝ)) (hf : Pays flows) :
    StrictAnti (presentValue flows) ∧ (∀ y, HasDerivAt (presentValue flows) (-dollarDuration flows y) y) ∧
    ∀ x y, presentValue flows x = presentValue flows y → x = y :=
  ⟨presentValue_strictAnti hf, presentValue_hasDerivAt flows, fun _ _ h => (presentValue_strictAnti hf).injective h⟩

/-- C44: what `yields_from_pv` returns: the Newton iterates of all groups after the same number `m` of steps. Either all
iterations are used up or all last steps are within the tolerance. After at least one step the yield never overshoots:
the cashflows are worth at least the present value, so the yield is at most the true one. In case of a stop after at least
two steps they are worth at most the tolerance times the dollar duration more. -/
theorem C44_yields (cashflows times presentValues : List ℝ) (groups : List Nat) (n : Nat)
    (h : Grouped cashflows times groups n) (hp : presentValues.length = n) (tol : ℝ) (N : Nat)
    (hf : ∀ g, g < n → Pays (groupFlows cashflows times groups g)) :
    ∃ m, m ≤ N ∧ (0 < N → 0 < m) ∧
      (yieldsFromPv cashflows times presentValues (some groups) tol N).length = n ∧
      (∀ g, g < n → (yieldsFromPv cashflows times presentValues (some groups) tol N)[g]? =
        some (yieldIterate (groupFlows cashflows times groups g) (presentValues.getD g 0) m)) ∧
      (∀ g v, g < n → 0 < N → (yieldsFromPv cashflows times presentValues (some groups) tol N)[g]? = some v →
        presentValues.getD g 0 ≤ presentValue (groupFlows cashflows times groups g) v ∧
        ∀ y, presentValue (groupFlows cashflows times groups g) y = presentValues.getD g 0 → v ≤ y) ∧
      (m < N → ∀ g v, g < n → (yieldsFromPv cashflows times presentValues (some groups) tol N)[g]? = some v →
        ∃ u, u + (presentValue (groupFlows cashflows times groups g) u - presentValues.getD g 0) /
            dollarDuration (groupFlows cashflows times groups g) u = v ∧ |v - u| ≤ tol ∧
          (1 < m → presentValue (groupFlows cashflows times groups g) v ≤ presentValues.getD g 0 +
            tol * dollarDuration (groupFlows cashflows times groups g) u)) := by
  obtain ⟨m, _, h2, h3, h4, h5⟩ := yieldLoop_spec h presentValues hp tol N 0
  have hres : yieldsFromPv cashflows times presentValues (some groups) tol N =
      iterates cashflows times groups presentValues n m := by
    unfold yieldsFromPv
    rw [zero_iterates (cs := cashflows) (ts := times) (gs := groups) presentValues hp]
    exact h3
  have hget : ∀ g, g < n → (yieldsFromPv cashflows times presentValues (some groups) tol N)[g]? =
      some (yieldIterate (groupFlows cashflows times groups g) (presentValues.getD g 0) m) := by
    intro g hg
    rw [hres]; simp [iterates, List.getElem?_range hg]
  refine ⟨m, by omega, h4, by rw [hres]; simp [iterates], hget, ?_, ?_⟩
  · intro g v hg hN hv
    rw [hget g hg] at hv
    cases hv
    obtain ⟨j, rfl⟩ : ∃ j, m = j + 1 := ⟨m - 1, by have := h4 hN; omega⟩
    have ha := iterate_above (hf g hg) (presentValues.getD g 0) j
    refine ⟨ha, ?_⟩
    intro y hy
    by_contra hn
    push Not at hn
    have := presentValue_strictAnti (hf g hg) hn
    linarith
  · intro hm g v hg hv
    rw [hget g hg] at hv
    cases hv
    obtain ⟨j, rfl, hsmall⟩ := h5 (by omega)
    refine ⟨yieldIterate (groupFlows cashflows times groups g) (presentValues.getD g 0) j, rfl, hsmall g hg, ?_⟩
    intro h1
    obtain ⟨i, rfl⟩ : ∃ i, j = i + 1 := ⟨j - 1, by omega⟩
    set fl := groupFlows cashflows times groups g
    set P := presentValues.getD g 0
    have hd := duration_pos (hf g hg) (yieldIterate fl P (i + 1))
    have hle := (presentValue_strictAnti (hf g hg)).antitone (iterate_mono (hf g hg) P i)
    have hs := le_trans (le_abs_self _) (hsmall g hg)
    have he : yieldIterate fl P (i + 1 + 1) - yieldIterate fl P (i + 1) =
      (presentValue fl (yieldIterate fl P (i + 1)) - P) / dollarDuration fl (yieldIterate fl P (i + 1)) := by
        simp [yieldIterate]
    rw [he, div_le_iff₀ hd] at hs
    linarith

/-- C44: round trip. Starting from the present values of given yields, with tolerance zero, the yields are recovered in the
limit of many iterations. -/
theorem C44_round_trip (cashflows times yields : List ℝ) (groups : List Nat) (n : Nat) (h : Grouped cashflows times groups n)
    (hf : ∀ g, g < n → Pays (groupFlows cashflows times groups g)) (g : Nat) (hg : g < n) :
    Filter.Tendsto (fun N => (yieldsFromPv cashflows times (pvFromYields cashflows times yields (some groups)) (some groups)
      0 N).getD g 0) Filter.atTop (nhds (yields.getD g 0)) := by
  obtain ⟨hlen, hent⟩ := C44_present_values cashflows times yields groups n h
  set ps := pvFromYields cashflows times yields (some groups) with hps
  have hP : ps.getD g 0 = presentValue (groupFlows cashflows times groups g) (yields.getD g 0) := by
    rw [List.getD_eq_getElem?_getD, hent g hg]; rfl
  have ht := iterate_tendsto (hf g hg) (ps.getD g 0) (yields.getD g 0) hP.symm
  have hN : ∀ N, (yieldsFromPv cashflows times ps (some groups) 0 N).getD g 0 =
      yieldIterate (groupFlows cashflows times groups g) (ps.getD g 0) N := by
    intro N
    obtain ⟨m, _, h2, h3, _, h5⟩ := yieldLoop_spec h ps hlen 0 N 0
    have hres : yieldsFromPv cashflows times ps (some groups) 0 N = iterates cashflows times groups ps n m := by
      unfold yieldsFromPv
      rw [zero_iterates (cs := cashflows) (ts := times) (gs := groups) ps hlen]
      exact h3
    rw [hres, iterates_getD ps m hg]
    by_cases hm : m < 0 + N
    · obtain ⟨j, rfl, hsm⟩ := h5 hm
      have hstop : yieldIterate (groupFlows cashflows times groups g) (ps.getD g 0) (j + 1) =
          yieldIterate (groupFlows cashflows times groups g) (ps.getD g 0) j := by
        have := hsm g hg
        have := abs_nonpos_iff.mp this
        linarith
      have hfix : ∀ i, yieldIterate (groupFlows cashflows times groups g) (ps.getD g 0) (j + i) =
          yieldIterate (groupFlows cashflows times groups g) (ps.getD g 0) j := by
        intro i
        induction i with
        | zero => rfl
        | succ i ih =>
          have e : yieldIterate (groupFlows cashflows times groups g) (ps.getD g 0) (j + i + 1) =
            yieldIterate (groupFlows cashflows times groups g) (ps.getD g 0) (j + 1) := by
              show yieldIterate _ _ (j + i) + _ = yieldIterate _ _ j + _
              rw [ih]
          rw [← Nat.add_assoc, e, hstop]
      rw [hstop, ← hfix (N - j), show j + (N - j) = N by omega]
    · rw [show m = N by omega]
  simp only [hN]
  exact ht

/-- Two bonds: a coupon bond in group 0 and a zero coupon bond in group 1. -/
theorem ex_grouped : Grouped [5, 105, 100] [1, 2, 3] [0, 0, 1] 2 ∧
    (∀ g, g < 2 → Pays (groupFlows [5, 105, 100] [1, 2, 3] [0, 0, 1] g)) := by
  refine ⟨⟨rfl, rfl, rfl⟩, ?_⟩
  intro g hg
  have h0 : groupFlows [5, 105, 100] [1, 2, 3] [0, 0, 1] 0 = [(5, 1), (105, 2)] := by simp [groupFlows]
  have h1 : groupFlows [5, 105, 100] [1, 2, 3] [0, 0, 1] 1 = [(100, 3)] := by simp [groupFlows]
  interval_cases g
  · rw [h0]
    exact ⟨by intro p hp; simp at hp; rcases hp with rfl | rfl <;> norm_num, (5, 1), by simp, by norm_num⟩
  · rw [h1]
    exact ⟨by intro p hp; simp at hp; rcases hp with rfl; norm_num, (100, 3), by simp, by norm_num⟩

example : pvFromYields [5, 105, 100] [1, 2, 3] [0, 1] (some [0, 0, 1]) = [110, 100 * Real.exp (-3)] := by
  simp [pvFromYields, segmentSum, discountedFlows, List.range_succ]
  norm_num

example : Filter.Tendsto (fun N => (yieldsFromPv [5, 105, 100] [1, 2, 3]
    (pvFromYields [5, 105, 100] [1, 2, 3] [0.03, 0.05] (some [0, 0, 1])) (some [0, 0, 1]) 0 N).getD 1 0) Filter.atTop
    (nhds 0.05) :=
  C44_round_trip [5, 105, 100] [1, 2, 3] [0.03, 0.05] [0, 0, 1] 2 ex_grouped.1 ex_grouped.2 1 (by norm_num)

example : Pays [(5, 1), (105, 2)] :=
  ⟨by intro p hp; simp at hp; rcases hp with rfl | rfl <;> norm_num, (5, 1), by simp, by norm_num⟩

end Props
