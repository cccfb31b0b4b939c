import Verif.Lemmas.LsmLimit
import Mathlib.Probability.Process.Filtration
import Mathlib.MeasureTheory.Function.ConditionalExpectation.PullOut

/-! # Exercise rules from complete regressors are optimal -/

namespace Spec
open MeasureTheory
open scoped BigOperators

variable {E : Type} {b : ℕ} {mE : MeasurableSpace E}

/-- An exercise index that uses only the information at that index. -/
def IsExerciseTime (ℱ : Filtration ℕ mE) (last : ℕ) (τ : E → ℕ) : Prop := (∀ x, τ x ≤ last) ∧ ∀ j, MeasurableSet[ℱ j] {x | τ x ≤ j}

/-- The expected discounted payoff of an exercise index. -/
noncomputable def ExerciseProblem.worth (p : ExerciseProblem E b) (ν : Measure E) (τ : E → ℕ) : ℝ := ∫ x, p.factor (τ x) x * p.payoff (τ x) x ∂ν

/-- Payoffs, factors and regressors at an index are known at that index; payoffs are not negative and factors are positive. -/
structure ExerciseProblem.Informed (p : ExerciseProblem E b) (ℱ : Filtration ℕ mE) : Prop where
  payoff : ∀ j, Measurable[ℱ j] (p.payoff j)
  factor : ∀ j, Measurable[ℱ j] (p.factor j)
  basis : ∀ j k, Measurable[ℱ j] (p.basis j k)
  nonneg : ∀ j x, 0 ≤ p.payoff j x
  positive : ∀ j ≤ p.last, ∀ x, 0 < p.factor j x

/-- On the paths in the money the discounted fit is the conditional expectation of the discounted payoff of going on. -/
def ExerciseProblem.IsComplete (p : ExerciseProblem E b) (ν : Measure E) (ℱ : Filtration ℕ mE) (β : ℕ → Fin b → ℝ) : Prop :=
  ∀ d, d < p.last → ∀ᵐ x ∂ν, p.payoff (p.last - (d + 1)) x > 0 →
    p.factor (p.last - (d + 1)) x * ∑ k, p.basis (p.last - (d + 1)) k x * β (p.last - (d + 1)) k = (ν[p.value β d | ℱ (p.last - (d + 1))]) x

end Spec

namespace Lemmas
open Model Spec MeasureTheory ProbabilityTheory Filter Topology
open scoped BigOperators

variable {E : Type} {b : ℕ} {mE : MeasurableSpace E} {p : ExerciseProblem E b} {ν : Measure E} {β : ℕ → Fin b → ℝ} {ℱ : Filtration ℕ mE}

theorem rule_ge (p : ExerciseProblem E b) (β : ℕ → Fin b → ℝ) (d : ℕ) (x : E) : p.last - d ≤ p.rule β d x := by
  induction d with
  | zero => simp [ExerciseProblem.rule]
  | succ d ih =>
    simp only [ExerciseProblem.rule]
    split <;> omega

theorem informed_exercise (hi : p.Informed ℱ) (β : ℕ → Fin b → ℝ) (j : ℕ) : MeasurableSet[ℱ j] {x | p.payoff j x > max (∑ k, p.basis j k x * β j k) 0} := by
  have h1 : Measurable[ℱ j] fun x => ∑ k, p.basis j k x * β j k := Finset.measurable_sum _ fun k _ => (hi.basis j k).mul_const _
  exact measurableSet_lt (h1.max measurable_const) (hi.payoff j)

/-- The rules use only the information at hand. -/
theorem rule_exercise_time (hi : p.Informed ℱ) (β : ℕ → Fin b → ℝ) (d : ℕ) : IsExerciseTime ℱ p.last (p.rule β d) := by
  classical
  refine ⟨fun x => rule_le p β d x, ?_⟩
  induction d with
  | zero =>
    intro i
    have e : {x | p.rule β 0 x ≤ i} = {_x : E | p.last ≤ i} := rfl
    rw [e]
    exact @MeasurableSet.const E (ℱ i) (p.last ≤ i)
  | succ d ih =>
    intro i
    by_cases hij : p.last - (d + 1) ≤ i
    · have hex := ℱ.mono hij _ (informed_exercise hi β (p.last - (d + 1)))
      have e : {x | p.rule β (d + 1) x ≤ i} = {x | p.payoff (p.last - (d + 1)) x > max (∑ k, p.basis (p.last - (d + 1)) k x * β (p.last - (d + 1)) k) 0} ∪
          {x | p.rule β d x ≤ i} := by
        ext x
        simp only [ExerciseProblem.rule, Set.mem_ofPred_eq, Set.mem_union]
        split
        · rename_i h
          exact ⟨fun _ => Or.inl h, fun _ => hij⟩
        · rename_i h
          exact ⟨fun h' => Or.inr h', fun h' => h'.resolve_left h⟩
      rw [e]
      exact MeasurableSet.union hex (ih i)
    · have e : {x | p.rule β (d + 1) x ≤ i} = ∅ := by
        ext x
        have := rule_ge p β (d + 1) x
        simp only [Set.mem_ofPred_eq, Set.mem_empty_iff_false, iff_false]
        omega
      rw [e]
      exact @MeasurableSet.empty E (ℱ i)

theorem exercise_payoff_measurable (hr : p.Regular ν β) (τ : E → ℕ) (hτ : IsExerciseTime ℱ p.last τ) : Measurable fun x => p.factor (τ x) x * p.payoff (τ x) x := by
  have h1 : Measurable τ := measurable_of_Iic fun j => ℱ.le j _ (hτ.2 j)
  have h2 : Measurable fun y : ℕ × E => p.factor y.1 y.2 * p.payoff y.1 y.2 := measurable_from_prod_countable_right fun j => (hr.factor j).mul (hr.payoff j)
  exact h2.comp (h1.prodMk measurable_id)

theorem value_integrable (hr : p.Regular ν β) (β' : ℕ → Fin b → ℝ) (d : ℕ) : Integrable (p.value β' d) ν :=
  hr.integrable.mono' (value_measurable hr β' d).aestronglyMeasurable (Eventually.of_forall fun x => value_bound p β' d x)

theorem value_nonneg (hi : p.Informed ℱ) (d : ℕ) (x : E) : 0 ≤ p.value β d x := mul_nonneg (hi.positive _ (rule_le p β d x) x).le (hi.nonneg _ x)

/-- One step of the comparison: with complete regressors the rule is better than exercising and than going on. -/
theorem step_better [IsFiniteMeasure ν] (hr : p.Regular ν β) (hi : p.Informed ℱ) (hcomplete : p.IsComplete ν ℱ β) (d : ℕ) (hd : d < p.last) (B : Set E)
    (hB : MeasurableSet[ℱ (p.last - (d + 1))] B) :
    ∫ x in B, p.factor (p.last - (d + 1)) x * p.payoff (p.last - (d + 1)) x ∂ν ≤ ∫ x in B, p.value β (d + 1) x ∂ν ∧
      ∫ x in B, p.value β d x ∂ν ≤ ∫ x in B, p.value β (d + 1) x ∂ν := by
  classical
  set j := p.last - (d + 1) with hj
  set ex : Set E := {x | p.payoff j x > max (∑ k, p.basis j k x * β j k) 0} with hex
  have hexm : MeasurableSet[ℱ j] ex := informed_exercise hi β j
  have hexm' : MeasurableSet ex := ℱ.le j _ hexm
  have hBm : MeasurableSet B := ℱ.le j _ hB
  have hfi : Integrable (fun x => p.factor j x * p.payoff j x) ν :=
    hr.integrable.mono' ((hr.factor j).mul (hr.payoff j)).aestronglyMeasurable (Eventually.of_forall fun x => term_bound p j (by omega) x)
  have hvi := value_integrable hr β d
  have hvi' := value_integrable hr β (d + 1)
  have h1 : ∫ x in B ∩ ex, p.value β (d + 1) x ∂ν = ∫ x in B ∩ ex, p.factor j x * p.payoff j x ∂ν := by
    refine setIntegral_congr_fun (hBm.inter hexm') fun x hx => ?_
    rw [value_succ]
    exact if_pos hx.2
  have h0 : ∫ x in B \ ex, p.value β (d + 1) x ∂ν = ∫ x in B \ ex, p.value β d x ∂ν := by
    refine setIntegral_congr_fun (hBm.diff hexm') fun x hx => ?_
    rw [value_succ]
    exact if_neg hx.2
  have hc1 : ∫ x in B ∩ ex, (ν[p.value β d | ℱ j]) x ∂ν = ∫ x in B ∩ ex, p.value β d x ∂ν := setIntegral_condExp (ℱ.le j) hvi (MeasurableSet.inter hB hexm)
  have hc0 : ∫ x in B \ ex, (ν[p.value β d | ℱ j]) x ∂ν = ∫ x in B \ ex, p.value β d x ∂ν := setIntegral_condExp (ℱ.le j) hvi (MeasurableSet.diff hB hexm)
  have hnn : 0 ≤ᵐ[ν] ν[p.value β d | ℱ j] := condExp_nonneg (Eventually.of_forall fun x => value_nonneg hi d x)
  have hle1 : ∫ x in B ∩ ex, (ν[p.value β d | ℱ j]) x ∂ν ≤ ∫ x in B ∩ ex, p.factor j x * p.payoff j x ∂ν := by
    refine setIntegral_mono_on_ae integrable_condExp.integrableOn hfi.integrableOn (hBm.inter hexm') ?_
    filter_upwards [hcomplete d hd] with x hx hxe
    have h2 : p.payoff j x > max (∑ k, p.basis j k x * β j k) 0 := hxe.2
    have h3 := max_lt_iff.1 h2
    rw [← hx h3.2]
    exact mul_le_mul_of_nonneg_left h3.1.le (hi.positive j (by omega) x).le
  have hle0 : ∫ x in B \ ex, p.factor j x * p.payoff j x ∂ν ≤ ∫ x in B \ ex, (ν[p.value β d | ℱ j]) x ∂ν := by
    refine setIntegral_mono_on_ae hfi.integrableOn integrable_condExp.integrableOn (hBm.diff hexm') ?_
    filter_upwards [hcomplete d hd, hnn] with x hx hx0 hxe
    have h2 : ¬ p.payoff j x > max (∑ k, p.basis j k x * β j k) 0 := hxe.2
    by_cases hpos : p.payoff j x > 0
    · rw [← hx hpos]
      refine mul_le_mul_of_nonneg_left ?_ (hi.positive j (by omega) x).le
      by_contra h3
      exact h2 (max_lt_iff.2 ⟨not_le.1 h3, hpos⟩)
    · rw [le_antisymm (not_lt.1 hpos) (hi.nonneg j x), mul_zero]
      exact hx0
  have s1 := integral_inter_add_sdiff hexm' (hvi'.integrableOn (s := B))
  have s2 := integral_inter_add_sdiff hexm' (hvi.integrableOn (s := B))
  have s3 := integral_inter_add_sdiff hexm' (hfi.integrableOn (s := B))
  constructor
  · linarith
  · linarith

/-- With complete regressors no exercise time is better than the rule. -/
theorem rule_optimal_on [IsFiniteMeasure ν] (hr : p.Regular ν β) (hi : p.Informed ℱ) (hcomplete : p.IsComplete ν ℱ β) (τ : E → ℕ) (hτ : IsExerciseTime ℱ p.last τ) (d : ℕ)
    (hd : d ≤ p.last) (A : Set E) (hA : MeasurableSet[ℱ (p.last - d)] A) (hAτ : ∀ x ∈ A, p.last - d ≤ τ x) :
    ∫ x in A, p.factor (τ x) x * p.payoff (τ x) x ∂ν ≤ ∫ x in A, p.value β d x ∂ν := by
  have hfi : Integrable (fun x => p.factor (τ x) x * p.payoff (τ x) x) ν :=
    hr.integrable.mono' (exercise_payoff_measurable hr τ hτ).aestronglyMeasurable (Eventually.of_forall fun x => term_bound p _ (hτ.1 x) x)
  induction d generalizing A with
  | zero =>
    refine le_of_eq (setIntegral_congr_fun (ℱ.le _ _ hA) fun x hx => ?_)
    have h1 := hAτ x hx
    have h2 : τ x = p.last := le_antisymm (hτ.1 x) h1
    rw [h2]
    rfl
  | succ d ih =>
    set j := p.last - (d + 1) with hj
    have hT := hτ.2 j
    have hTm : MeasurableSet {x | τ x ≤ j} := ℱ.le j _ hT
    have hAm : MeasurableSet A := ℱ.le j _ hA
    have s1 := integral_inter_add_sdiff hTm (hfi.integrableOn (s := A))
    have s2 := integral_inter_add_sdiff hTm ((value_integrable hr β (d + 1)).integrableOn (s := A))
    have h1 : ∫ x in A ∩ {x | τ x ≤ j}, p.factor (τ x) x * p.payoff (τ x) x ∂ν = ∫ x in A ∩ {x | τ x ≤ j}, p.factor j x * p.payoff j x ∂ν := by
      refine setIntegral_congr_fun (hAm.inter hTm) fun x hx => ?_
      have : τ x = j := le_antisymm hx.2 (hAτ x hx.1)
      rw [this]
    have h2 := (step_better hr hi hcomplete d hd _ (MeasurableSet.inter hA hT)).1
    have h3 := (step_better hr hi hcomplete d hd _ (MeasurableSet.diff hA hT)).2
    have h4 := ih (by omega) (A \ {x | τ x ≤ j}) (ℱ.mono (show j ≤ p.last - d by omega) _ (MeasurableSet.diff hA hT)) (fun x hx => by
      have : ¬ τ x ≤ j := hx.2
      omega)
    linarith

/-- With complete regressors the coefficients of the conditional expectations solve the regressions. -/
theorem complete_limit_rule [IsFiniteMeasure ν] (hr : p.Regular ν β) (hi : p.Informed ℱ) (hcomplete : p.IsComplete ν ℱ β) : p.IsLimitRule ν β := by
  classical
  intro d hd k
  set j := p.last - (d + 1) with hj
  have hjl : j < p.last := by omega
  have hmask : Measurable[ℱ j] (p.masked j k) := by
    have e : p.masked j k = fun x => if p.payoff j x > 0 then p.basis j k x else 0 := by
      funext x
      simp only [ExerciseProblem.masked]
    rw [e]
    exact Measurable.ite (measurableSet_lt measurable_const (hi.payoff j)) (hi.basis j k) measurable_const
  have hm : StronglyMeasurable[ℱ j] (fun x => p.masked j k x / p.factor j x) := (hmask.div (hi.factor j)).stronglyMeasurable
  have hprod : Integrable ((fun x => p.masked j k x / p.factor j x) * p.value β d) ν :=
    weight_integrable hr _ ((masked_measurable hr j k).div (hr.factor j)) (hr.weights j hjl k) _ (value_measurable hr β d) (value_bound p β d)
  have hpull := condExp_mul_of_stronglyMeasurable_left hm hprod (value_integrable hr β d)
  have h1 : ∫ x, p.masked j k x * (p.value β d x / p.factor j x) ∂ν = ∫ x, ((fun x => p.masked j k x / p.factor j x) * p.value β d) x ∂ν := by
    refine integral_congr_ae (Eventually.of_forall fun x => ?_)
    simp only [Pi.mul_apply]
    ring
  rw [h1, ← integral_condExp (ℱ.le j), integral_congr_ae hpull]
  have h2 : ∑ l, p.gram ν j k l * β j l = ∫ x, ∑ l, p.masked j k x * p.masked j l x * β j l ∂ν := by
    rw [integral_finsetSum _ fun l _ => (hr.gram j hjl k l).mul_const _]
    refine Finset.sum_congr rfl fun l _ => ?_
    rw [integral_mul_const]
    rfl
  rw [h2]
  refine integral_congr_ae ?_
  filter_upwards [hcomplete d hd] with x hx
  simp only [Pi.mul_apply, ExerciseProblem.masked]
  by_cases hpos : p.payoff j x > 0
  · simp only [if_pos hpos]
    rw [← hx hpos]
    have := (hi.positive j hjl.le x).ne'
    rw [← mul_assoc, div_mul_cancel₀ _ this, Finset.mul_sum]
    exact Finset.sum_congr rfl fun l _ => by ring
  · simp only [if_neg hpos]
    simp

end Lemmas
