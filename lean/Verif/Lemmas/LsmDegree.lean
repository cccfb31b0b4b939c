import Verif.Lemmas.LsmOptimal
import Mathlib.MeasureTheory.Function.ConditionalExpectation.Real
import Mathlib.MeasureTheory.Function.L2Space
import Mathlib.MeasureTheory.Function.L1Space.Integrable

/-! # Exercise rules from ever more regressors become optimal -/

namespace Spec
open MeasureTheory
open scoped BigOperators

variable {E : Type} {b : ℕ} {mE : MeasurableSpace E}

/-- The value of a contract that is not exercised before the index `last - d`: the larger of exercising and the conditional expectation of going on. -/
noncomputable def snell (ν : Measure E) (ℱ : Filtration ℕ mE) (last : ℕ) (gain : ℕ → E → ℝ) : ℕ → E → ℝ
  | 0 => gain last
  | d + 1 => fun x => max (gain (last - (d + 1)) x) ((ν[snell ν ℱ last gain d | ℱ (last - (d + 1))]) x)

/-- Discounted payoffs between zero and `B`, discount factors `δ` that do not depend on the path, and regressors with second moments on the paths in the money. -/
structure ExerciseProblem.Tame (p : ExerciseProblem E b) (ν : Measure E) (ℱ : Filtration ℕ mE) (δ : ℕ → ℝ) (B : ℝ) : Prop where
  informed : p.Informed ℱ
  factor : ∀ j x, p.factor j x = δ j
  bound : ∀ j ≤ p.last, ∀ x, p.factor j x * p.payoff j x ≤ B
  gram : ∀ j < p.last, ∀ k l, Integrable (fun x => p.masked j k x * p.masked j l x) ν

end Spec

namespace Lemmas
open Model Spec MeasureTheory ProbabilityTheory Filter Topology
open scoped BigOperators

variable {E : Type} {b : ℕ} {mE : MeasurableSpace E} {ν : Measure E} {ℱ : Filtration ℕ mE}

/-! ## Squares -/

theorem ae_bounded_memLp [IsFiniteMeasure ν] {X : E → ℝ} {B : ℝ} (hm : AEStronglyMeasurable X ν) (hB : ∀ᵐ x ∂ν, |X x| ≤ B) : MemLp X 2 ν :=
  MemLp.of_bound hm B hB

theorem condExp_bounded {m : MeasurableSpace E} {X : E → ℝ} {B : ℝ} (hB0 : 0 ≤ B) (hB : ∀ᵐ x ∂ν, |X x| ≤ B) : ∀ᵐ x ∂ν, |(ν[X | m]) x| ≤ B :=
  ae_bdd_condExp_of_ae_bdd (R := ⟨B, hB0⟩) hB

/-- Conditional expectations do not increase the mean square. -/
theorem condExp_sq_le [IsFiniteMeasure ν] {m : MeasurableSpace E} (hm : m ≤ mE) {X : E → ℝ} {B : ℝ} (hB0 : 0 ≤ B) (hX : AEStronglyMeasurable[mE] X ν)
    (hB : ∀ᵐ x ∂ν, |X x| ≤ B) : ∫ x, (ν[X | m]) x ^ 2 ∂ν ≤ ∫ x, X x ^ 2 ∂ν := by
  set Y := ν[X | m] with hY
  have hYm : StronglyMeasurable[m] Y := stronglyMeasurable_condExp
  have hX2 := ae_bounded_memLp hX hB
  have hY2 : MemLp Y 2 ν := ae_bounded_memLp (hYm.mono hm).aestronglyMeasurable (condExp_bounded hB0 hB)
  have hXi : Integrable X ν := hX2.integrable (by norm_num)
  have hYX : Integrable (Y * X) ν := hY2.integrable_mul hX2
  have hpull : ν[Y * X | m] =ᵐ[ν] Y * ν[X | m] := condExp_mul_of_stronglyMeasurable_left hYm hYX hXi
  have h1 : ∫ x, Y x * X x ∂ν = ∫ x, Y x ^ 2 ∂ν := by
    have h2 : ∫ x, (ν[Y * X | m]) x ∂ν = ∫ x, (Y * X) x ∂ν := integral_condExp hm
    rw [integral_congr_ae hpull] at h2
    have h3 : ∫ x, Y x ^ 2 ∂ν = ∫ x, (Y * Y) x ∂ν := integral_congr_ae (Eventually.of_forall fun x => by simp only [Pi.mul_apply]; ring)
    rw [h3]
    exact h2.symm
  have h0 : 0 ≤ ∫ x, (X x - Y x) ^ 2 ∂ν := integral_nonneg fun x => sq_nonneg _
  have e : ∫ x, (X x - Y x) ^ 2 ∂ν = ∫ x, (X x ^ 2 - 2 * (Y x * X x) + Y x ^ 2) ∂ν := integral_congr_ae (Eventually.of_forall fun x => by ring)
  have hYX' : Integrable (fun x => Y x * X x) ν := hYX
  have hsq : Integrable (fun x => X x ^ 2 - 2 * (Y x * X x)) ν := hX2.integrable_sq.sub (hYX'.const_mul 2)
  rw [e, integral_add hsq hY2.integrable_sq, integral_sub hX2.integrable_sq (hYX'.const_mul 2), integral_const_mul, h1] at h0
  linarith

/-- Coefficients with the normal equations give the best fit. -/
theorem best_fit (M : Fin b → E → ℝ) (hM : ∀ k, MemLp (M k) 2 ν) (Y : E → ℝ) (hY : MemLp Y 2 ν) (β γ : Fin b → ℝ)
    (horth : ∀ k, ∫ x, M k x * (∑ l, M l x * β l - Y x) ∂ν = 0) : ∫ x, (∑ l, M l x * β l - Y x) ^ 2 ∂ν ≤ ∫ x, (∑ l, M l x * γ l - Y x) ^ 2 ∂ν := by
  have hsum : ∀ v : Fin b → ℝ, MemLp (fun x => ∑ l, M l x * v l) 2 ν := fun v => memLp_finsetSum _ fun l _ => (hM l).mul_const (v l)
  have hR : MemLp (fun x => ∑ l, M l x * β l - Y x) 2 ν := (hsum β).sub hY
  have hD : MemLp (fun x => ∑ l, M l x * (γ l - β l)) 2 ν := hsum fun l => γ l - β l
  have hc : ∫ x, (∑ l, M l x * (γ l - β l)) * (∑ l, M l x * β l - Y x) ∂ν = 0 := by
    have e : ∀ x, (∑ l, M l x * (γ l - β l)) * (∑ l, M l x * β l - Y x) = ∑ k, (γ k - β k) * (M k x * (∑ l, M l x * β l - Y x)) := by
      intro x
      rw [Finset.sum_mul]
      exact Finset.sum_congr rfl fun k _ => by ring
    simp only [e]
    have hi : ∀ k, Integrable (fun x => M k x * (∑ l, M l x * β l - Y x)) ν := fun k => (hM k).integrable_mul hR
    rw [integral_finsetSum _ fun k _ => (hi k).const_mul _]
    refine Finset.sum_eq_zero fun k _ => ?_
    rw [integral_const_mul, horth, mul_zero]
  have hDR : Integrable (fun x => (∑ l, M l x * (γ l - β l)) * (∑ l, M l x * β l - Y x)) ν := hD.integrable_mul hR
  have e : ∫ x, (∑ l, M l x * γ l - Y x) ^ 2 ∂ν =
      ∫ x, ((∑ l, M l x * (γ l - β l)) ^ 2 + 2 * ((∑ l, M l x * (γ l - β l)) * (∑ l, M l x * β l - Y x)) + (∑ l, M l x * β l - Y x) ^ 2) ∂ν := by
    refine integral_congr_ae (Eventually.of_forall fun x => ?_)
    have h1 : ∑ l, M l x * (γ l - β l) = ∑ l, M l x * γ l - ∑ l, M l x * β l := by
      rw [← Finset.sum_sub_distrib]
      exact Finset.sum_congr rfl fun l _ => by ring
    simp only [h1]
    ring
  have hsq : Integrable (fun x => (∑ l, M l x * (γ l - β l)) ^ 2 + 2 * ((∑ l, M l x * (γ l - β l)) * (∑ l, M l x * β l - Y x))) ν := hD.integrable_sq.add (hDR.const_mul 2)
  rw [e, integral_add hsq hR.integrable_sq, integral_add hD.integrable_sq (hDR.const_mul 2), integral_const_mul, hc]
  have : 0 ≤ ∫ x, (∑ l, M l x * (γ l - β l)) ^ 2 ∂ν := integral_nonneg fun x => sq_nonneg _
  linarith

/-! ## The value of the contract -/

variable {last : ℕ} {gain : ℕ → E → ℝ} {B : ℝ}

theorem snell_measurable (hg : ∀ j, Measurable[ℱ j] (gain j)) (d : ℕ) : StronglyMeasurable[ℱ (last - d)] (snell ν ℱ last gain d) := by
  cases d with
  | zero => exact (hg last).stronglyMeasurable
  | succ d => exact ((hg _).max stronglyMeasurable_condExp.measurable).stronglyMeasurable

theorem snell_bounded (h0 : ∀ j ≤ last, ∀ x, 0 ≤ gain j x) (hB0 : 0 ≤ B) (hB : ∀ j ≤ last, ∀ x, gain j x ≤ B) (d : ℕ) : ∀ᵐ x ∂ν, 0 ≤ snell ν ℱ last gain d x ∧ |snell ν ℱ last gain d x| ≤ B := by
  induction d with
  | zero =>
    refine Eventually.of_forall fun x => ⟨h0 _ le_rfl x, ?_⟩
    simp only [snell]
    rw [abs_of_nonneg (h0 _ le_rfl x)]
    exact hB _ le_rfl x
  | succ d ih =>
    have h1 := condExp_bounded (m := ℱ (last - (d + 1))) hB0 (ih.mono fun x hx => hx.2)
    filter_upwards [h1] with x hx
    have h2 : 0 ≤ snell ν ℱ last gain (d + 1) x := (h0 _ (Nat.sub_le _ _) x).trans (le_max_left _ _)
    refine ⟨h2, ?_⟩
    rw [abs_of_nonneg h2]
    exact max_le (hB _ (Nat.sub_le _ _) x) ((le_abs_self _).trans hx)

theorem snell_integrable [IsFiniteMeasure ν] (hg : ∀ j, Measurable[ℱ j] (gain j)) (h0 : ∀ j ≤ last, ∀ x, 0 ≤ gain j x) (hB0 : 0 ≤ B) (hB : ∀ j ≤ last, ∀ x, gain j x ≤ B) (d : ℕ) :
    MemLp (snell ν ℱ last gain d) 2 ν :=
  ae_bounded_memLp ((snell_measurable hg d).mono (ℱ.le _)).aestronglyMeasurable ((snell_bounded h0 hB0 hB d).mono fun _ hx => hx.2)

theorem gain_time_measurable (hg : ∀ j, Measurable[ℱ j] (gain j)) (τ : E → ℕ) (hτ : IsExerciseTime ℱ last τ) : Measurable fun x => gain (τ x) x := by
  have h1 : Measurable τ := measurable_of_Iic fun j => ℱ.le j _ (hτ.2 j)
  have h2 : Measurable fun y : ℕ × E => gain y.1 y.2 := measurable_from_prod_countable_right fun j => (hg j).mono (ℱ.le j) le_rfl
  exact h2.comp (h1.prodMk measurable_id)

/-- No exercise time is worth more than the value of the contract. -/
theorem snell_upper [IsFiniteMeasure ν] (hg : ∀ j, Measurable[ℱ j] (gain j)) (h0 : ∀ j ≤ last, ∀ x, 0 ≤ gain j x) (hB0 : 0 ≤ B) (hB : ∀ j ≤ last, ∀ x, gain j x ≤ B) (τ : E → ℕ)
    (hτ : IsExerciseTime ℱ last τ) (d : ℕ) (hd : d ≤ last) (A : Set E) (hA : MeasurableSet[ℱ (last - d)] A) (hAτ : ∀ x ∈ A, last - d ≤ τ x) :
    ∫ x in A, gain (τ x) x ∂ν ≤ ∫ x in A, snell ν ℱ last gain d x ∂ν := by
  have hbd : ∀ j ≤ last, ∀ x, |gain j x| ≤ B := fun j hj x => by
    rw [abs_of_nonneg (h0 j hj x)]
    exact hB j hj x
  have hfi : Integrable (fun x => gain (τ x) x) ν :=
    (ae_bounded_memLp (gain_time_measurable hg τ hτ).aestronglyMeasurable (Eventually.of_forall fun x => hbd _ (hτ.1 x) x)).integrable (by norm_num)
  have hsi : ∀ d, Integrable (snell ν ℱ last gain d) ν := fun d => (snell_integrable hg h0 hB0 hB d).integrable (by norm_num)
  induction d generalizing A with
  | zero =>
    refine le_of_eq (setIntegral_congr_fun (ℱ.le _ _ hA) fun x hx => ?_)
    have h1 := hAτ x hx
    have h2 : τ x = last := le_antisymm (hτ.1 x) h1
    simp only [h2, snell]
  | succ d ih =>
    set j := last - (d + 1) with hj
    have hT := hτ.2 j
    have hTm : MeasurableSet {x | τ x ≤ j} := ℱ.le j _ hT
    have hAm : MeasurableSet A := ℱ.le j _ hA
    have s1 := integral_inter_add_sdiff hTm (hfi.integrableOn (s := A))
    have s2 := integral_inter_add_sdiff hTm ((hsi (d + 1)).integrableOn (s := A))
    have h1 : ∫ x in A ∩ {x | τ x ≤ j}, gain (τ x) x ∂ν ≤ ∫ x in A ∩ {x | τ x ≤ j}, snell ν ℱ last gain (d + 1) x ∂ν := by
      refine setIntegral_mono_on hfi.integrableOn (hsi _).integrableOn (hAm.inter hTm) fun x hx => ?_
      have : τ x = j := le_antisymm hx.2 (hAτ x hx.1)
      rw [this]
      exact le_max_left _ _
    have h3 : ∫ x in A \ {x | τ x ≤ j}, snell ν ℱ last gain d x ∂ν ≤ ∫ x in A \ {x | τ x ≤ j}, snell ν ℱ last gain (d + 1) x ∂ν := by
      rw [← setIntegral_condExp (ℱ.le j) (hsi d) (MeasurableSet.diff hA hT)]
      exact setIntegral_mono_on integrable_condExp.integrableOn (hsi _).integrableOn (hAm.diff hTm) fun x _ => le_max_right _ _
    have h4 := ih (by omega) (A \ {x | τ x ≤ j}) (ℱ.mono (show j ≤ last - d by omega) _ (MeasurableSet.diff hA hT)) (fun x hx => by
      have : ¬ τ x ≤ j := hx.2
      omega)
    linarith

/-! ## The error of a rule -/

variable {p : ExerciseProblem E b} {β : ℕ → Fin b → ℝ} {δ : ℕ → ℝ}

theorem tame_value_measurable (ht : p.Tame ν ℱ δ B) (d : ℕ) : Measurable (p.value β d) :=
  gain_time_measurable (gain := fun j x => p.factor j x * p.payoff j x) (fun j => (ht.informed.factor j).mul (ht.informed.payoff j)) _ (rule_exercise_time ht.informed β d)

theorem tame_gain_measurable (ht : p.Tame ν ℱ δ B) (j : ℕ) : Measurable[ℱ j] fun x => p.factor j x * p.payoff j x := (ht.informed.factor j).mul (ht.informed.payoff j)

theorem tame_value_bounded (ht : p.Tame ν ℱ δ B) (d : ℕ) (x : E) : |p.value β d x| ≤ B := by
  rw [abs_of_nonneg (value_nonneg ht.informed d x)]
  exact ht.bound _ (rule_le p β d x) x

theorem tame_masked_measurable (ht : p.Tame ν ℱ δ B) (j : ℕ) (k : Fin b) : Measurable[ℱ j] (p.masked j k) := by
  classical
  have e : p.masked j k = fun x => if p.payoff j x > 0 then p.basis j k x else 0 := by
    funext x
    simp only [ExerciseProblem.masked]
  rw [e]
  exact Measurable.ite (measurableSet_lt measurable_const (ht.informed.payoff j)) (ht.informed.basis j k) measurable_const

theorem tame_masked_memLp (ht : p.Tame ν ℱ δ B) (j : ℕ) (hj : j < p.last) (k : Fin b) : MemLp (p.masked j k) 2 ν := by
  rw [memLp_two_iff_integrable_sq ((tame_masked_measurable ht j k).mono (ℱ.le j) le_rfl).aestronglyMeasurable]
  refine (ht.gram j hj k k).congr (Eventually.of_forall fun x => ?_)
  simp only
  ring

/-- The conditional expectation of one step of the rule. -/
theorem value_condExp [IsFiniteMeasure ν] (ht : p.Tame ν ℱ δ B) (d : ℕ) (hd : d < p.last) : ∀ᵐ x ∂ν,
    (p.payoff (p.last - (d + 1)) x > max (∑ k, p.basis (p.last - (d + 1)) k x * β (p.last - (d + 1)) k) 0 →
      (ν[p.value β (d + 1) | ℱ (p.last - (d + 1))]) x = p.factor (p.last - (d + 1)) x * p.payoff (p.last - (d + 1)) x) ∧
    (¬ p.payoff (p.last - (d + 1)) x > max (∑ k, p.basis (p.last - (d + 1)) k x * β (p.last - (d + 1)) k) 0 →
      (ν[p.value β (d + 1) | ℱ (p.last - (d + 1))]) x = (ν[p.value β d | ℱ (p.last - (d + 1))]) x) := by
  classical
  set j := p.last - (d + 1) with hj
  set ex : Set E := {x | p.payoff j x > max (∑ k, p.basis j k x * β j k) 0} with hex
  have hexm : MeasurableSet[ℱ j] ex := informed_exercise ht.informed β j
  have hv : Integrable (p.value β d) ν := (ae_bounded_memLp (tame_value_measurable ht d).aestronglyMeasurable (Eventually.of_forall (tame_value_bounded ht d))).integrable (by norm_num)
  have hgb : ∀ x, |p.factor j x * p.payoff j x| ≤ B := fun x => by
    rw [abs_of_nonneg (mul_nonneg (ht.informed.positive j (by omega) x).le (ht.informed.nonneg j x))]
    exact ht.bound j (by omega) x
  have hg : Integrable (fun x => p.factor j x * p.payoff j x) ν :=
    (ae_bounded_memLp ((tame_gain_measurable ht j).mono (ℱ.le j) le_rfl).aestronglyMeasurable (Eventually.of_forall hgb)).integrable (by norm_num)
  have e : p.value β (d + 1) = ex.indicator (fun x => p.factor j x * p.payoff j x) + exᶜ.indicator (p.value β d) := by
    funext x
    rw [value_succ, Pi.add_apply]
    by_cases hx : x ∈ ex
    · rw [Set.indicator_of_mem hx, Set.indicator_of_notMem (by simpa using hx), add_zero]
      exact if_pos hx
    · rw [Set.indicator_of_notMem hx, Set.indicator_of_mem (by simpa using hx), zero_add]
      exact if_neg hx
  have h1 : ν[p.value β (d + 1) | ℱ j] =ᵐ[ν] ν[ex.indicator (fun x => p.factor j x * p.payoff j x) | ℱ j] + ν[exᶜ.indicator (p.value β d) | ℱ j] := by
    rw [e]
    exact condExp_add (hg.indicator (ℱ.le j _ hexm)) (hv.indicator (ℱ.le j _ hexm.compl)) _
  have h2 := condExp_indicator (μ := ν) hg hexm
  have h3 := condExp_indicator (μ := ν) hv hexm.compl
  have h4 : ν[fun x => p.factor j x * p.payoff j x | ℱ j] = fun x => p.factor j x * p.payoff j x := condExp_of_stronglyMeasurable (ℱ.le j) (tame_gain_measurable ht j).stronglyMeasurable hg
  filter_upwards [h1, h2, h3] with x hx1 hx2 hx3
  rw [hx1, Pi.add_apply, hx2, hx3, h4]
  constructor
  · intro hx
    have hx' : x ∈ ex := hx
    rw [Set.indicator_of_mem hx', Set.indicator_of_notMem (by simpa using hx'), add_zero]
  · intro hx
    have hx' : x ∉ ex := hx
    rw [Set.indicator_of_notMem hx', Set.indicator_of_mem (by simpa using hx'), zero_add]

theorem tame_gain_nonneg (ht : p.Tame ν ℱ δ B) (j : ℕ) (hj : j ≤ p.last) (x : E) : 0 ≤ p.factor j x * p.payoff j x :=
  mul_nonneg (ht.informed.positive j hj x).le (ht.informed.nonneg j x)

open Classical in
/-- The error of the rule grows by a factor in each step and by how well the conditional expectation of going on can be fitted on the paths in the money. -/
theorem step_error [IsProbabilityMeasure ν] (hB0 : 0 ≤ B) (ht : p.Tame ν ℱ δ B) (hβ : p.IsLimitRule ν β) (d : ℕ) (hd : d < p.last) (γ : Fin b → ℝ) :
    ∫ x, ((ν[p.value β (d + 1) | ℱ (p.last - (d + 1))]) x - snell ν ℱ p.last (fun j x => p.factor j x * p.payoff j x) (d + 1) x) ^ 2 ∂ν ≤
      14 * ∫ x, ((ν[p.value β d | ℱ (p.last - d)]) x - snell ν ℱ p.last (fun j x => p.factor j x * p.payoff j x) d x) ^ 2 ∂ν +
      8 * ∫ x, (∑ k, p.masked (p.last - (d + 1)) k x * γ k - if p.payoff (p.last - (d + 1)) x > 0 then
        (ν[snell ν ℱ p.last (fun j x => p.factor j x * p.payoff j x) d | ℱ (p.last - (d + 1))]) x else 0) ^ 2 ∂ν := by
  set gain : ℕ → E → ℝ := fun j x => p.factor j x * p.payoff j x with hgain
  set j := p.last - (d + 1) with hj
  have hjl : j < p.last := by omega
  set u := snell ν ℱ p.last gain d with hu
  set v := p.value β d with hv
  set c := ν[u | ℱ j] with hc
  set c' := ν[v | ℱ j] with hc'
  set w := ν[v | ℱ (p.last - d)] with hw
  have hδ : 0 < δ j := by
    obtain ⟨x⟩ := nonempty_of_isProbabilityMeasure ν
    rw [← ht.factor j x]
    exact ht.informed.positive j hjl.le x
  have hgm : ∀ j, Measurable[ℱ j] (gain j) := tame_gain_measurable ht
  have hg0 : ∀ j ≤ p.last, ∀ x, 0 ≤ gain j x := tame_gain_nonneg ht
  have hum := snell_measurable (ν := ν) (last := p.last) hgm d
  have hub := snell_bounded (ν := ν) (ℱ := ℱ) hg0 hB0 ht.bound d
  have hub' : ∀ᵐ x ∂ν, |u x| ≤ B := hub.mono fun x hx => hx.2
  have hvb : ∀ᵐ x ∂ν, |v x| ≤ B := Eventually.of_forall (tame_value_bounded ht d)
  have hvm : Measurable v := tame_value_measurable ht d
  have hu2 : MemLp u 2 ν := snell_integrable hgm hg0 hB0 ht.bound d
  have hv2 : MemLp v 2 ν := ae_bounded_memLp hvm.aestronglyMeasurable hvb
  have hui : Integrable u ν := hu2.integrable (by norm_num)
  have hvi : Integrable v ν := hv2.integrable (by norm_num)
  have hcm : StronglyMeasurable[ℱ j] c := stronglyMeasurable_condExp
  have hcm' : StronglyMeasurable[ℱ j] c' := stronglyMeasurable_condExp
  have hc2 : MemLp c 2 ν := ae_bounded_memLp (hcm.mono (ℱ.le j)).aestronglyMeasurable (condExp_bounded hB0 hub')
  have hc2' : MemLp c' 2 ν := ae_bounded_memLp (hcm'.mono (ℱ.le j)).aestronglyMeasurable (condExp_bounded hB0 hvb)
  have hwm : StronglyMeasurable[ℱ (p.last - d)] w := stronglyMeasurable_condExp
  -- the conditional expectations of going on
  have hsq : ∫ x, (c' x - c x) ^ 2 ∂ν ≤ ∫ x, (w x - u x) ^ 2 ∂ν := by
    have h1 : ν[w - u | ℱ j] =ᵐ[ν] c' - c := by
      refine (condExp_sub integrable_condExp hui _).trans ?_
      have h2 : ν[w | ℱ j] =ᵐ[ν] c' := condExp_condExp_of_le (ℱ.mono (by omega)) (ℱ.le _)
      exact h2.sub EventuallyEq.rfl
    have hb : ∀ᵐ x ∂ν, |(w - u) x| ≤ B + B := by
      filter_upwards [hub', condExp_bounded (m := ℱ (p.last - d)) hB0 hvb] with x hx hx'
      rw [Pi.sub_apply]
      exact (abs_sub _ _).trans (add_le_add hx' hx)
    have h3 := condExp_sq_le (ν := ν) (ℱ.le j) (X := w - u) (B := B + B) (by linarith) ((hwm.mono (ℱ.le _)).sub (hum.mono (ℱ.le _))).aestronglyMeasurable hb
    refine le_trans (le_of_eq ?_) h3
    refine integral_congr_ae ?_
    filter_upwards [h1] with x hx
    rw [hx, Pi.sub_apply]
  -- the best fit
  set mask : (E → ℝ) → E → ℝ := fun f x => if p.payoff j x > 0 then f x else 0 with hmask
  have hset : MeasurableSet {x | p.payoff j x > 0} := measurableSet_lt measurable_const ((ht.informed.payoff j).mono (ℱ.le j) le_rfl)
  have hmask2 : ∀ f : E → ℝ, MemLp f 2 ν → MemLp (mask f) 2 ν := by
    intro f hf
    have e : mask f = {x | p.payoff j x > 0}.indicator f := by
      funext x
      simp only [hmask, Set.indicator_apply, Set.mem_ofPred_eq]
    rw [e]
    exact hf.indicator hset
  have hM := tame_masked_memLp ht j hjl
  have hmm : ∀ k x (f : E → ℝ), p.masked j k x * mask f x = p.masked j k x * f x := by
    intro k x f
    simp only [hmask, ExerciseProblem.masked]
    split <;> simp
  have horth : ∀ k, ∫ x, p.masked j k x * (∑ l, p.masked j l x * (δ j * β j l) - mask c' x) ∂ν = 0 := by
    intro k
    have hprod : Integrable (p.masked j k * v) ν := (hM k).integrable_mul hv2
    have hpull := condExp_mul_of_stronglyMeasurable_left (tame_masked_measurable ht j k).stronglyMeasurable hprod hvi
    have h1 : ∫ x, p.masked j k x * c' x ∂ν = ∫ x, p.masked j k x * v x ∂ν := by
      have h2 : ∫ x, (ν[p.masked j k * v | ℱ j]) x ∂ν = ∫ x, (p.masked j k * v) x ∂ν := integral_condExp (ℱ.le j)
      rw [integral_congr_ae hpull] at h2
      exact h2
    have h2 := hβ d hd k
    rw [← hj] at h2
    have h3 : ∫ x, p.masked j k x * (v x / p.factor j x) ∂ν = (∫ x, p.masked j k x * v x ∂ν) / δ j := by
      rw [← integral_div]
      refine integral_congr_ae (Eventually.of_forall fun x => ?_)
      simp only [ht.factor]
      ring
    rw [h3] at h2
    have h4 : ∫ x, ∑ l, p.masked j k x * p.masked j l x * (δ j * β j l) ∂ν = δ j * ∑ l, p.gram ν j k l * β j l := by
      rw [integral_finsetSum _ fun l _ => (ht.gram j hjl k l).mul_const _, Finset.mul_sum]
      refine Finset.sum_congr rfl fun l _ => ?_
      rw [integral_mul_const]
      simp only [ExerciseProblem.gram]
      ring
    have e : ∀ x, p.masked j k x * (∑ l, p.masked j l x * (δ j * β j l) - mask c' x) = ∑ l, p.masked j k x * p.masked j l x * (δ j * β j l) - p.masked j k x * c' x := by
      intro x
      rw [mul_sub, hmm, Finset.mul_sum]
      refine congrArg (· - _) (Finset.sum_congr rfl fun l _ => ?_)
      ring
    simp only [e]
    have hmc : Integrable (fun x => p.masked j k x * c' x) ν := (hM k).integrable_mul hc2'
    rw [integral_sub (integrable_finsetSum _ fun l _ => (ht.gram j hjl k l).mul_const _) hmc, h4, h1, h2, mul_div_cancel₀ _ hδ.ne', sub_self]
  have hfit := best_fit (p.masked j) hM (mask c') (hmask2 _ hc2') (fun l => δ j * β j l) γ horth
  set F : E → ℝ := fun x => ∑ l, p.masked j l x * (δ j * β j l) with hF
  set G : E → ℝ := fun x => ∑ l, p.masked j l x * γ l with hG
  have hF2 : MemLp F 2 ν := memLp_finsetSum _ fun l _ => (hM l).mul_const _
  have hG2 : MemLp G 2 ν := memLp_finsetSum _ fun l _ => (hM l).mul_const _
  have hcc : MemLp (fun x => c' x - c x) 2 ν := hc2'.sub hc2
  have i1 : Integrable (fun x => (F x - mask c' x) ^ 2) ν := (hF2.sub (hmask2 _ hc2')).integrable_sq
  have i2 : Integrable (fun x => (F x - mask c x) ^ 2) ν := (hF2.sub (hmask2 _ hc2)).integrable_sq
  have i3 : Integrable (fun x => (G x - mask c' x) ^ 2) ν := (hG2.sub (hmask2 _ hc2')).integrable_sq
  have i4 : Integrable (fun x => (G x - mask c x) ^ 2) ν := (hG2.sub (hmask2 _ hc2)).integrable_sq
  have i5 := hcc.integrable_sq
  have hmd : ∀ x, (mask c' x - mask c x) ^ 2 ≤ (c' x - c x) ^ 2 := by
    intro x
    simp only [hmask]
    split
    · exact le_rfl
    · simpa using sq_nonneg (c' x - c x)
  have a1 : ∫ x, (F x - mask c x) ^ 2 ∂ν ≤ 2 * ∫ x, (F x - mask c' x) ^ 2 ∂ν + 2 * ∫ x, (c' x - c x) ^ 2 ∂ν := by
    rw [← integral_const_mul, ← integral_const_mul, ← integral_add (i1.const_mul 2) (i5.const_mul 2)]
    refine integral_mono i2 ((i1.const_mul 2).add (i5.const_mul 2)) fun x => ?_
    have := hmd x
    change (F x - mask c x) ^ 2 ≤ 2 * (F x - mask c' x) ^ 2 + 2 * (c' x - c x) ^ 2
    nlinarith [sq_nonneg ((F x - mask c' x) - (mask c' x - mask c x))]
  have a2 : ∫ x, (G x - mask c' x) ^ 2 ∂ν ≤ 2 * ∫ x, (G x - mask c x) ^ 2 ∂ν + 2 * ∫ x, (c' x - c x) ^ 2 ∂ν := by
    rw [← integral_const_mul, ← integral_const_mul, ← integral_add (i4.const_mul 2) (i5.const_mul 2)]
    refine integral_mono i3 ((i4.const_mul 2).add (i5.const_mul 2)) fun x => ?_
    have := hmd x
    change (G x - mask c' x) ^ 2 ≤ 2 * (G x - mask c x) ^ 2 + 2 * (c' x - c x) ^ 2
    nlinarith [sq_nonneg ((G x - mask c x) + (mask c' x - mask c x))]
  have hcn : 0 ≤ᵐ[ν] c := condExp_nonneg (hub.mono fun x hx => hx.1)
  have a3 : ∫ x, ((ν[p.value β (d + 1) | ℱ j]) x - snell ν ℱ p.last gain (d + 1) x) ^ 2 ∂ν ≤ 2 * ∫ x, (c' x - c x) ^ 2 ∂ν + 2 * ∫ x, (F x - mask c x) ^ 2 ∂ν := by
    rw [← integral_const_mul, ← integral_const_mul, ← integral_add (i5.const_mul 2) (i2.const_mul 2)]
    refine integral_mono_of_nonneg (Eventually.of_forall fun x => sq_nonneg _) ((i5.const_mul 2).add (i2.const_mul 2)) ?_
    filter_upwards [value_condExp (β := β) ht d hd, hcn] with x hx hx0
    have hx0' : 0 ≤ c x := hx0
    rw [← hj] at hx
    change ((ν[p.value β (d + 1) | ℱ j]) x - max (gain j x) (c x)) ^ 2 ≤ 2 * (c' x - c x) ^ 2 + 2 * (F x - mask c x) ^ 2
    have key : |(ν[p.value β (d + 1) | ℱ j]) x - max (gain j x) (c x)| ≤ |c' x - c x| + |F x - mask c x| := by
      have hgx : gain j x = δ j * p.payoff j x := by
        simp only [hgain, ht.factor]
      by_cases hm : p.payoff j x > 0
      · have hFx : F x = δ j * ∑ k, p.basis j k x * β j k := by
          simp only [hF, ExerciseProblem.masked, if_pos hm]
          rw [Finset.mul_sum]
          exact Finset.sum_congr rfl fun l _ => by ring
        have hmx : mask c x = c x := if_pos hm
        rw [hmx]
        by_cases hex : p.payoff j x > max (∑ k, p.basis j k x * β j k) 0
        · have e1 : (ν[p.value β (d + 1) | ℱ j]) x = gain j x := hx.1 hex
          have e2 : F x ≤ gain j x := by
            rw [hFx, hgx]
            exact mul_le_mul_of_nonneg_left (max_lt_iff.1 hex).1.le hδ.le
          rw [e1]
          rcases le_total (gain j x) (c x) with h | h
          · rw [max_eq_right h, abs_of_nonpos (by linarith)]
            have := neg_abs_le (F x - c x)
            have := abs_nonneg (c' x - c x)
            linarith
          · rw [max_eq_left h, sub_self, abs_zero]
            positivity
        · have e1 : (ν[p.value β (d + 1) | ℱ j]) x = c' x := hx.2 hex
          have e2 : gain j x ≤ F x := by
            rw [hFx, hgx]
            refine mul_le_mul_of_nonneg_left ?_ hδ.le
            by_contra h3
            exact hex (max_lt_iff.2 ⟨not_le.1 h3, hm⟩)
          rw [e1]
          rcases le_total (gain j x) (c x) with h | h
          · rw [max_eq_right h]
            have := abs_nonneg (F x - c x)
            linarith
          · rw [max_eq_left h]
            have h1 := le_abs_self (F x - c x)
            have h2 : |c' x - gain j x| ≤ |c' x - c x| + |c x - gain j x| := abs_sub_le _ _ _
            rw [abs_of_nonpos (show c x - gain j x ≤ 0 by linarith)] at h2
            linarith
      · have hp0 : p.payoff j x = 0 := le_antisymm (not_lt.1 hm) (ht.informed.nonneg j x)
        have hex : ¬ p.payoff j x > max (∑ k, p.basis j k x * β j k) 0 := fun h => hm (max_lt_iff.1 h).2
        have e1 : (ν[p.value β (d + 1) | ℱ j]) x = c' x := hx.2 hex
        rw [e1, hgx, hp0, mul_zero, max_eq_right hx0']
        have := abs_nonneg (F x - mask c x)
        linarith
    have h1 := sq_le_sq.2 (key.trans (le_abs_self _))
    refine h1.trans ?_
    have h2 := sq_abs (c' x - c x)
    have h3 := sq_abs (F x - mask c x)
    nlinarith [sq_nonneg (|c' x - c x| - |F x - mask c x|)]
  linarith

/-- The value of a rule differs from the value of the contract by at most the error. -/
theorem price_error [IsProbabilityMeasure ν] (hB0 : 0 ≤ B) (ht : p.Tame ν ℱ δ B) (d : ℕ) :
    (∫ x, p.value β d x ∂ν - ∫ x, snell ν ℱ p.last (fun j x => p.factor j x * p.payoff j x) d x ∂ν) ^ 2 ≤
      ∫ x, ((ν[p.value β d | ℱ (p.last - d)]) x - snell ν ℱ p.last (fun j x => p.factor j x * p.payoff j x) d x) ^ 2 ∂ν := by
  set u := snell ν ℱ p.last (fun j x => p.factor j x * p.payoff j x) d with hu
  set w := ν[p.value β d | ℱ (p.last - d)] with hw
  have hu2 : MemLp u 2 ν := snell_integrable (tame_gain_measurable ht) (tame_gain_nonneg ht) hB0 ht.bound d
  have hw2 : MemLp w 2 ν := ae_bounded_memLp (stronglyMeasurable_condExp.mono (ℱ.le _)).aestronglyMeasurable
    (condExp_bounded hB0 (Eventually.of_forall (tame_value_bounded ht d)))
  have hX2 : MemLp (fun x => w x - u x) 2 ν := hw2.sub hu2
  have hXi : Integrable (fun x => w x - u x) ν := hX2.integrable (by norm_num)
  have h1 : ∫ x, w x ∂ν = ∫ x, p.value β d x ∂ν := integral_condExp (ℱ.le _)
  rw [← h1, ← integral_sub (hw2.integrable (by norm_num)) (hu2.integrable (by norm_num))]
  set m := ∫ x, (w x - u x) ∂ν with hm
  have h0 : 0 ≤ ∫ x, (w x - u x - m) ^ 2 ∂ν := integral_nonneg fun x => sq_nonneg _
  have e : ∫ x, (w x - u x - m) ^ 2 ∂ν = ∫ x, ((w x - u x) ^ 2 - 2 * m * (w x - u x) + m ^ 2) ∂ν := integral_congr_ae (Eventually.of_forall fun x => by ring)
  have hsq : Integrable (fun x => (w x - u x) ^ 2 - 2 * m * (w x - u x)) ν := hX2.integrable_sq.sub (hXi.const_mul _)
  rw [e, integral_add hsq (integrable_const _), integral_sub hX2.integrable_sq (hXi.const_mul _), integral_const_mul, ← hm] at h0
  simp only [integral_const, probReal_univ, one_smul] at h0
  nlinarith

theorem zero_error [IsFiniteMeasure ν] (ht : p.Tame ν ℱ δ B) :
    ∫ x, ((ν[p.value β 0 | ℱ (p.last - 0)]) x - snell ν ℱ p.last (fun j x => p.factor j x * p.payoff j x) 0 x) ^ 2 ∂ν = 0 := by
  have hv : Integrable (p.value β 0) ν := (ae_bounded_memLp (tame_value_measurable ht 0).aestronglyMeasurable (Eventually.of_forall (tame_value_bounded ht 0))).integrable (by norm_num)
  have e : ν[p.value β 0 | ℱ (p.last - 0)] = p.value β 0 := condExp_of_stronglyMeasurable (ℱ.le _) (tame_gain_measurable ht p.last).stronglyMeasurable hv
  rw [e]
  have h : ∀ x, (p.value β 0 x - snell ν ℱ p.last (fun j x => p.factor j x * p.payoff j x) 0 x) ^ 2 = 0 := by
    intro x
    have : p.value β 0 x = snell ν ℱ p.last (fun j x => p.factor j x * p.payoff j x) 0 x := rfl
    rw [this, sub_self]
    norm_num
  simp only [h, integral_zero]

open Classical in
/-- If the conditional expectations of going on can be fitted ever better, then the values of the rules tend to the value of the contract, and this is the supremum over all
exercise times. -/
theorem degree_limit [IsProbabilityMeasure ν] (hB0 : 0 ≤ B) (size : ℕ → ℕ) (q : ∀ m, ExerciseProblem E (size m)) (β : ∀ m, ℕ → Fin (size m) → ℝ) (payoff : ℕ → E → ℝ)
    (hlast : ∀ m, (q m).last = last) (hpay : ∀ m, (q m).payoff = payoff) (ht : ∀ m, (q m).Tame ν ℱ δ B) (hβ : ∀ m, (q m).IsLimitRule ν (β m))
    (happ : ∀ d < last, ∀ ε > 0, ∀ᶠ m : ℕ in atTop, ∃ γ : Fin (size m) → ℝ, ∫ x, (∑ k, (q m).masked (last - (d + 1)) k x * γ k - if payoff (last - (d + 1)) x > 0 then
      (ν[snell ν ℱ last (fun j x => δ j * payoff j x) d | ℱ (last - (d + 1))]) x else 0) ^ 2 ∂ν ≤ ε) :
    Tendsto (fun m => ∫ x, (q m).value (β m) last x ∂ν) atTop (𝓝 (∫ x, snell ν ℱ last (fun j x => δ j * payoff j x) last x ∂ν)) ∧
    IsLUB {w | ∃ τ, IsExerciseTime ℱ last τ ∧ w = ∫ x, δ (τ x) * payoff (τ x) x ∂ν} (∫ x, snell ν ℱ last (fun j x => δ j * payoff j x) last x ∂ν) := by
  have hgain : ∀ m, (fun j x => (q m).factor j x * (q m).payoff j x) = fun j x => δ j * payoff j x := by
    intro m
    funext j x
    rw [(ht m).factor, hpay]
  set gain : ℕ → E → ℝ := fun j x => δ j * payoff j x with hg
  have herr : ∀ d ≤ last, Tendsto (fun m => ∫ x, ((ν[(q m).value (β m) d | ℱ (last - d)]) x - snell ν ℱ last gain d x) ^ 2 ∂ν) atTop (𝓝 0) := by
    intro d
    induction d with
    | zero =>
      intro _
      have e : ∀ m, ∫ x, ((ν[(q m).value (β m) 0 | ℱ (last - 0)]) x - snell ν ℱ last gain 0 x) ^ 2 ∂ν = 0 := by
        intro m
        have := zero_error (β := β m) (ht m)
        rw [hgain m, hlast m] at this
        exact this
      simp only [e]
      exact tendsto_const_nhds
    | succ d ih =>
      intro hd
      have h1 := ih (by omega)
      rw [Metric.tendsto_atTop] at h1 ⊢
      intro ε hε
      obtain ⟨N, hN⟩ := h1 (ε / 28) (by positivity)
      obtain ⟨N', hN'⟩ := eventually_atTop.1 (happ d (by omega) (ε / 32) (by positivity))
      refine ⟨max N N', fun m hm => ?_⟩
      obtain ⟨γ, hγ⟩ := hN' m ((le_max_right _ _).trans hm)
      have h2 := hN m ((le_max_left _ _).trans hm)
      have h3 := step_error hB0 (ht m) (hβ m) d (by rw [hlast m]; omega) γ
      rw [hgain m, hlast m, hpay m] at h3
      have h4 : 0 ≤ ∫ x, ((ν[(q m).value (β m) (d + 1) | ℱ (last - (d + 1))]) x - snell ν ℱ last gain (d + 1) x) ^ 2 ∂ν := integral_nonneg fun x => sq_nonneg _
      rw [Real.dist_eq, sub_zero, abs_of_nonneg h4]
      rw [Real.dist_eq, sub_zero] at h2
      have h5 := (le_abs_self _).trans_lt h2
      linarith
  have hlim : Tendsto (fun m => ∫ x, (q m).value (β m) last x ∂ν) atTop (𝓝 (∫ x, snell ν ℱ last gain last x ∂ν)) := by
    have h1 : Tendsto (fun m => ∫ x, (q m).value (β m) last x ∂ν - ∫ x, snell ν ℱ last gain last x ∂ν) atTop (𝓝 0) := by
      have h2 : Tendsto (fun m => (∫ x, (q m).value (β m) last x ∂ν - ∫ x, snell ν ℱ last gain last x ∂ν) ^ 2) atTop (𝓝 0) := by
        refine squeeze_zero (fun m => sq_nonneg _) (fun m => ?_) (herr last le_rfl)
        have := price_error (β := β m) hB0 (ht m) last
        rw [hgain m, hlast m] at this
        exact this
      have h3 := (Real.continuous_sqrt.tendsto 0).comp h2
      rw [Real.sqrt_zero] at h3
      refine (tendsto_zero_iff_abs_tendsto_zero _).2 (h3.congr fun m => ?_)
      simp only [Function.comp_apply, Real.sqrt_sq_eq_abs]
    have h2 := h1.add_const (∫ x, snell ν ℱ last gain last x ∂ν)
    simpa using h2
  refine ⟨hlim, ?_, ?_⟩
  · rintro w ⟨τ, hτ, rfl⟩
    have hm := ht 0
    have hgm := tame_gain_measurable hm
    have hg0 := tame_gain_nonneg hm
    have hgb := hm.bound
    have hj : ∀ j x, (q 0).factor j x * (q 0).payoff j x = gain j x := fun j x => congrFun (congrFun (hgain 0) j) x
    have h1 := snell_upper (ν := ν) (gain := gain) (last := last) (fun j => by
      have := hgm j
      simp only [hj] at this
      exact this) (fun j hjl x => by
      rw [← hj]
      exact hg0 j (by rw [hlast]; exact hjl) x) hB0 (fun j hjl x => by
      rw [← hj]
      exact hgb j (by rw [hlast]; exact hjl) x) τ hτ last le_rfl Set.univ (@MeasurableSet.univ E (ℱ (last - last))) (fun x _ => by omega)
    rw [setIntegral_univ, setIntegral_univ] at h1
    exact h1
  · intro w hw
    refine le_of_tendsto' hlim fun m => hw ⟨(q m).rule (β m) last, ?_, ?_⟩
    · have := rule_exercise_time (ht m).informed (β m) last
      rw [hlast m] at this
      exact this
    · refine integral_congr_ae (Eventually.of_forall fun x => ?_)
      exact congrFun (congrFun (hgain m) _) x

/-! ## Freezing what is known -/

/-- The conditional expectation of a function of a known value and an independent one. -/
theorem condExp_freeze {E : Type} {m mE : MeasurableSpace E} {ν : Measure E} {B : ℝ} [IsProbabilityMeasure ν] (hm : m ≤ mE) (S R : E → ℝ) (hS : Measurable[m] S) (hR : Measurable[mE] R)
    (hind : Indep m (MeasurableSpace.comap R inferInstance) ν) (Φ : ℝ → ℝ → ℝ) (hΦ : Measurable fun y : ℝ × ℝ => Φ y.1 y.2) (hB : ∀ s r, |Φ s r| ≤ B) :
    ν[fun x => Φ (S x) (R x) | m] =ᵐ[ν] fun x => ∫ r, Φ (S x) r ∂(ν.map R) := by
  have hS' : Measurable[mE] S := hS.mono hm le_rfl
  have hprob : IsProbabilityMeasure (ν.map R) := Measure.isProbabilityMeasure_map hR.aemeasurable
  have hgm : Measurable fun s => ∫ r, Φ s r ∂(ν.map R) := (StronglyMeasurable.integral_prod_right' (f := fun y : ℝ × ℝ => Φ y.1 y.2) hΦ.stronglyMeasurable).measurable
  have hgb : ∀ s, |∫ r, Φ s r ∂(ν.map R)| ≤ B := by
    intro s
    have := norm_integral_le_of_norm_le_const (μ := ν.map R) (f := fun r => Φ s r) (C := B) (Eventually.of_forall fun r => hB s r)
    simpa using this
  have hΦi : Integrable (fun x => Φ (S x) (R x)) ν :=
    (integrable_const B).mono' (hΦ.comp (hS'.prodMk hR)).aestronglyMeasurable (Eventually.of_forall fun x => hB _ _)
  have hgi : Integrable (fun x => ∫ r, Φ (S x) r ∂(ν.map R)) ν := (integrable_const B).mono' (hgm.comp hS').aestronglyMeasurable (Eventually.of_forall fun x => hgb _)
  refine (ae_eq_condExp_of_forall_setIntegral_eq hm hΦi (fun s _ _ => hgi.integrableOn) (fun A hA _ => ?_) (hgm.comp hS).stronglyMeasurable.aestronglyMeasurable).symm
  set φ : E → ℝ × ℝ := fun x => (A.indicator (fun _ => (1 : ℝ)) x, S x) with hφ
  have hφm : Measurable[m] φ := (measurable_const.indicator hA).prodMk hS
  have hφm' : Measurable[mE] φ := hφm.mono hm le_rfl
  have hindep : IndepFun φ R ν := by
    rw [IndepFun_iff_Indep]
    exact indep_of_indep_of_le_left hind hφm.comap_le
  have hlaw := (indepFun_iff_map_prod_eq_prod_map_map hφm'.aemeasurable hR.aemeasurable).1 hindep
  have hA' : MeasurableSet[mE] A := hm _ hA
  set H : (ℝ × ℝ) × ℝ → ℝ := fun y => y.1.1 * Φ y.1.2 y.2 with hH
  have hHm : Measurable H := (measurable_fst.fst).mul (hΦ.comp ((measurable_fst.snd).prodMk measurable_snd))
  have hind1 : ∀ x, |A.indicator (fun _ => (1 : ℝ)) x| ≤ 1 := by
    intro x
    by_cases hx : x ∈ A
    · rw [Set.indicator_of_mem hx, abs_one]
    · rw [Set.indicator_of_notMem hx, abs_zero]
      exact zero_le_one
  have hHi : Integrable (fun x => H (φ x, R x)) ν := by
    refine (integrable_const B).mono' (hHm.comp (hφm'.prodMk hR)).aestronglyMeasurable (Eventually.of_forall fun x => ?_)
    rw [Real.norm_eq_abs]
    simp only [hH, hφ, abs_mul]
    calc _ ≤ 1 * |Φ (S x) (R x)| := mul_le_mul_of_nonneg_right (hind1 x) (abs_nonneg _)
      _ ≤ B := by rw [one_mul]; exact hB _ _
  have h1 : ∫ x in A, Φ (S x) (R x) ∂ν = ∫ x, H (φ x, R x) ∂ν := by
    rw [← integral_indicator hA']
    refine integral_congr_ae (Eventually.of_forall fun x => ?_)
    simp only [hH, hφ]
    by_cases hx : x ∈ A
    · rw [Set.indicator_of_mem hx, Set.indicator_of_mem hx, one_mul]
    · rw [Set.indicator_of_notMem hx, Set.indicator_of_notMem hx, zero_mul]
  have h2 : ∫ x, H (φ x, R x) ∂ν = ∫ y, H y ∂((ν.map φ).prod (ν.map R)) := by
    rw [← hlaw, integral_map (hφm'.prodMk hR).aemeasurable hHm.aestronglyMeasurable]
  have hHp : Integrable H ((ν.map φ).prod (ν.map R)) := by
    rw [← hlaw, integrable_map_measure hHm.aestronglyMeasurable (hφm'.prodMk hR).aemeasurable]
    exact hHi
  have h3 : ∫ y, H y ∂((ν.map φ).prod (ν.map R)) = ∫ x, (A.indicator (fun _ => (1 : ℝ)) x) * ∫ r, Φ (S x) r ∂(ν.map R) ∂ν := by
    rw [integral_prod _ hHp, integral_map hφm'.aemeasurable]
    · refine integral_congr_ae (Eventually.of_forall fun x => ?_)
      simp only [hH, hφ]
      rw [integral_const_mul]
    · exact (StronglyMeasurable.integral_prod_right' hHm.stronglyMeasurable).aestronglyMeasurable
  rw [h1, h2, h3, ← integral_indicator hA']
  refine integral_congr_ae (Eventually.of_forall fun x => ?_)
  simp only
  by_cases hx : x ∈ A
  · rw [Set.indicator_of_mem hx, Set.indicator_of_mem hx, one_mul]
  · rw [Set.indicator_of_notMem hx, Set.indicator_of_notMem hx, zero_mul]

end Lemmas
