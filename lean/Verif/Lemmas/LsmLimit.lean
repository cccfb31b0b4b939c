import Verif.Props.EulerGbm
import Mathlib.Topology.Instances.Matrix
import Mathlib.LinearAlgebra.Matrix.NonsingularInverse
import Mathlib.MeasureTheory.Integral.DominatedConvergence

/-! # Convergence of regression Monte Carlo -/

namespace Spec
open MeasureTheory
open scoped BigOperators

/-- A contract that can be exercised at the indices `0, …, last`, on a space of paths: payoffs, discount factors and regressors. -/
structure ExerciseProblem (E : Type) (b : ℕ) where
  last : ℕ
  payoff : ℕ → E → ℝ
  factor : ℕ → E → ℝ
  basis : ℕ → Fin b → E → ℝ

variable {E : Type} {b : ℕ}

namespace ExerciseProblem

open Classical in
/-- The index at which a path is exercised if it is not exercised before the index `last - d`: the first one with a payoff above the positive part of the regressors times
`β`, and `last` if there is none. -/
noncomputable def rule (p : ExerciseProblem E b) (β : ℕ → Fin b → ℝ) : ℕ → E → ℕ
  | 0, _ => p.last
  | d + 1, x => if p.payoff (p.last - (d + 1)) x > max (∑ k, p.basis (p.last - (d + 1)) k x * β (p.last - (d + 1)) k) 0 then p.last - (d + 1) else p.rule β d x

/-- The discounted payoff of this rule. -/
noncomputable def value (p : ExerciseProblem E b) (β : ℕ → Fin b → ℝ) (d : ℕ) (x : E) : ℝ := p.factor (p.rule β d x) x * p.payoff (p.rule β d x) x

open Classical in
/-- The regressors on the paths in the money. -/
noncomputable def masked (p : ExerciseProblem E b) (j : ℕ) (k : Fin b) (x : E) : ℝ := if p.payoff j x > 0 then p.basis j k x else 0

/-- A bound for the discounted payoffs of a path. -/
noncomputable def bound (p : ExerciseProblem E b) (x : E) : ℝ := ∑ j ∈ Finset.range (p.last + 1), |p.factor j x * p.payoff j x|

/-- The matrix of the normal equations under a law of the paths. -/
noncomputable def gram [MeasurableSpace E] (p : ExerciseProblem E b) (ν : Measure E) (j : ℕ) : Matrix (Fin b) (Fin b) ℝ := fun k l => ∫ x, p.masked j k x * p.masked j l x ∂ν

/-- `β` solves the regressions under a law of the paths: at every index before the last the regression, over the paths in the money, of the discounted payoff of going on. -/
def IsLimitRule [MeasurableSpace E] (p : ExerciseProblem E b) (ν : Measure E) (β : ℕ → Fin b → ℝ) : Prop :=
  ∀ d, d < p.last → ∀ k, ∑ l, p.gram ν (p.last - (d + 1)) k l * β (p.last - (d + 1)) l =
    ∫ x, p.masked (p.last - (d + 1)) k x * (p.value β d x / p.factor (p.last - (d + 1)) x) ∂ν

/-- What is assumed about the paths: measurability, moments, linearly independent regressors and no ties between exercising and going on. -/
structure Regular [MeasurableSpace E] (p : ExerciseProblem E b) (ν : Measure E) (β : ℕ → Fin b → ℝ) : Prop where
  payoff : ∀ j, Measurable (p.payoff j)
  factor : ∀ j, Measurable (p.factor j)
  basis : ∀ j k, Measurable (p.basis j k)
  integrable : Integrable p.bound ν
  gram : ∀ j < p.last, ∀ k l, Integrable (fun x => p.masked j k x * p.masked j l x) ν
  weights : ∀ j < p.last, ∀ k, Integrable (fun x => p.masked j k x / p.factor j x * p.bound x) ν
  independent : ∀ j < p.last, (p.gram ν j).det ≠ 0
  ties : ∀ j < p.last, ∀ᵐ x ∂ν, p.payoff j x > 0 → p.payoff j x ≠ ∑ k, p.basis j k x * β j k

end ExerciseProblem

end Spec

namespace Lemmas
open Model Spec MeasureTheory ProbabilityTheory Filter Topology
open scoped BigOperators

variable {E : Type} {b : ℕ}

/-! ## Regression coefficients -/

theorem inverse_tendsto (A : ℕ → Matrix (Fin b) (Fin b) ℝ) (A0 : Matrix (Fin b) (Fin b) ℝ) (h : Tendsto A atTop (𝓝 A0)) (h0 : A0.det ≠ 0) :
    Tendsto (fun n => (A n)⁻¹) atTop (𝓝 A0⁻¹) := by
  have h1 : Tendsto (fun n => (A n).det) atTop (𝓝 A0.det) := ((continuous_id.matrix_det).tendsto A0).comp h
  have h2 : Tendsto (fun n => (A n).adjugate) atTop (𝓝 A0.adjugate) := ((continuous_id.matrix_adjugate).tendsto A0).comp h
  have h3 := (h1.inv₀ h0).smul h2
  simpa only [Matrix.inv_def, Ring.inverse_eq_inv'] using h3

/-- Solutions of normal equations converge. -/
theorem regression_tendsto (c : ℕ → ℕ) (hc : Tendsto c atTop atTop)
    (S X : ℕ → Matrix (Fin b) (Fin b) ℝ) (hX : ∀ n, S n * X n * S n = S n) (r : ℕ → Fin b → ℝ) (A0 : Matrix (Fin b) (Fin b) ℝ) (r0 β : Fin b → ℝ) (hS : ∀ k l, Tendsto (fun n => S n k l / c n) atTop (𝓝 (A0 k l)))
    (hr : ∀ k, Tendsto (fun n => r n k / c n) atTop (𝓝 (r0 k))) (h0 : A0.det ≠ 0) (hβ : ∀ k, ∑ l, A0 k l * β l = r0 k) (k : Fin b) :
    Tendsto (fun n => ∑ l, X n k l * r n l) atTop (𝓝 (β k)) := by
  set A : ℕ → Matrix (Fin b) (Fin b) ℝ := fun n => fun k l => S n k l / c n with hA
  have hAt : Tendsto A atTop (𝓝 A0) := tendsto_pi_nhds.2 fun k => tendsto_pi_nhds.2 fun l => hS k l
  have hdet : ∀ᶠ n in atTop, (A n).det ≠ 0 := (((continuous_id.matrix_det).tendsto A0).comp hAt).eventually_ne h0
  have hinv := inverse_tendsto A A0 hAt h0
  have hβ' : β = A0⁻¹.mulVec r0 := by
    have : A0.mulVec β = r0 := funext hβ
    rw [← this, Matrix.mulVec_mulVec, Matrix.nonsing_inv_mul _ (isUnit_iff_ne_zero.2 h0), Matrix.one_mulVec]
  have hlim : Tendsto (fun n => ∑ l, (A n)⁻¹ k l * (r n l / c n)) atTop (𝓝 (β k)) := by
    rw [hβ']
    simp only [Matrix.mulVec, dotProduct]
    refine tendsto_finsetSum _ fun l _ => Tendsto.mul ?_ (hr l)
    exact (tendsto_pi_nhds.1 (tendsto_pi_nhds.1 hinv k)) l
  refine hlim.congr' ?_
  filter_upwards [hdet, hc.eventually_ge_atTop 1] with n hn hcn
  have hc0 : (c n : ℝ) ≠ 0 := by positivity
  have hSA : S n = (c n : ℝ) • A n := by
    ext k l
    change S n k l = (c n : ℝ) * (S n k l / (c n : ℝ))
    field_simp
  have hSdet : IsUnit (S n).det := by
    rw [hSA, Matrix.det_smul]
    exact isUnit_iff_ne_zero.2 (mul_ne_zero (pow_ne_zero _ hc0) hn)
  have hpi : X n = (S n)⁻¹ := by
    have h1 := hX n
    have h2 : (S n)⁻¹ * (S n * X n * S n) * (S n)⁻¹ = (S n)⁻¹ * S n * (S n)⁻¹ := by rw [h1]
    rw [← Matrix.mul_assoc, ← Matrix.mul_assoc, Matrix.nonsing_inv_mul _ hSdet, Matrix.one_mul, Matrix.mul_assoc, Matrix.mul_nonsing_inv _ hSdet, Matrix.mul_one,
      Matrix.one_mul] at h2
    exact h2
  have hinvS : (S n)⁻¹ = (c n : ℝ)⁻¹ • (A n)⁻¹ := by
    refine Matrix.inv_eq_left_inv ?_
    rw [hSA, Matrix.smul_mul, Matrix.mul_smul, smul_smul, inv_mul_cancel₀ hc0, one_smul, Matrix.nonsing_inv_mul _ (isUnit_iff_ne_zero.2 hn)]
  rw [hpi, hinvS]
  refine Finset.sum_congr rfl fun l _ => ?_
  simp only [Matrix.smul_apply, smul_eq_mul]
  field_simp

/-! ## Averages over sampled paths -/

/-- The average over the first paths. -/
noncomputable def sampleMean (f : E → ℝ) (x : ℕ → E) (N : ℕ) : ℝ := (∑ s ∈ Finset.range N, f (x s)) / N

theorem sampleMean_add (f g : E → ℝ) (x : ℕ → E) (N : ℕ) : sampleMean (fun y => f y + g y) x N = sampleMean f x N + sampleMean g x N := by
  simp only [sampleMean, Finset.sum_add_distrib, add_div]

theorem sampleMean_sub (f g : E → ℝ) (x : ℕ → E) (N : ℕ) : sampleMean (fun y => f y - g y) x N = sampleMean f x N - sampleMean g x N := by
  simp only [sampleMean, Finset.sum_sub_distrib, sub_div]

theorem sampleMean_abs (f g : E → ℝ) (h : ∀ y, |f y| ≤ g y) (x : ℕ → E) (N : ℕ) : |sampleMean f x N| ≤ sampleMean g x N := by
  simp only [sampleMean]
  rw [abs_div, Nat.abs_cast]
  refine div_le_div_of_nonneg_right ?_ (Nat.cast_nonneg _)
  exact (Finset.abs_sum_le_sum_abs _ _).trans (Finset.sum_le_sum fun s _ => h _)

theorem value_succ (p : ExerciseProblem E b) (β : ℕ → Fin b → ℝ) (d : ℕ) (x : E) [Decidable (p.payoff (p.last - (d + 1)) x >
      max (∑ k, p.basis (p.last - (d + 1)) k x * β (p.last - (d + 1)) k) 0)] :
    p.value β (d + 1) x = if p.payoff (p.last - (d + 1)) x > max (∑ k, p.basis (p.last - (d + 1)) k x * β (p.last - (d + 1)) k) 0 then
      p.factor (p.last - (d + 1)) x * p.payoff (p.last - (d + 1)) x else p.value β d x := by
  unfold ExerciseProblem.value
  simp only [ExerciseProblem.rule]
  split_ifs <;> rfl

theorem rule_le (p : ExerciseProblem E b) (β : ℕ → Fin b → ℝ) (d : ℕ) (x : E) : p.rule β d x ≤ p.last := by
  induction d with
  | zero => simp [ExerciseProblem.rule]
  | succ d ih =>
    simp only [ExerciseProblem.rule]
    split
    · omega
    · exact ih

theorem term_bound (p : ExerciseProblem E b) (j : ℕ) (hj : j ≤ p.last) (x : E) : |p.factor j x * p.payoff j x| ≤ p.bound x :=
  Finset.single_le_sum (f := fun j => |p.factor j x * p.payoff j x|) (fun _ _ => abs_nonneg _) (Finset.mem_range.2 (by omega))

theorem value_bound (p : ExerciseProblem E b) (β : ℕ → Fin b → ℝ) (d : ℕ) (x : E) : |p.value β d x| ≤ p.bound x := term_bound p _ (rule_le p β d x) x

theorem bound_nonneg (p : ExerciseProblem E b) (x : E) : 0 ≤ p.bound x := Finset.sum_nonneg fun _ _ => abs_nonneg _

section Measurable
variable [MeasurableSpace E] {p : ExerciseProblem E b} {ν : Measure E} {β : ℕ → Fin b → ℝ}

theorem fitted_measurable (hr : p.Regular ν β) (β' : ℕ → Fin b → ℝ) (j : ℕ) : Measurable (fun x => ∑ k, p.basis j k x * β' j k) :=
  Finset.measurable_sum _ fun k _ => (hr.basis j k).mul_const _

theorem exercise_measurableSet (hr : p.Regular ν β) (β' : ℕ → Fin b → ℝ) (j : ℕ) : MeasurableSet {x | p.payoff j x > max (∑ k, p.basis j k x * β' j k) 0} :=
  measurableSet_lt ((fitted_measurable hr β' j).max measurable_const) (hr.payoff j)

theorem value_measurable (hr : p.Regular ν β) (β' : ℕ → Fin b → ℝ) (d : ℕ) : Measurable (p.value β' d) := by
  classical
  induction d with
  | zero => exact (hr.factor _).mul (hr.payoff _)
  | succ d ih =>
    have e : p.value β' (d + 1) = fun x => if p.payoff (p.last - (d + 1)) x > max (∑ k, p.basis (p.last - (d + 1)) k x * β' (p.last - (d + 1)) k) 0 then
      p.factor (p.last - (d + 1)) x * p.payoff (p.last - (d + 1)) x else p.value β' d x := funext fun x => value_succ p β' d x
    rw [e]
    exact Measurable.ite (exercise_measurableSet hr β' _) ((hr.factor _).mul (hr.payoff _)) ih

theorem bound_measurable (hr : p.Regular ν β) : Measurable p.bound := by
  unfold ExerciseProblem.bound
  exact Finset.measurable_sum _ fun j _ => (((hr.factor j).mul (hr.payoff j)).norm)

theorem masked_measurable (hr : p.Regular ν β) (j : ℕ) (k : Fin b) : Measurable (p.masked j k) := by
  classical
  have e : p.masked j k = fun x => if p.payoff j x > 0 then p.basis j k x else 0 := by
    funext x
    simp only [ExerciseProblem.masked]
  rw [e]
  exact Measurable.ite (measurableSet_lt measurable_const (hr.payoff j)) (hr.basis j k) measurable_const

theorem weight_integrable (hr : p.Regular ν β) (W : E → ℝ) (hW : Measurable W) (hWi : Integrable (fun x => W x * p.bound x) ν) (f : E → ℝ) (hf : Measurable f)
    (hb : ∀ x, |f x| ≤ p.bound x) : Integrable (fun x => W x * f x) ν := by
  refine hWi.abs.mono' (hW.mul hf).aestronglyMeasurable (Eventually.of_forall fun x => ?_)
  rw [Real.norm_eq_abs, abs_mul, abs_mul, abs_of_nonneg (bound_nonneg p x)]
  exact mul_le_mul_of_nonneg_left (hb x) (abs_nonneg _)

open Classical in
/-- The paths on which the decision may change if the coefficients change by at most `ε`. -/
noncomputable def nearTie (p : ExerciseProblem E b) (β : ℕ → Fin b → ℝ) (j : ℕ) (ε : ℝ) (x : E) : ℝ :=
  if p.payoff j x > 0 ∧ |p.payoff j x - ∑ k, p.basis j k x * β j k| ≤ ε * ∑ k, |p.basis j k x| then 1 else 0

omit [MeasurableSpace E] in
theorem near_tie (p : ExerciseProblem E b) (β β' : ℕ → Fin b → ℝ) (j : ℕ) (ε : ℝ) (hε : ∀ k, |β' j k - β j k| ≤ ε) (x : E)
    (h : ¬ (p.payoff j x > max (∑ k, p.basis j k x * β' j k) 0 ↔ p.payoff j x > max (∑ k, p.basis j k x * β j k) 0)) : nearTie p β j ε x = 1 := by
  have hd : |∑ k, p.basis j k x * β' j k - ∑ k, p.basis j k x * β j k| ≤ ε * ∑ k, |p.basis j k x| := by
    rw [← Finset.sum_sub_distrib, Finset.mul_sum]
    refine (Finset.abs_sum_le_sum_abs _ _).trans (Finset.sum_le_sum fun k _ => ?_)
    rw [← mul_sub, abs_mul, mul_comm]
    exact mul_le_mul_of_nonneg_right (hε k) (abs_nonneg _)
  generalize ∑ k, p.basis j k x * β' j k = y at h hd
  unfold nearTie
  rw [if_pos]
  generalize ∑ k, p.basis j k x * β j k = z at h hd ⊢
  generalize p.payoff j x = v at h ⊢
  simp only [gt_iff_lt, max_lt_iff] at h
  have hd' := abs_le.1 hd
  by_cases h1 : y < v ∧ 0 < v
  · have h2 : ¬ z < v := fun h3 => h ⟨fun _ => ⟨h3, h1.2⟩, fun _ => h1⟩
    exact ⟨h1.2, abs_le.2 ⟨by linarith, by linarith [h1.1]⟩⟩
  · have h2 : z < v ∧ 0 < v := by
      by_contra h3
      exact h ⟨fun h4 => absurd h4 h1, fun h4 => absurd h4 h3⟩
    have h3 : ¬ y < v := fun h4 => h1 ⟨h4, h2.2⟩
    exact ⟨h2.2, abs_le.2 ⟨by linarith [h2.1], by linarith⟩⟩

theorem nearTie_measurable (hr : p.Regular ν β) (j : ℕ) (ε : ℝ) : Measurable (nearTie p β j ε) := by
  classical
  have e : nearTie p β j ε = fun x => if p.payoff j x > 0 ∧ |p.payoff j x - ∑ k, p.basis j k x * β j k| ≤ ε * ∑ k, |p.basis j k x| then 1 else 0 := by
    funext x
    simp only [nearTie]
  rw [e]
  have h1 : MeasurableSet {x | p.payoff j x > 0} := measurableSet_lt measurable_const (hr.payoff j)
  have h2 : Measurable fun x => |p.payoff j x - ∑ k, p.basis j k x * β j k| := ((hr.payoff j).sub (fitted_measurable hr β j)).norm
  have h3 : Measurable fun x => ε * ∑ k, |p.basis j k x| := (Finset.measurable_sum _ fun k _ => (hr.basis j k).norm).const_mul ε
  have h4 : MeasurableSet {x | |p.payoff j x - ∑ k, p.basis j k x * β j k| ≤ ε * ∑ k, |p.basis j k x|} := measurableSet_le h2 h3
  exact Measurable.ite (h1.inter h4) measurable_const measurable_const

omit [MeasurableSpace E] in
theorem nearTie_range (p : ExerciseProblem E b) (β : ℕ → Fin b → ℝ) (j : ℕ) (ε : ℝ) (x : E) : 0 ≤ nearTie p β j ε x ∧ nearTie p β j ε x ≤ 1 := by
  unfold nearTie
  split <;> norm_num

/-- Near ties become rare. -/
theorem nearTie_integral (hr : p.Regular ν β) (j : ℕ) (hj : j < p.last) (W : E → ℝ) (hW : Measurable W) (hWi : Integrable (fun x => W x * p.bound x) ν) :
    Tendsto (fun m : ℕ => ∫ x, 2 * |W x * p.bound x| * nearTie p β j (1 / ((m : ℝ) + 1)) x ∂ν) atTop (𝓝 0) := by
  have h := tendsto_integral_of_dominated_convergence (μ := ν) (F := fun (m : ℕ) x => 2 * |W x * p.bound x| * nearTie p β j (1 / ((m : ℝ) + 1)) x) (f := fun _ => 0)
    (fun x => 2 * |W x * p.bound x|)
    (fun m => (((hW.mul (bound_measurable hr)).norm.const_mul 2).mul (nearTie_measurable hr j _)).aestronglyMeasurable) (hWi.abs.const_mul 2)
    (fun m => Eventually.of_forall fun x => by
      have := nearTie_range p β j (1 / ((m : ℝ) + 1)) x
      rw [Real.norm_eq_abs, abs_mul, abs_of_nonneg this.1, abs_of_nonneg (by positivity)]
      exact mul_le_of_le_one_right (by positivity) this.2)
    (by
      filter_upwards [hr.ties j hj] with x hx
      refine tendsto_const_nhds.congr' ?_
      by_cases hpos : p.payoff j x > 0
      · have hne := abs_pos.2 (sub_ne_zero.2 (hx hpos))
        have h1 : Tendsto (fun m : ℕ => 1 / ((m : ℝ) + 1) * ∑ k, |p.basis j k x|) atTop (𝓝 (0 * ∑ k, |p.basis j k x|)) := tendsto_one_div_add_atTop_nhds_zero_nat.mul_const _
        rw [zero_mul] at h1
        filter_upwards [h1.eventually_lt_const hne] with m hm
        unfold nearTie
        rw [if_neg (fun h => absurd h.2 (not_le.2 hm)), mul_zero]
      · refine Eventually.of_forall fun m => ?_
        beta_reduce
        unfold nearTie
        rw [if_neg (fun h => hpos h.1), mul_zero])
  simpa using h

/-! ## The induction over the exercise times -/

variable {Ω : Type} [MeasurableSpace Ω] {P : Measure Ω} {D : ℕ → Ω → E}

/-- The matrix of the normal equations over the first `c` paths. -/
noncomputable def sampleGram (p : ExerciseProblem E b) (x : ℕ → E) (c j : ℕ) : Matrix (Fin b) (Fin b) ℝ :=
  fun k l => ∑ s ∈ Finset.range c, p.masked j k (x s) * p.masked j l (x s)

/-- The coefficients of the regressions over the first `c` paths, going backwards, with some generalized inverse at every index. -/
def IsSampleRule (p : ExerciseProblem E b) (x : ℕ → E) (c : ℕ) (β : ℕ → Fin b → ℝ) : Prop :=
  ∀ d, d < p.last → ∃ X : Matrix (Fin b) (Fin b) ℝ, sampleGram p x c (p.last - (d + 1)) * X * sampleGram p x c (p.last - (d + 1)) = sampleGram p x c (p.last - (d + 1)) ∧
    ∀ k, β (p.last - (d + 1)) k =
      ∑ l, X k l * ∑ s ∈ Finset.range c, p.masked (p.last - (d + 1)) l (x s) * (p.value β d (x s) / p.factor (p.last - (d + 1)) (x s))

theorem sample_limit (hD : PathDraws P ν D) (g : E → ℝ) (hg : Measurable g) (hi : Integrable g ν) :
    ∀ᵐ ω ∂P, ∀ N : ℕ → ℕ, Tendsto N atTop atTop → Tendsto (fun n => sampleMean g (fun s => D s ω) (N n)) atTop (𝓝 (∫ z, g z ∂ν)) := by
  filter_upwards [path_average P ν D hD g hg hi] with ω hω N hN
  exact hω.comp hN

/-- The coefficients converge if weighted averages of the continuation values do. -/
theorem coef_limit (hD : PathDraws P ν D) (hr : p.Regular ν β) (hβ : p.IsLimitRule ν β) (c : ℕ → ℕ) (hc : Tendsto c atTop atTop) (βn : Ω → ℕ → ℕ → Fin b → ℝ)
    (hβn : ∀ ω n, IsSampleRule p (fun s => D s ω) (c n) (βn ω n)) (d : ℕ) (hd' : d < p.last)
    (ih : ∀ W : E → ℝ, Measurable W → Integrable (fun x => W x * p.bound x) ν → ∀ᵐ ω ∂P, ∀ N : ℕ → ℕ, Tendsto N atTop atTop →
      Tendsto (fun n => sampleMean (fun x => W x * p.value (βn ω n) d x) (fun s => D s ω) (N n)) atTop (𝓝 (∫ x, W x * p.value β d x ∂ν))) :
    ∀ᵐ ω ∂P, ∀ k, Tendsto (fun n => βn ω n (p.last - (d + 1)) k) atTop (𝓝 (β (p.last - (d + 1)) k)) := by
  classical
  set j := p.last - (d + 1) with hj
  have hjl : j < p.last := by omega
  have hrhs : ∀ᵐ ω ∂P, ∀ k, ∀ N : ℕ → ℕ, Tendsto N atTop atTop →
      Tendsto (fun n => sampleMean (fun x => p.masked j k x / p.factor j x * p.value (βn ω n) d x) (fun s => D s ω) (N n)) atTop
        (𝓝 (∫ x, p.masked j k x / p.factor j x * p.value β d x ∂ν)) :=
    ae_all_iff.2 fun k => ih (fun x => p.masked j k x / p.factor j x) ((masked_measurable hr j k).div (hr.factor j)) (hr.weights j hjl k)
  have hgram : ∀ᵐ ω ∂P, ∀ k l, ∀ N : ℕ → ℕ, Tendsto N atTop atTop →
      Tendsto (fun n => sampleMean (fun x => p.masked j k x * p.masked j l x) (fun s => D s ω) (N n)) atTop (𝓝 (p.gram ν j k l)) :=
    ae_all_iff.2 fun k => ae_all_iff.2 fun l => sample_limit hD _ ((masked_measurable hr j k).mul (masked_measurable hr j l)) (hr.gram j hjl k l)
  filter_upwards [hrhs, hgram] with ω h1 h2 k
  choose X hX1 hX2 using fun n => hβn ω n d hd'
  have h3 := regression_tendsto c hc (fun n => sampleGram p (fun s => D s ω) (c n) j) X hX1
    (fun n l => ∑ s ∈ Finset.range (c n), p.masked j l (D s ω) * (p.value (βn ω n) d (D s ω) / p.factor j (D s ω))) (p.gram ν j)
    (fun k => ∫ x, p.masked j k x / p.factor j x * p.value β d x ∂ν) (β j) (fun k l => h2 k l c hc)
    (fun k => by
      have h4 := h1 k c hc
      refine h4.congr fun n => ?_
      simp only [sampleMean]
      refine congrArg (· / (c n : ℝ)) (Finset.sum_congr rfl fun s _ => ?_)
      ring) (hr.independent j hjl)
    (fun k => by
      rw [hβ d hd' k]
      refine integral_congr_ae (Eventually.of_forall fun x => ?_)
      beta_reduce
      rw [← hj]
      ring) k
  refine h3.congr fun n => ?_
  exact (hX2 n k).symm

/-- At every stage averages of the continuation values, with any weight, converge. -/
theorem stage_limit (hD : PathDraws P ν D) (hr : p.Regular ν β) (hβ : p.IsLimitRule ν β) (c : ℕ → ℕ) (hc : Tendsto c atTop atTop) (βn : Ω → ℕ → ℕ → Fin b → ℝ)
    (hβn : ∀ ω n, IsSampleRule p (fun s => D s ω) (c n) (βn ω n)) (d : ℕ) (hd : d ≤ p.last) (W : E → ℝ) (hW : Measurable W)
    (hWi : Integrable (fun x => W x * p.bound x) ν) :
    ∀ᵐ ω ∂P, ∀ N : ℕ → ℕ, Tendsto N atTop atTop →
      Tendsto (fun n => sampleMean (fun x => W x * p.value (βn ω n) d x) (fun s => D s ω) (N n)) atTop (𝓝 (∫ x, W x * p.value β d x ∂ν)) := by
  classical
  induction d generalizing W with
  | zero =>
    have e : ∀ β', p.value β' 0 = p.value β 0 := fun β' => rfl
    filter_upwards [sample_limit hD (fun x => W x * p.value β 0 x) (hW.mul (value_measurable hr β 0))
      (weight_integrable hr W hW hWi _ (value_measurable hr β 0) (value_bound p β 0))] with ω hω N hN
    simp only [e]
    exact hω N hN
  | succ d ih =>
    have hd' : d < p.last := hd
    set j := p.last - (d + 1) with hj
    have hjl : j < p.last := by omega
    have hcoef := coef_limit hD hr hβ c hc βn hβn d hd' (ih (by omega))
    -- the two parts with the decision of the limit
    have hset := exercise_measurableSet hr β j
    set ex : E → ℝ := fun x => if p.payoff j x > max (∑ k, p.basis j k x * β j k) 0 then 1 else 0 with hex
    have hexm : Measurable ex := Measurable.ite hset measurable_const measurable_const
    have hexr : ∀ x, ex x = 0 ∨ ex x = 1 := fun x => by
      simp only [hex]
      split
      · exact Or.inr rfl
      · exact Or.inl rfl
    have hW1 : Measurable fun x => W x * ex x := hW.mul hexm
    have hW0 : Measurable fun x => W x * (1 - ex x) := hW.mul (measurable_const.sub hexm)
    have hW1i : Integrable (fun x => W x * ex x * p.bound x) ν := by
      refine hWi.abs.mono' (hW1.mul (bound_measurable hr)).aestronglyMeasurable (Eventually.of_forall fun x => ?_)
      rw [Real.norm_eq_abs]
      rcases hexr x with h | h
      · rw [h, mul_zero, zero_mul, abs_zero]; exact abs_nonneg _
      · rw [h, mul_one]
    have hW0i : Integrable (fun x => W x * (1 - ex x) * p.bound x) ν := by
      refine hWi.abs.mono' (hW0.mul (bound_measurable hr)).aestronglyMeasurable (Eventually.of_forall fun x => ?_)
      rw [Real.norm_eq_abs]
      rcases hexr x with h | h
      · rw [h, sub_zero, mul_one]
      · rw [h, sub_self, mul_zero, zero_mul, abs_zero]; exact abs_nonneg _
    have hfp : Measurable fun x => p.factor j x * p.payoff j x := (hr.factor j).mul (hr.payoff j)
    have hi1 : Integrable (fun x => W x * ex x * (p.factor j x * p.payoff j x)) ν :=
      weight_integrable hr _ hW1 hW1i _ hfp fun x => term_bound p j hjl.le x
    have hi0 : Integrable (fun x => W x * (1 - ex x) * p.value β d x) ν :=
      weight_integrable hr _ hW0 hW0i _ (value_measurable hr β d) (value_bound p β d)
    have hfirst := sample_limit hD (fun x => W x * ex x * (p.factor j x * p.payoff j x)) (hW1.mul hfp) hi1
    have hsecond := ih (by omega) _ hW0 hW0i
    have hnear : ∀ᵐ ω ∂P, ∀ m : ℕ, ∀ N : ℕ → ℕ, Tendsto N atTop atTop →
        Tendsto (fun n => sampleMean (fun x => 2 * |W x * p.bound x| * nearTie p β j (1 / ((m : ℝ) + 1)) x) (fun s => D s ω) (N n)) atTop
          (𝓝 (∫ x, 2 * |W x * p.bound x| * nearTie p β j (1 / ((m : ℝ) + 1)) x ∂ν)) := by
      refine ae_all_iff.2 fun m => sample_limit hD _ (((hW.mul (bound_measurable hr)).norm.const_mul 2).mul (nearTie_measurable hr j _)) ?_
      refine (hWi.abs.const_mul 2).mono' (((hW.mul (bound_measurable hr)).norm.const_mul 2).mul (nearTie_measurable hr j _)).aestronglyMeasurable
        (Eventually.of_forall fun x => ?_)
      have := nearTie_range p β j (1 / ((m : ℝ) + 1)) x
      rw [Real.norm_eq_abs, abs_mul, abs_of_nonneg this.1, abs_of_nonneg (by positivity)]
      exact mul_le_of_le_one_right (by positivity) this.2
    have hlimit : ∫ x, W x * p.value β (d + 1) x ∂ν = ∫ x, W x * ex x * (p.factor j x * p.payoff j x) ∂ν + ∫ x, W x * (1 - ex x) * p.value β d x ∂ν := by
      rw [← integral_add hi1 hi0]
      refine integral_congr_ae (Eventually.of_forall fun x => ?_)
      beta_reduce
      rw [value_succ]
      simp only [hex, ← hj]
      split <;> ring
    filter_upwards [hcoef, hfirst, hsecond, hnear] with ω h1 h2 h3 h4 N hN
    rw [hlimit]
    have hmain := (h2 N hN).add (h3 N hN)
    refine (tendsto_iff_of_dist ?_).1 hmain
    rw [Metric.tendsto_atTop]
    intro ε hε
    obtain ⟨m, hm⟩ := ((nearTie_integral hr j hjl W hW hWi).eventually_lt_const (half_pos hε)).exists
    have h5 := (h4 m N hN).eventually_lt_const (show _ < ε by linarith)
    have h6 : ∀ᶠ n in atTop, ∀ k, |βn ω n j k - β j k| ≤ 1 / ((m : ℝ) + 1) := by
      refine eventually_all.2 fun k => ?_
      have h7 := (Metric.tendsto_nhds.1 (h1 k)) (1 / ((m : ℝ) + 1)) (by positivity)
      filter_upwards [h7] with n hn
      rw [Real.dist_eq] at hn
      exact hn.le
    obtain ⟨n0, hn0⟩ := eventually_atTop.1 (h5.and h6)
    refine ⟨n0, fun n hn => ?_⟩
    obtain ⟨h8, h9⟩ := hn0 n hn
    rw [Real.dist_0_eq_abs, abs_of_nonneg dist_nonneg, Real.dist_eq, ← sampleMean_add, ← sampleMean_sub]
    refine lt_of_le_of_lt (sampleMean_abs _ _ (fun x => ?_) _ _) h8
    have hb1 := term_bound p j hjl.le x
    have hb2 := value_bound p (βn ω n) d x
    have hnr := nearTie_range p β j (1 / ((m : ℝ) + 1)) x
    rw [value_succ, abs_mul, abs_of_nonneg (bound_nonneg p x), ← hj]
    by_cases hsame : p.payoff j x > max (∑ k, p.basis j k x * βn ω n j k) 0 ↔ p.payoff j x > max (∑ k, p.basis j k x * β j k) 0
    · have : W x * ex x * (p.factor j x * p.payoff j x) + W x * (1 - ex x) * p.value (βn ω n) d x -
          W x * (if p.payoff j x > max (∑ k, p.basis j k x * βn ω n j k) 0 then p.factor j x * p.payoff j x else p.value (βn ω n) d x) = 0 := by
        simp only [hex]
        by_cases hh : p.payoff j x > max (∑ k, p.basis j k x * β j k) 0
        · rw [if_pos hh, if_pos (hsame.2 hh)]; ring
        · rw [if_neg hh, if_neg (fun h => hh (hsame.1 h))]; ring
      rw [this, abs_zero]
      have := bound_nonneg p x
      have := hnr.1
      positivity
    · rw [near_tie p β (βn ω n) j _ h9 x hsame, mul_one]
      have hdiff : |W x * ex x * (p.factor j x * p.payoff j x) + W x * (1 - ex x) * p.value (βn ω n) d x -
          W x * (if p.payoff j x > max (∑ k, p.basis j k x * βn ω n j k) 0 then p.factor j x * p.payoff j x else p.value (βn ω n) d x)| ≤
          |W x| * |p.factor j x * p.payoff j x - p.value (βn ω n) d x| := by
        rcases hexr x with h | h <;> rw [h] <;> split
        · rw [← abs_mul, ← abs_neg]; exact le_of_eq (congrArg _ (by ring))
        · rw [show W x * 0 * (p.factor j x * p.payoff j x) + W x * (1 - 0) * p.value (βn ω n) d x - W x * p.value (βn ω n) d x = 0 by ring, abs_zero]; positivity
        · rw [show W x * 1 * (p.factor j x * p.payoff j x) + W x * (1 - 1) * p.value (βn ω n) d x - W x * (p.factor j x * p.payoff j x) = 0 by ring, abs_zero]; positivity
        · rw [← abs_mul]; exact le_of_eq (congrArg _ (by ring))
      refine hdiff.trans ?_
      have h10 : |p.factor j x * p.payoff j x - p.value (βn ω n) d x| ≤ 2 * p.bound x := (abs_sub _ _).trans (by linarith)
      nlinarith [mul_le_mul_of_nonneg_left h10 (abs_nonneg (W x))]

end Measurable

end Lemmas
