import Verif.Props.LsmPolynomial
import Verif.Props.MonteCarloLimit
import Mathlib.LinearAlgebra.Matrix.ToLinearEquiv
import Mathlib.Algebra.Polynomial.Roots

/-! # C139: regression Monte Carlo prices of puts -/

namespace Spec
open Model MeasureTheory
open scoped BigOperators

variable {E : Type}

/-- A put on a spot, with discount factors that do not depend on the path and powers of the spot as regressors. -/
noncomputable def putContract (degree : ℕ) (strike : ℝ) (times : List ℕ) (spot : ℕ → E → ℝ) (discounts : List ℝ) (pathTimes : ℕ) : PathContract E (basisPowers degree 1).length :=
  monomialContract degree 1 times (fun i x => max (strike - spot i x) 0) (fun i x => [spot i x]) (discounts.map fun r _ => r) pathTimes

/-- What is needed of the spots at the exercise times: positive, no value has positive probability, and values below the strike can be reached. -/
structure PutSpots [MeasurableSpace E] (ν : Measure E) (strike : ℝ) (times : List ℕ) (spot : ℕ → E → ℝ) : Prop where
  measurable : ∀ i, Measurable (spot i)
  positive : ∀ i ∈ times, ∀ x, 0 < spot i x
  atomless : ∀ i ∈ times, ∀ a, ∀ᵐ x ∂ν, spot i x ≠ a
  reach : ∀ i ∈ times, ¬ ∀ᵐ x ∂ν, ¬ spot i x < strike

end Spec

namespace Lemmas
open Model Spec MeasureTheory ProbabilityTheory Filter Topology Polynomial
open scoped BigOperators

/-! ## Existence of the limit coefficients -/

section Exists
variable {E : Type} {b : ℕ}

theorem rule_local (p : ExerciseProblem E b) (β β' : ℕ → Fin b → ℝ) (d : ℕ) (h : ∀ i, p.last - d ≤ i → β i = β' i) (x : E) : p.rule β d x = p.rule β' d x := by
  classical
  induction d with
  | zero => rfl
  | succ d ih =>
    simp only [ExerciseProblem.rule]
    rw [h _ le_rfl, ih fun i hi => h i (by omega)]

theorem value_local (p : ExerciseProblem E b) (β β' : ℕ → Fin b → ℝ) (d : ℕ) (h : ∀ i, p.last - d ≤ i → β i = β' i) : p.value β d = p.value β' d := by
  funext x
  unfold ExerciseProblem.value
  rw [rule_local p β β' d h]

/-- The regressions under the law of the paths have a solution if the regressors are linearly independent. -/
theorem limit_rule_exists [MeasurableSpace E] (p : ExerciseProblem E b) (ν : Measure E) (h : ∀ j < p.last, (p.gram ν j).det ≠ 0) : ∃ β, p.IsLimitRule ν β := by
  classical
  have key : ∀ m, m ≤ p.last → ∃ β : ℕ → Fin b → ℝ, ∀ d, d < m → ∀ k, ∑ l, p.gram ν (p.last - (d + 1)) k l * β (p.last - (d + 1)) l =
      ∫ x, p.masked (p.last - (d + 1)) k x * (p.value β d x / p.factor (p.last - (d + 1)) x) ∂ν := by
    intro m
    induction m with
    | zero => exact fun _ => ⟨fun _ _ => 0, fun d hd => absurd hd (Nat.not_lt_zero d)⟩
    | succ m ih =>
      intro hm
      obtain ⟨β, hβ⟩ := ih (by omega)
      set j := p.last - (m + 1) with hj
      set r : Fin b → ℝ := fun k => ∫ x, p.masked j k x * (p.value β m x / p.factor j x) ∂ν with hr
      refine ⟨Function.update β j ((p.gram ν j)⁻¹.mulVec r), fun d hd k => ?_⟩
      have hv : ∀ d, d ≤ m → p.value (Function.update β j ((p.gram ν j)⁻¹.mulVec r)) d = p.value β d := fun d hd =>
        value_local p _ _ d fun i hi => Function.update_of_ne (by omega) _ _
      rw [hv d (by omega)]
      by_cases hdm : d = m
      · subst hdm
        rw [← hj]
        simp only [Function.update_self]
        have h1 : (p.gram ν j).mulVec ((p.gram ν j)⁻¹.mulVec r) = r := by
          rw [Matrix.mulVec_mulVec, Matrix.mul_nonsing_inv _ (isUnit_iff_ne_zero.2 (h j (by omega))), Matrix.one_mulVec]
        exact congrFun h1 k
      · rw [← hβ d (by omega) k, Function.update_of_ne (by omega)]
  exact key p.last le_rfl

end Exists

/-! ## Puts -/

variable {E : Type} [MeasurableSpace E] {ν : Measure E} {degree : ℕ} {strike : ℝ} {times : List ℕ} {spot : ℕ → E → ℝ} {discounts : List ℝ} {pathTimes : ℕ}

/-- The exponent of a regressor. -/
def putPower (degree : ℕ) (k : Fin (basisPowers degree 1).length) : ℕ := ((basisPowers degree 1)[k.val]).getD 0 0

theorem putPower_eq (degree : ℕ) (k : Fin (basisPowers degree 1).length) : (basisPowers degree 1)[k.val] = [putPower degree k] := by
  have h := (((Props.C57_basis_powers degree 1).2 _).1 (List.getElem_mem k.2)).1
  unfold putPower
  obtain ⟨a, ha⟩ := List.length_eq_one_iff.1 h
  rw [ha]
  rfl

theorem putPower_injective (degree : ℕ) : Function.Injective (putPower degree) := by
  intro k l h
  have : (basisPowers degree 1)[k.val] = (basisPowers degree 1)[l.val] := by rw [putPower_eq, putPower_eq, h]
  rw [(Props.C57_basis_powers degree 1).1.getElem_inj_iff] at this
  exact Fin.ext this

omit [MeasurableSpace E] in
theorem put_basis (j : ℕ) (k : Fin (basisPowers degree 1).length) (x : E) :
    (putContract degree strike times spot discounts pathTimes).problem.basis j k x = spot (times.getD j 0) x ^ putPower degree k := by
  simp only [putContract, monomialContract, PathContract.problem]
  rw [putPower_eq]
  simp

omit [MeasurableSpace E] in
theorem put_payoff (j : ℕ) (x : E) : (putContract degree strike times spot discounts pathTimes).problem.payoff j x = max (strike - spot (times.getD j 0) x) 0 := rfl

omit [MeasurableSpace E] in
theorem put_factor (j : ℕ) (x : E) : (putContract degree strike times spot discounts pathTimes).problem.factor j x = discounts.getD j 0 := by
  simp only [putContract, monomialContract, PathContract.problem]
  rw [show (0 : E → ℝ) = (fun (r : ℝ) (_ : E) => r) 0 from rfl, List.getD_map]

omit [MeasurableSpace E] in
theorem put_money (j : ℕ) (x : E) : (putContract degree strike times spot discounts pathTimes).problem.payoff j x > 0 ↔ spot (times.getD j 0) x < strike := by
  rw [put_payoff]
  constructor
  · intro h
    rcases lt_max_iff.1 h with h | h
    · linarith
    · exact absurd h (lt_irrefl _)
  · intro h
    exact lt_max_iff.2 (Or.inl (by linarith))

/-- A polynomial that is not zero does not vanish at the spot. -/
theorem spot_no_root (hs : PutSpots ν strike times spot) (i : ℕ) (hi : i ∈ times) (Q : ℝ[X]) (hQ : Q ≠ 0) : ∀ᵐ x ∂ν, Q.eval (spot i x) ≠ 0 := by
  have h : ∀ᵐ x ∂ν, ∀ a ∈ (Q.roots.toFinset : Set ℝ), spot i x ≠ a := (ae_ball_iff (Finset.countable_toSet _)).2 fun a _ => hs.atomless i hi a
  filter_upwards [h] with x hx h0
  refine hx _ ?_ rfl
  rw [Finset.mem_coe, Multiset.mem_toFinset, mem_roots hQ]
  exact h0

/-- A combination of powers as a polynomial. -/
noncomputable def putPolynomial (degree : ℕ) (v : Fin (basisPowers degree 1).length → ℝ) : ℝ[X] := ∑ k, C (v k) * X ^ putPower degree k

theorem putPolynomial_eval (v : Fin (basisPowers degree 1).length → ℝ) (a : ℝ) : (putPolynomial degree v).eval a = ∑ k, a ^ putPower degree k * v k := by
  unfold putPolynomial
  rw [eval_finset_sum]
  exact Finset.sum_congr rfl fun k _ => by rw [eval_mul, eval_C, eval_pow, eval_X, mul_comm]

theorem putPolynomial_ne (v : Fin (basisPowers degree 1).length → ℝ) (hv : v ≠ 0) : putPolynomial degree v ≠ 0 := by
  intro h
  refine hv (funext fun k => ?_)
  have h1 := congrArg (fun Q : ℝ[X] => Q.coeff (putPower degree k)) h
  simp only [putPolynomial, finset_sum_coeff, coeff_C_mul, coeff_X_pow, coeff_zero] at h1
  rw [Finset.sum_eq_single k] at h1
  · simpa using h1
  · intro l _ hl
    rw [if_neg fun h => hl (putPower_injective degree h.symm), mul_zero]
  · simp

theorem exercise_index_mem (j : ℕ) (hj : j < times.length) : times.getD j 0 ∈ times := by
  rw [List.getD_eq_getElem _ _ hj]
  exact List.getElem_mem _

theorem put_masked_bound (hs : PutSpots ν strike times spot) (j : ℕ) (hj : j < times.length) (k : Fin (basisPowers degree 1).length) (x : E) :
    |(putContract degree strike times spot discounts pathTimes).problem.masked j k x| ≤ |strike| ^ putPower degree k := by
  classical
  simp only [ExerciseProblem.masked]
  split
  · rename_i h
    have h1 := (put_money j x).1 h
    have h2 := hs.positive _ (exercise_index_mem j hj) x
    rw [put_basis, abs_pow]
    refine pow_le_pow_left₀ (abs_nonneg _) ?_ _
    rw [abs_of_pos h2]
    exact h1.le.trans (le_abs_self _)
  · rw [abs_zero]
    positivity

theorem put_masked_measurable (hs : PutSpots ν strike times spot) (j : ℕ) (k : Fin (basisPowers degree 1).length) :
    Measurable ((putContract degree strike times spot discounts pathTimes).problem.masked j k) := by
  classical
  have e : (putContract degree strike times spot discounts pathTimes).problem.masked j k =
      fun x => if spot (times.getD j 0) x < strike then spot (times.getD j 0) x ^ putPower degree k else 0 := by
    funext x
    simp only [ExerciseProblem.masked, put_basis]
    exact if_congr (put_money j x) rfl rfl
  rw [e]
  exact Measurable.ite (measurableSet_lt (hs.measurable _) measurable_const) ((hs.measurable _).pow_const _) measurable_const

variable [IsProbabilityMeasure ν]

theorem put_gram_integrable (hs : PutSpots ν strike times spot) (j : ℕ) (hj : j < times.length) (k l : Fin (basisPowers degree 1).length) :
    Integrable (fun x => (putContract degree strike times spot discounts pathTimes).problem.masked j k x *
      (putContract degree strike times spot discounts pathTimes).problem.masked j l x) ν := by
  refine (integrable_const (|strike| ^ putPower degree k * |strike| ^ putPower degree l)).mono'
    ((put_masked_measurable hs j k).mul (put_masked_measurable hs j l)).aestronglyMeasurable (Eventually.of_forall fun x => ?_)
  rw [Real.norm_eq_abs, abs_mul]
  exact mul_le_mul (put_masked_bound hs j hj k x) (put_masked_bound hs j hj l x) (abs_nonneg _) (by positivity)

/-- The powers of the spot are linearly independent on the paths in the money. -/
theorem put_gram_det (hs : PutSpots ν strike times spot) (j : ℕ) (hj : j < times.length) :
    ((putContract degree strike times spot discounts pathTimes).problem.gram ν j).det ≠ 0 := by
  classical
  set p := (putContract degree strike times spot discounts pathTimes).problem with hp
  intro h0
  obtain ⟨v, hv, hGv⟩ := Matrix.exists_mulVec_eq_zero_iff.2 h0
  have h1 : ∫ x, (∑ k, p.masked j k x * v k) ^ 2 ∂ν = 0 := by
    have e : ∀ x, (∑ k, p.masked j k x * v k) ^ 2 = ∑ k, ∑ l, v k * (p.masked j k x * p.masked j l x * v l) := by
      intro x
      rw [sq, Finset.sum_mul_sum]
      exact Finset.sum_congr rfl fun k _ => Finset.sum_congr rfl fun l _ => by ring
    have hint : ∀ k l, Integrable (fun x => v k * (p.masked j k x * p.masked j l x * v l)) ν := fun k l => ((put_gram_integrable hs j hj k l).mul_const _).const_mul _
    simp only [e]
    rw [integral_finsetSum _ fun k _ => integrable_finsetSum _ fun l _ => hint k l]
    refine Finset.sum_eq_zero fun k _ => ?_
    rw [integral_finsetSum _ fun l _ => hint k l]
    have h2 : ∀ l, ∫ x, v k * (p.masked j k x * p.masked j l x * v l) ∂ν = v k * (p.gram ν j k l * v l) := by
      intro l
      rw [integral_const_mul, integral_mul_const]
      rfl
    simp only [h2]
    rw [← Finset.mul_sum]
    have h3 := congrFun hGv k
    simp only [Matrix.mulVec, dotProduct, Pi.zero_apply] at h3
    rw [h3, mul_zero]
  have hi : Integrable (fun x => (∑ k, p.masked j k x * v k) ^ 2) ν := by
    have hm : Measurable fun x => ∑ k, p.masked j k x * v k := Finset.measurable_sum _ fun k _ => (put_masked_measurable hs j k).mul_const _
    refine (integrable_const ((∑ k, |strike| ^ putPower degree k * |v k|) ^ 2)).mono' (hm.pow_const 2).aestronglyMeasurable (Eventually.of_forall fun x => ?_)
    rw [Real.norm_eq_abs, abs_pow]
    refine pow_le_pow_left₀ (abs_nonneg _) ((Finset.abs_sum_le_sum_abs _ _).trans (Finset.sum_le_sum fun k _ => ?_)) 2
    rw [abs_mul]
    exact mul_le_mul_of_nonneg_right (put_masked_bound hs j hj k x) (abs_nonneg _)
  have h2 := (integral_eq_zero_iff_of_nonneg (fun x => sq_nonneg (∑ k, p.masked j k x * v k)) hi).1 h1
  have hmem := exercise_index_mem j hj
  have h3 := spot_no_root hs _ hmem _ (putPolynomial_ne v hv)
  refine hs.reach _ hmem ?_
  filter_upwards [h2, h3] with x hx hx' hlt
  refine hx' ?_
  have h4 : ∑ k, p.masked j k x * v k = 0 := by simpa using hx
  rw [putPolynomial_eval, ← h4]
  refine Finset.sum_congr rfl fun k _ => ?_
  simp only [ExerciseProblem.masked]
  rw [if_pos ((put_money j x).2 hlt), put_basis]

/-- The assumptions hold for puts, unless a fit in the limit is the payoff itself. -/
theorem put_regular (ht : 0 < times.length) (hs : PutSpots ν strike times spot) (β : ℕ → Fin (basisPowers degree 1).length → ℝ)
    (hne : ∀ j < times.length - 1, ∃ a : ℝ, ∑ k, a ^ putPower degree k * β j k ≠ strike - a) :
    (putContract degree strike times spot discounts pathTimes).problem.Regular ν β := by
  set p := (putContract degree strike times spot discounts pathTimes).problem with hp
  have hfac : ∀ j, p.factor j = fun _ => discounts.getD j 0 := fun j => funext fun x => put_factor j x
  have hlen : ∀ j, j < p.last → j < times.length := fun j hj => by
    have : p.last = times.length - 1 := rfl
    omega
  have hpm : ∀ j, Measurable (p.payoff j) := fun j => (measurable_const.sub (hs.measurable _)).max measurable_const
  have hbm : ∀ j k, Measurable (p.basis j k) := fun j k => by
    have e : p.basis j k = fun x => spot (times.getD j 0) x ^ putPower degree k := funext fun x => put_basis j k x
    rw [e]
    exact (hs.measurable _).pow_const _
  have hfm : ∀ j, Measurable (p.factor j) := fun j => by rw [hfac]; exact measurable_const
  have hterm : ∀ j, j < times.length → ∀ x, |p.factor j x * p.payoff j x| ≤ |discounts.getD j 0| * |strike| := by
    intro j hj x
    rw [abs_mul, hfac]
    refine mul_le_mul_of_nonneg_left ?_ (abs_nonneg _)
    have h1 := hs.positive _ (exercise_index_mem j hj) x
    rw [hp, put_payoff, abs_of_nonneg (le_max_right _ _)]
    exact max_le (by linarith [le_abs_self strike]) (abs_nonneg _)
  obtain ⟨B, hB⟩ : ∃ B, ∀ x, p.bound x ≤ B := by
    refine ⟨∑ j ∈ Finset.range (p.last + 1), |discounts.getD j 0| * |strike|, fun x => Finset.sum_le_sum fun j hj => hterm j ?_ x⟩
    have h1 := Finset.mem_range.1 hj
    have : p.last = times.length - 1 := rfl
    omega
  have hbdm : Measurable p.bound := by
    unfold ExerciseProblem.bound
    exact Finset.measurable_sum _ fun j _ => ((hfm j).mul (hpm j)).norm
  have hbd : ∀ x, |p.bound x| ≤ B := fun x => by
    rw [abs_of_nonneg (bound_nonneg p x)]
    exact hB x
  refine ⟨hpm, hfm, hbm, ?_, fun j hj k l => put_gram_integrable hs j (hlen j hj) k l, fun j hj k => ?_, fun j hj => put_gram_det hs j (hlen j hj), fun j hj => ?_⟩
  · exact (integrable_const B).mono' hbdm.aestronglyMeasurable (Eventually.of_forall hbd)
  · refine (integrable_const (|strike| ^ putPower degree k / |discounts.getD j 0| * B)).mono' ((((put_masked_measurable hs j k).div (hfm j)).mul hbdm).aestronglyMeasurable)
      (Eventually.of_forall fun x => ?_)
    rw [Real.norm_eq_abs, abs_mul, abs_div, hfac]
    refine mul_le_mul ?_ (hbd x) (abs_nonneg _) (by positivity)
    exact div_le_div_of_nonneg_right (put_masked_bound hs j (hlen j hj) k x) (abs_nonneg _)
  · obtain ⟨a, ha⟩ := hne j hj
    have hQ : C strike - X - putPolynomial degree (β j) ≠ 0 := by
      intro h
      refine ha ?_
      have h1 := congrArg (fun Q : ℝ[X] => Q.eval a) h
      simp only [eval_sub, eval_C, eval_X, eval_zero, putPolynomial_eval] at h1
      linarith
    filter_upwards [spot_no_root hs _ (exercise_index_mem j (hlen j hj)) _ hQ] with x hx hpos h
    refine hx ?_
    have h2 := (put_money j x).1 hpos
    rw [hp, put_payoff, max_eq_left (by linarith)] at h
    simp only [eval_sub, eval_C, eval_X, putPolynomial_eval]
    rw [h]
    simp only [put_basis]
    ring

end Lemmas

namespace Props
open Model Spec Lemmas MeasureTheory ProbabilityTheory Filter Topology
open scoped BigOperators

/-- C139: the regression Monte Carlo price of a put on a spot whose law has no atoms, with `make_polynomial_basis`, converges almost surely to the expected discounted payoff of
an exercise rule. The coefficients of the rule exist and are those of the regressions under the law of the spot. The only exception is that a limit fit is the payoff itself. -/
theorem C139_put {E Ω : Type} [MeasurableSpace E] [MeasurableSpace Ω] (P : Measure Ω) (ν : Measure E) [IsProbabilityMeasure ν] (D : ℕ → Ω → E) (hD : PathDraws P ν D)
    (degree : ℕ) (strike : ℝ) (times : List ℕ) (spot : ℕ → E → ℝ) (hs : PutSpots ν strike times spot) (discounts : List ℝ) (pathTimes : ℕ) (ht : 0 < times.length)
    (hfuel : times.length ≤ pathTimes + 1) (hlen : discounts.length = times.length) (hdf : ∀ r ∈ discounts, r ≠ 0)
    (pinv : Matrix (Fin (basisPowers degree 1).length) (Fin (basisPowers degree 1).length) ℝ → Matrix (Fin (basisPowers degree 1).length) (Fin (basisPowers degree 1).length) ℝ)
    (hp : ∀ A, A * pinv A * A = A) :
    ∃ β, (putContract degree strike times spot discounts pathTimes).problem.IsLimitRule ν β ∧
      ((∀ j < times.length - 1, ∃ a : ℝ, ∑ k, a ^ putPower degree k * β j k ≠ strike - a) →
        ∀ᵐ ω ∂P, Tendsto (fun n => (polynomialInput degree 1 times (fun i x => max (strike - spot i x) 0) (fun i x => [spot i x]) (discounts.map fun r _ => r) pathTimes pinv none n
          (fun s => D s ω)).leastSquareMc) atTop
          (𝓝 (∫ x, (putContract degree strike times spot discounts pathTimes).problem.value β (times.length - 1) x ∂ν))) := by
  obtain ⟨β, hβ⟩ := limit_rule_exists (putContract degree strike times spot discounts pathTimes).problem ν fun j hj =>
    put_gram_det hs j (show j < times.length by have : j < times.length - 1 := hj; omega)
  refine ⟨β, hβ, fun hne => ?_⟩
  refine C138_polynomial P ν D degree 1 times _ _ (fun _ _ => rfl) _ pathTimes pinv β ⟨ht, hfuel, by simp [monomialContract, hlen], ?_⟩ hp hD (put_regular ht hs β hne) hβ
  intro f hf x
  obtain ⟨r, hr, rfl⟩ := List.mem_map.1 hf
  exact hdf r hr

/-- C139: paths of geometric Brownian motion have such spots. -/
theorem C139_gbm_spots (mean vol : TimeParam) (hm : TimeParamOk mean) (hv : TimeParamOk vol) (grid : List ℝ) (hs : grid.Pairwise (· ≤ ·)) (h0 : ∀ t ∈ grid, 0 ≤ t) (x0 : ℝ)
    (hx : 0 < x0) (strike : ℝ) (hK : 0 < strike) (times : List ℕ) (ht : ∀ i ∈ times, i < grid.length)
    (hvar : ∀ i ∈ times, 0 < ∫ t in (0 : ℝ)..(grid.getD i 0), vol.eval t ^ 2) :
    PutSpots (Measure.pi fun _ : Fin grid.length => gaussianReal 0 1) strike times (fun i z => (gbmPath mean vol x0 grid (List.ofFn z)).getD i 0) := by
  have hmeas : ∀ i, Measurable fun z : Fin grid.length → ℝ => (gbmPath mean vol x0 grid (List.ofFn z)).getD i 0 := by
    intro i
    by_cases hi : i < grid.length
    · exact (C118_expectation mean vol hm hv grid hs h0 x0 hx i hi id measurable_id).2.2
    · have e : (fun z : Fin grid.length → ℝ => (gbmPath mean vol x0 grid (List.ofFn z)).getD i 0) = fun _ => 0 := by
        funext z
        refine List.getD_eq_default _ _ ?_
        simp only [gbmPath, List.length_map]
        rw [(C56_cumsum _).1]
        simp
        omega
      rw [e]
      exact measurable_const
  have hlaw : ∀ i ∈ times, ∃ (c : ℝ) (v : NNReal), v ≠ 0 ∧ ∃ g : (Fin grid.length → ℝ) → ℝ, Measurable g ∧ (Measure.pi fun _ : Fin grid.length => gaussianReal 0 1).map g = gaussianReal c v ∧
      ∀ z, (gbmPath mean vol x0 grid (List.ofFn z)).getD i 0 = x0 * Real.exp (g z) := by
    intro i hi
    obtain ⟨w, hw1, hw2⟩ := gbm_value mean vol hm hv grid hs h0 x0 i (ht i hi)
    refine ⟨_, _, ?_, fun z => (∫ t in (0 : ℝ)..(grid.getD i 0), mean.eval t) - (∫ t in (0 : ℝ)..(grid.getD i 0), vol.eval t ^ 2) / 2 + ∑ i, w i * z i, by fun_prop,
      pi_linear_law _ w, fun z => hw2 z⟩
    rw [hw1]
    simpa using hvar i hi
  refine ⟨hmeas, fun i hi z => ?_, fun i hi a => ?_, fun i hi => ?_⟩
  · obtain ⟨c, v, hv0, g, hg, hl, hz⟩ := hlaw i hi
    rw [hz]
    positivity
  · obtain ⟨c, v, hv0, g, hg, hl, hz⟩ := hlaw i hi
    have h1 : ∀ᵐ y ∂(gaussianReal c v), y ≠ Real.log (a / x0) := by
      have := nullSingletonClass_gaussianReal (μ := c) hv0
      exact Measure.ae_ne _ _
    rw [← hl, ae_map_iff hg.aemeasurable (by measurability)] at h1
    filter_upwards [h1] with z hz' h
    refine hz' ?_
    rw [hz] at h
    rw [← h, mul_div_cancel_left₀ _ hx.ne', Real.log_exp]
  · obtain ⟨c, v, hv0, g, hg, hl, hz⟩ := hlaw i hi
    intro hall
    have h1 : ∀ᵐ y ∂(gaussianReal c v), ¬ y < Real.log (strike / x0) := by
      rw [← hl, ae_map_iff hg.aemeasurable (show MeasurableSet {y : ℝ | ¬ y < Real.log (strike / x0)} from measurableSet_Iio.compl)]
      filter_upwards [hall] with z hz' h
      refine hz' ?_
      rw [hz]
      have := Real.exp_lt_exp.2 h
      rw [Real.exp_log (by positivity), lt_div_iff₀ hx] at this
      linarith
    have h2 : ∀ᵐ y : ℝ, ¬ y < Real.log (strike / x0) := (gaussianReal_absolutelyContinuous' c hv0).ae_le h1
    have h3 : volume (Set.Iio (Real.log (strike / x0))) = 0 := by
      rw [ae_iff] at h2
      simp only [not_not] at h2
      exact h2
    rw [Real.volume_Iio] at h3
    exact ENNReal.top_ne_zero h3

/-- C139: puts with prices from paths of geometric Brownian motion. -/
theorem C139_gbm {Ω : Type} [MeasurableSpace Ω] (P : Measure Ω) (mean vol : TimeParam) (hm : TimeParamOk mean) (hv : TimeParamOk vol) (grid : List ℝ) (hs : grid.Pairwise (· ≤ ·))
    (h0 : ∀ t ∈ grid, 0 ≤ t) (x0 : ℝ) (hx : 0 < x0) (strike : ℝ) (hK : 0 < strike) (times : List ℕ) (ht : ∀ i ∈ times, i < grid.length) (htimes : 0 < times.length)
    (hfuel : times.length ≤ grid.length + 1) (hvar : ∀ i ∈ times, 0 < ∫ t in (0 : ℝ)..(grid.getD i 0), vol.eval t ^ 2) (D : ℕ → Ω → Fin grid.length → ℝ)
    (hD : NormalDraws P grid.length D) (discounts : List ℝ) (hlen : discounts.length = times.length) (hdf : ∀ r ∈ discounts, r ≠ 0) (degree : ℕ)
    (pinv : Matrix (Fin (basisPowers degree 1).length) (Fin (basisPowers degree 1).length) ℝ → Matrix (Fin (basisPowers degree 1).length) (Fin (basisPowers degree 1).length) ℝ)
    (hp : ∀ A, A * pinv A * A = A) :
    let spot : ℕ → (Fin grid.length → ℝ) → ℝ := fun i z => (gbmPath mean vol x0 grid (List.ofFn z)).getD i 0
    let p := (putContract degree strike times spot discounts grid.length).problem
    ∃ β, p.IsLimitRule (Measure.pi fun _ => gaussianReal 0 1) β ∧
      ((∀ j < times.length - 1, ∃ a : ℝ, ∑ k, a ^ putPower degree k * β j k ≠ strike - a) →
        ∀ᵐ ω ∂P, Tendsto (fun n => (polynomialInput degree 1 times (fun i x => max (strike - spot i x) 0) (fun i x => [spot i x]) (discounts.map fun r _ => r) grid.length pinv none n
          (fun s => D s ω)).leastSquareMc) atTop (𝓝 (∫ z, p.value β (times.length - 1) z ∂(Measure.pi fun _ => gaussianReal 0 1)))) :=
  C139_put P _ D ⟨hD.measurable, hD.law, hD.independent⟩ degree strike times _ (C139_gbm_spots mean vol hm hv grid hs h0 x0 hx strike hK times ht hvar) discounts grid.length htimes hfuel
    hlen hdf pinv hp

/-- C139: with one regressor, the constant, a fit is never the payoff, so the price converges without further conditions. -/
theorem C139_constant_basis {E Ω : Type} [MeasurableSpace E] [MeasurableSpace Ω] (P : Measure Ω) (ν : Measure E) [IsProbabilityMeasure ν] (D : ℕ → Ω → E) (hD : PathDraws P ν D)
    (strike : ℝ) (times : List ℕ) (spot : ℕ → E → ℝ) (hs : PutSpots ν strike times spot) (discounts : List ℝ) (pathTimes : ℕ) (ht : 0 < times.length)
    (hfuel : times.length ≤ pathTimes + 1) (hlen : discounts.length = times.length) (hdf : ∀ r ∈ discounts, r ≠ 0)
    (pinv : Matrix (Fin (basisPowers 0 1).length) (Fin (basisPowers 0 1).length) ℝ → Matrix (Fin (basisPowers 0 1).length) (Fin (basisPowers 0 1).length) ℝ)
    (hp : ∀ A, A * pinv A * A = A) :
    ∃ β, (putContract 0 strike times spot discounts pathTimes).problem.IsLimitRule ν β ∧
      ∀ᵐ ω ∂P, Tendsto (fun n => (polynomialInput 0 1 times (fun i x => max (strike - spot i x) 0) (fun i x => [spot i x]) (discounts.map fun r _ => r) pathTimes pinv none n
        (fun s => D s ω)).leastSquareMc) atTop (𝓝 (∫ x, (putContract 0 strike times spot discounts pathTimes).problem.value β (times.length - 1) x ∂ν)) := by
  obtain ⟨β, h1, h2⟩ := C139_put P ν D hD 0 strike times spot hs discounts pathTimes ht hfuel hlen hdf pinv hp
  refine ⟨β, h1, h2 fun j _ => ?_⟩
  have hpow : ∀ k : Fin (basisPowers 0 1).length, putPower 0 k = 0 := by decide
  simp only [hpow, pow_zero, one_mul]
  by_cases h : ∑ k, β j k = strike - 0
  · exact ⟨1, fun h' => by linarith⟩
  · exact ⟨0, h⟩

/-- The constant and the spot: exponents 0 and 1. -/
example : (List.finRange (basisPowers 1 1).length).map (putPower 1) = [0, 1] := by decide +kernel

/-- Two exercise times one year apart, volatility one fifth: the spots have the property. -/
example : PutSpots (Measure.pi fun _ : Fin 2 => gaussianReal 0 1) 100 [0, 1] (fun i z => (gbmPath (.constant (1 / 20)) (.constant (1 / 5)) 90 [1, 2] (List.ofFn z)).getD i 0) := by
  refine C139_gbm_spots (.constant (1 / 20)) (.constant (1 / 5)) trivial trivial [1, 2] (by simp) (by simp) 90 (by norm_num) 100 (by norm_num) [0, 1] (by simp) ?_
  intro i hi
  simp only [List.mem_cons, List.not_mem_nil, or_false] at hi
  rcases hi with rfl | rfl <;> simp [TimeParam.eval]

end Props
