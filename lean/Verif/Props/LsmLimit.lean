import Verif.Lemmas.LsmOptimal
import Verif.Props.Lsm

/-! # C138: the regression Monte Carlo prices converge -/

namespace Spec
open Model
open scoped BigOperators

/-- A contract on paths: exercise times, payoff and regressors at a time index, discount factors of the exercise times, number of times of a path. -/
structure PathContract (E : Type) (b : ℕ) where
  times : List ℕ
  payoffFn : ℕ → E → ℝ
  basisFn : ℕ → Fin b → E → ℝ
  discounts : List (E → ℝ)
  pathTimes : ℕ

variable {E : Type} {b : ℕ}

/-- Payoff, factors and regressors by exercise index. -/
noncomputable def PathContract.problem (q : PathContract E b) : ExerciseProblem E b :=
  ⟨q.times.length - 1, fun j => q.payoffFn (q.times.getD j 0), fun j => q.discounts.getD j 0, fun j => q.basisFn (q.times.getD j 0)⟩

/-- The arguments of the code for the first `n` paths. The regressors at a time index may be recombined by a matrix, which may depend on the paths. -/
noncomputable def PathContract.input (q : PathContract E b) (pinv : Matrix (Fin b) (Fin b) ℝ → Matrix (Fin b) (Fin b) ℝ) (calibration : Option ℕ)
    (M : ℕ → Matrix (Fin b) (Fin b) ℝ) (n : ℕ) (x : ℕ → E) : LsmInput n b :=
  ⟨q.times, fun i s => q.payoffFn i (x s), fun i k s => ∑ l, M i k l * q.basisFn i l (x s), q.discounts.map (fun f s => f (x s)), calibration, q.pathTimes, pinv⟩

/-- The contract fits the code: some exercise time, a factor for every exercise time and no zero factor, and enough iterations. -/
structure PathContract.Admissible (q : PathContract E b) : Prop where
  times : 0 < q.times.length
  fuel : q.times.length ≤ q.pathTimes + 1
  factors : q.discounts.length = q.times.length
  nonzero : ∀ f ∈ q.discounts, ∀ x, f x ≠ 0

end Spec

namespace Lemmas
open Model Spec MeasureTheory ProbabilityTheory Filter Topology
open scoped BigOperators

variable {E : Type} {b : ℕ} (q : PathContract E b) (pinv : Matrix (Fin b) (Fin b) ℝ → Matrix (Fin b) (Fin b) ℝ) (calibration : Option ℕ)
  (M : ℕ → Matrix (Fin b) (Fin b) ℝ) (n : ℕ) (x : ℕ → E)

theorem input_padded (i : ℕ) (s : Fin n) : (q.input pinv calibration M n x).padded (i + 1) s = q.problem.factor i (x s) := by
  simp only [LsmInput.padded, PathContract.input, PathContract.problem, List.getD_cons_succ]
  rw [show (fun _ : Fin n => (0 : ℝ)) = (fun (f : E → ℝ) (s : Fin n) => f (x s)) 0 from rfl, List.getD_map]

theorem input_exercise (i : ℕ) (s : Fin n) : (q.input pinv calibration M n x).exerciseValue i s = q.problem.payoff i (x s) := rfl

theorem input_times : (q.input pinv calibration M n x).numTimes - 1 = q.problem.last := rfl

open Classical in
/-- The coefficients of the code at an exercise index. -/
noncomputable def lsmCoef (a : LsmInput n b) (j : ℕ) : Fin b → ℝ :=
  (a.pinv (fun k l => ∑ s ∈ a.calibration, (if a.exerciseValue j s > 0 then a.design j k s else 0) * (if a.exerciseValue j s > 0 then a.design j l s else 0))).mulVec
    (fun k => ∑ s ∈ a.calibration, (if a.exerciseValue j s > 0 then a.design j k s else 0) *
      (a.padded (lsmPolicy a (a.numTimes - 1 - (j + 1)) s + 1) s / a.padded (j + 1) s * a.exerciseValue (lsmPolicy a (a.numTimes - 1 - (j + 1)) s) s))

/-- The same for the regressors before recombination. -/
noncomputable def effectiveCoef (j : ℕ) : Fin b → ℝ := (M (q.times.getD j 0)).transpose.mulVec (lsmCoef n (q.input pinv calibration M n x) j)

theorem effective_fit (j : ℕ) (s : Fin n) : ∑ k, (q.input pinv calibration M n x).design j k s * lsmCoef n (q.input pinv calibration M n x) j k =
    ∑ k, q.problem.basis j k (x s) * effectiveCoef q pinv calibration M n x j k := by
  simp only [effectiveCoef, Matrix.mulVec, dotProduct, Matrix.transpose_apply, LsmInput.design, PathContract.input, PathContract.problem, Finset.mul_sum, Finset.sum_mul]
  rw [Finset.sum_comm]
  refine Finset.sum_congr rfl fun l _ => Finset.sum_congr rfl fun k _ => ?_
  ring

theorem policy_eq (d : ℕ) (hd : d ≤ q.problem.last) (s : Fin n) :
    lsmPolicy (q.input pinv calibration M n x) d s = q.problem.rule (effectiveCoef q pinv calibration M n x) d (x s) := by
  classical
  induction d with
  | zero => rfl
  | succ d ih =>
    have hj : (q.input pinv calibration M n x).numTimes - 1 - (q.problem.last - (d + 1) + 1) = d := by
      have := input_times q pinv calibration M n x
      omega
    have he : (q.input pinv calibration M n x).expectedExercise ((q.input pinv calibration M n x).design (q.problem.last - (d + 1)))
        (fun s => (q.input pinv calibration M n x).padded (lsmPolicy (q.input pinv calibration M n x) d s + 1) s /
          (q.input pinv calibration M n x).padded (q.problem.last - (d + 1) + 1) s *
            (q.input pinv calibration M n x).exerciseValue (lsmPolicy (q.input pinv calibration M n x) d s) s)
        ((q.input pinv calibration M n x).exerciseValue (q.problem.last - (d + 1))) s =
        max (∑ k, (q.input pinv calibration M n x).design (q.problem.last - (d + 1)) k s * lsmCoef n (q.input pinv calibration M n x) (q.problem.last - (d + 1)) k) 0 := by
      unfold lsmCoef
      rw [hj]
      rfl
    rw [lsmPolicy, ExerciseProblem.rule]
    refine if_congr ?_ rfl (ih (by omega))
    rw [effective_fit] at he
    exact Iff.of_eq (congrArg (fun y => q.problem.payoff (q.problem.last - (d + 1)) (x s) > y) he)

theorem policy_value (d : ℕ) (hd : d ≤ q.problem.last) (s : Fin n) :
    (q.input pinv calibration M n x).padded (lsmPolicy (q.input pinv calibration M n x) d s + 1) s *
      (q.input pinv calibration M n x).exerciseValue (lsmPolicy (q.input pinv calibration M n x) d s) s =
    q.problem.value (effectiveCoef q pinv calibration M n x) d (x s) := by
  rw [policy_eq q pinv calibration M n x d hd, input_padded, input_exercise]
  rfl

theorem fin_sum_below (c n : ℕ) (hc : c ≤ n) (g : ℕ → ℝ) : ∑ s ∈ Finset.univ.filter (fun s : Fin n => s.val < c), g s.val = ∑ s ∈ Finset.range c, g s := by
  rw [Finset.sum_filter, Finset.sum_fin_eq_sum_range, ← Finset.sum_subset (Finset.range_subset_range.2 hc)]
  · refine Finset.sum_congr rfl fun s hs => ?_
    have := Finset.mem_range.1 hs
    rw [dif_pos (by omega), if_pos this]
  · intro s hs hs'
    have := Finset.mem_range.1 hs
    rw [Finset.mem_range] at hs'
    rw [dif_pos this, if_neg hs']

/-- The number of samples in the regressions. -/
def sampleCount (calibration : Option ℕ) (n : ℕ) : ℕ := calibration.getD n

theorem calibration_sum (hc : sampleCount calibration n ≤ n) (g : ℕ → ℝ) :
    ∑ s ∈ (q.input pinv calibration M n x).calibration, g s.val = ∑ s ∈ Finset.range (sampleCount calibration n), g s := by
  cases calibration with
  | none => exact Fin.sum_univ_eq_sum_range g n
  | some m => exact fin_sum_below m n hc g

theorem sample_rule (hp : ∀ A, A * pinv A * A = A) (hM : ∀ i, (M i).det ≠ 0) (hc : sampleCount calibration n ≤ n) :
    IsSampleRule q.problem x (sampleCount calibration n) (effectiveCoef q pinv calibration M n x) := by
  classical
  intro d hd
  set j := q.problem.last - (d + 1) with hj
  set m : Matrix (Fin b) (Fin b) ℝ := M (q.times.getD j 0) with hm
  set G := sampleGram q.problem x (sampleCount calibration n) j with hG
  set a := q.input pinv calibration M n x with ha
  have hmu : IsUnit m.det := isUnit_iff_ne_zero.2 (hM _)
  have hmask : ∀ k (s : Fin n), (if a.exerciseValue j s > 0 then a.design j k s else 0) = ∑ l, m k l * q.problem.masked j l (x s) := by
    intro k s
    have e1 : a.exerciseValue j s = q.problem.payoff j (x s) := rfl
    have e2 : a.design j k s = ∑ l, m k l * q.problem.basis j l (x s) := rfl
    simp only [ExerciseProblem.masked]
    rw [e1, e2]
    split
    · rfl
    · simp
  have hlhs : (fun k l => ∑ s ∈ a.calibration, (if a.exerciseValue j s > 0 then a.design j k s else 0) * (if a.exerciseValue j s > 0 then a.design j l s else 0)) =
      m * G * m.transpose := by
    funext k l
    simp only [hmask]
    rw [calibration_sum q pinv calibration M n x hc (fun s => (∑ l, m k l * q.problem.masked j l (x s)) * ∑ l', m l l' * q.problem.masked j l' (x s))]
    simp only [Matrix.mul_apply, Matrix.transpose_apply, hG, sampleGram, Finset.sum_mul, Finset.mul_sum]
    rw [Finset.sum_comm]
    refine Finset.sum_congr rfl fun l' _ => ?_
    rw [Finset.sum_comm]
    refine Finset.sum_congr rfl fun k' _ => Finset.sum_congr rfl fun s _ => ?_
    ring
  set r : Fin b → ℝ := fun l => ∑ s ∈ Finset.range (sampleCount calibration n), q.problem.masked j l (x s) *
    (q.problem.value (effectiveCoef q pinv calibration M n x) d (x s) / q.problem.factor j (x s)) with hr
  have hjd : a.numTimes - 1 - (j + 1) = d := by
    have : a.numTimes - 1 = q.problem.last := rfl
    omega
  have hrhs : (fun k => ∑ s ∈ a.calibration, (if a.exerciseValue j s > 0 then a.design j k s else 0) *
      (a.padded (lsmPolicy a (a.numTimes - 1 - (j + 1)) s + 1) s / a.padded (j + 1) s * a.exerciseValue (lsmPolicy a (a.numTimes - 1 - (j + 1)) s) s)) = m.mulVec r := by
    funext k
    have e : ∀ s : Fin n, a.padded (lsmPolicy a (a.numTimes - 1 - (j + 1)) s + 1) s / a.padded (j + 1) s * a.exerciseValue (lsmPolicy a (a.numTimes - 1 - (j + 1)) s) s =
        q.problem.value (effectiveCoef q pinv calibration M n x) d (x s) / q.problem.factor j (x s) := by
      intro s
      have e1 : a.padded (j + 1) s = q.problem.factor j (x s) := input_padded q pinv calibration M n x j s
      have e2 : a.padded (lsmPolicy a d s + 1) s * a.exerciseValue (lsmPolicy a d s) s = q.problem.value (effectiveCoef q pinv calibration M n x) d (x s) :=
        policy_value q pinv calibration M n x d hd.le s
      rw [hjd, e1, ← e2]
      ring
    simp only [hmask, e]
    rw [calibration_sum q pinv calibration M n x hc (fun s => (∑ l, m k l * q.problem.masked j l (x s)) *
      (q.problem.value (effectiveCoef q pinv calibration M n x) d (x s) / q.problem.factor j (x s)))]
    simp only [Matrix.mulVec, dotProduct, hr, Finset.sum_mul, Finset.mul_sum]
    rw [Finset.sum_comm]
    refine Finset.sum_congr rfl fun l _ => Finset.sum_congr rfl fun s _ => ?_
    ring
  refine ⟨m.transpose * pinv (m * G * m.transpose) * m, ?_, fun k => ?_⟩
  · have h := hp (m * G * m.transpose)
    have hmt : IsUnit m.transpose.det := by rwa [Matrix.det_transpose]
    have h2 : m⁻¹ * (m * G * m.transpose * pinv (m * G * m.transpose) * (m * G * m.transpose)) * m.transpose⁻¹ = m⁻¹ * (m * G * m.transpose) * m.transpose⁻¹ := by rw [h]
    generalize pinv (m * G * m.transpose) = Q at h2 ⊢
    have e1 : m⁻¹ * (m * G * m.transpose) * m.transpose⁻¹ = G := by
      rw [Matrix.mul_assoc m, ← Matrix.mul_assoc m⁻¹, Matrix.nonsing_inv_mul _ hmu, Matrix.one_mul, Matrix.mul_assoc, Matrix.mul_nonsing_inv _ hmt, Matrix.mul_one]
    have e2 : m⁻¹ * (m * G * m.transpose * Q * (m * G * m.transpose)) * m.transpose⁻¹ = G * (m.transpose * Q * m) * G := by
      calc m⁻¹ * (m * G * m.transpose * Q * (m * G * m.transpose)) * m.transpose⁻¹
          = (m⁻¹ * m) * G * m.transpose * Q * m * G * (m.transpose * m.transpose⁻¹) := by simp only [Matrix.mul_assoc]
        _ = G * (m.transpose * Q * m) * G := by
          rw [Matrix.nonsing_inv_mul _ hmu, Matrix.mul_nonsing_inv _ hmt, Matrix.one_mul, Matrix.mul_one]
          simp only [Matrix.mul_assoc]
    rw [e1, e2] at h2
    exact h2
  · change effectiveCoef q pinv calibration M n x j k = ((m.transpose * pinv (m * G * m.transpose) * m).mulVec r) k
    have e : lsmCoef n a j = (pinv (m * G * m.transpose)).mulVec (m.mulVec r) := by
      unfold lsmCoef
      rw [hlhs, hrhs]
      rfl
    unfold effectiveCoef
    rw [← ha, e, Matrix.mulVec_mulVec, Matrix.mulVec_mulVec, ← hm]

theorem input_nonzero (hq : q.Admissible) (i : ℕ) (s : Fin n) (hi : i ≤ (q.input pinv calibration M n x).numTimes) : (q.input pinv calibration M n x).padded i s ≠ 0 := by
  cases i with
  | zero => simp [LsmInput.padded]
  | succ i =>
    rw [input_padded]
    have hil : i < q.discounts.length := by
      rw [hq.factors]
      exact hi
    simp only [PathContract.problem]
    rw [List.getD_eq_getElem _ _ hil]
    exact hq.nonzero _ (List.getElem_mem _) _

/-- The price is an average of the values of the samples that are not used in the regressions. -/
theorem price_eq (hq : q.Admissible) : (q.input pinv calibration M n x).leastSquareMc =
    (∑ s ∈ (q.input pinv calibration M n x).pricing, q.problem.value (effectiveCoef q pinv calibration M n x) q.problem.last (x s.val)) /
      ((q.input pinv calibration M n x).pricing.card : ℝ) := by
  rw [leastSquareMc_value _ (fun i s hi => input_nonzero q pinv calibration M n x hq i s hi) hq.times hq.fuel]
  congr 1
  refine Finset.sum_congr rfl fun s _ => ?_
  rw [lsmValue_zero]
  exact policy_value q pinv calibration M n x _ le_rfl s

end Lemmas

namespace Props
open Model Spec Lemmas MeasureTheory ProbabilityTheory Filter Topology
open scoped BigOperators

variable {E Ω : Type} {b : ℕ} [MeasurableSpace E] [MeasurableSpace Ω] (q : PathContract E b) (pinv : Matrix (Fin b) (Fin b) ℝ → Matrix (Fin b) (Fin b) ℝ)
  (P : Measure Ω) (ν : Measure E) (D : ℕ → Ω → E) (β : ℕ → Fin b → ℝ)

/-- C138: the coefficients of the regressions converge, whatever generalized inverse and whatever number of calibration samples is used, as long as that number grows. -/
theorem C138_coefficients (hp : ∀ A, A * pinv A * A = A) (hD : PathDraws P ν D) (hr : q.problem.Regular ν β) (hβ : q.problem.IsLimitRule ν β) (c : ℕ → Option ℕ)
    (hc : ∀ n, (c n).getD n ≤ n) (hc' : Tendsto (fun n => (c n).getD n) atTop atTop) (M : ℕ → Ω → ℕ → Matrix (Fin b) (Fin b) ℝ) (hM : ∀ n ω i, (M n ω i).det ≠ 0) :
    ∀ᵐ ω ∂P, ∀ j < q.problem.last, ∀ k, Tendsto (fun n => effectiveCoef q pinv (c n) (M n ω) n (fun s => D s ω) j k) atTop (𝓝 (β j k)) := by
  have h : ∀ d, d < q.problem.last → ∀ᵐ ω ∂P, ∀ k, Tendsto (fun n => effectiveCoef q pinv (c n) (M n ω) n (fun s => D s ω) (q.problem.last - (d + 1)) k) atTop
      (𝓝 (β (q.problem.last - (d + 1)) k)) := fun d hd =>
    coef_limit hD hr hβ (fun n => sampleCount (c n) n) hc' (fun ω n => effectiveCoef q pinv (c n) (M n ω) n (fun s => D s ω))
      (fun ω n => sample_rule q pinv (c n) (M n ω) n (fun s => D s ω) hp (hM n ω) (hc n)) d hd fun W hW hWi =>
        stage_limit hD hr hβ (fun n => sampleCount (c n) n) hc' (fun ω n => effectiveCoef q pinv (c n) (M n ω) n (fun s => D s ω))
          (fun ω n => sample_rule q pinv (c n) (M n ω) n (fun s => D s ω) hp (hM n ω) (hc n)) d hd.le W hW hWi
  have h2 : ∀ᵐ ω ∂P, ∀ d, d < q.problem.last → ∀ k, Tendsto (fun n => effectiveCoef q pinv (c n) (M n ω) n (fun s => D s ω) (q.problem.last - (d + 1)) k) atTop
      (𝓝 (β (q.problem.last - (d + 1)) k)) := ae_all_iff.2 fun d => by
    by_cases hd : d < q.problem.last
    · filter_upwards [h d hd] with ω hω _
      exact hω
    · exact Eventually.of_forall fun ω hd' => absurd hd' hd
  filter_upwards [h2] with ω hω j hj k
  have := hω (q.problem.last - (j + 1)) (by omega) k
  rwa [show q.problem.last - (q.problem.last - (j + 1) + 1) = j by omega] at this

/-- C138: the averages behind the prices converge. -/
theorem C138_averages (hp : ∀ A, A * pinv A * A = A) (hD : PathDraws P ν D) (hr : q.problem.Regular ν β) (hβ : q.problem.IsLimitRule ν β) (c : ℕ → Option ℕ)
    (hc : ∀ n, (c n).getD n ≤ n) (hc' : Tendsto (fun n => (c n).getD n) atTop atTop) (M : ℕ → Ω → ℕ → Matrix (Fin b) (Fin b) ℝ) (hM : ∀ n ω i, (M n ω i).det ≠ 0) :
    ∀ᵐ ω ∂P, ∀ N : ℕ → ℕ, Tendsto N atTop atTop →
      Tendsto (fun n => sampleMean (q.problem.value (effectiveCoef q pinv (c n) (M n ω) n (fun s => D s ω)) q.problem.last) (fun s => D s ω) (N n)) atTop
        (𝓝 (∫ x, q.problem.value β q.problem.last x ∂ν)) := by
  have h := stage_limit hD hr hβ (fun n => sampleCount (c n) n) hc' (fun ω n => effectiveCoef q pinv (c n) (M n ω) n (fun s => D s ω))
    (fun ω n => sample_rule q pinv (c n) (M n ω) n (fun s => D s ω) hp (hM n ω) (hc n)) q.problem.last le_rfl (fun _ => 1) measurable_const
    (by simpa only [one_mul] using hr.integrable)
  simpa only [one_mul] using h

/-- C138: if all samples are used in the regressions and for the price, the price converges to the expected discounted payoff of the exercise rule whose coefficients solve the
regressions under the law of the paths. -/
theorem C138_price (hq : q.Admissible) (hp : ∀ A, A * pinv A * A = A) (hD : PathDraws P ν D) (hr : q.problem.Regular ν β) (hβ : q.problem.IsLimitRule ν β)
    (M : ℕ → Ω → ℕ → Matrix (Fin b) (Fin b) ℝ) (hM : ∀ n ω i, (M n ω i).det ≠ 0) :
    ∀ᵐ ω ∂P, Tendsto (fun n => (q.input pinv none (M n ω) n (fun s => D s ω)).leastSquareMc) atTop (𝓝 (∫ x, q.problem.value β q.problem.last x ∂ν)) := by
  filter_upwards [C138_averages q pinv P ν D β hp hD hr hβ (fun _ => none) (fun n => le_rfl) tendsto_id M hM] with ω hω
  refine (hω (fun n => n) tendsto_id).congr fun n => ?_
  rw [price_eq q pinv none (M n ω) n (fun s => D s ω) hq]
  have e : (q.input pinv none (M n ω) n (fun s => D s ω)).pricing = Finset.univ := rfl
  rw [e, Finset.card_univ, Fintype.card_fin]
  unfold sampleMean
  rw [Fin.sum_univ_eq_sum_range (fun s => q.problem.value (effectiveCoef q pinv none (M n ω) n (fun s => D s ω)) q.problem.last (D s ω))]

/-- C138: the same with separate samples for the regressions, if both groups of samples grow and the second one is not negligible. -/
theorem C138_price_calibrated (hq : q.Admissible) (hp : ∀ A, A * pinv A * A = A) (hD : PathDraws P ν D) (hr : q.problem.Regular ν β) (hβ : q.problem.IsLimitRule ν β)
    (c : ℕ → ℕ) (hc : ∀ n, c n ≤ n) (hc' : Tendsto c atTop atTop) (K : ℝ) (hK : ∀ᶠ n : ℕ in atTop, (n : ℝ) ≤ K * (n - c n))
    (M : ℕ → Ω → ℕ → Matrix (Fin b) (Fin b) ℝ) (hM : ∀ n ω i, (M n ω i).det ≠ 0) :
    ∀ᵐ ω ∂P, Tendsto (fun n => (q.input pinv (some (c n)) (M n ω) n (fun s => D s ω)).leastSquareMc) atTop (𝓝 (∫ x, q.problem.value β q.problem.last x ∂ν)) := by
  filter_upwards [C138_averages q pinv P ν D β hp hD hr hβ (fun n => some (c n)) hc hc' M hM] with ω hω
  have hA := hω (fun n => n) tendsto_id
  have hB := hω c hc'
  set V := ∫ x, q.problem.value β q.problem.last x ∂ν with hV
  set f : ℕ → E → ℝ := fun n => q.problem.value (effectiveCoef q pinv (some (c n)) (M n ω) n (fun s => D s ω)) q.problem.last with hf
  have hA' : Tendsto (fun n => |sampleMean (f n) (fun s => D s ω) n - V|) atTop (𝓝 0) := by
    have := (hA.sub_const V).abs
    simpa using this
  have hB' : Tendsto (fun n => |sampleMean (f n) (fun s => D s ω) (c n) - V|) atTop (𝓝 0) := by
    have := (hB.sub_const V).abs
    simpa using this
  have hz : Tendsto (fun n => |K| * |sampleMean (f n) (fun s => D s ω) n - V| + |K| * |sampleMean (f n) (fun s => D s ω) (c n) - V|) atTop (𝓝 0) := by
    simpa using (hA'.const_mul |K|).add (hB'.const_mul |K|)
  rw [tendsto_iff_norm_sub_tendsto_zero]
  refine squeeze_zero' (Eventually.of_forall fun n => norm_nonneg _) ?_ hz
  filter_upwards [hK, eventually_ge_atTop 1] with n hn hn1
  have hn0 : (1 : ℝ) ≤ n := by exact_mod_cast hn1
  have hcn : (c n : ℝ) ≤ n := by exact_mod_cast hc n
  have hpos : (0 : ℝ) < n - c n := by
    rcases eq_or_lt_of_le (sub_nonneg.2 hcn) with h | h
    · rw [← h, mul_zero] at hn
      linarith
    · exact h
  have hprice : (q.input pinv (some (c n)) (M n ω) n (fun s => D s ω)).leastSquareMc =
      (n * sampleMean (f n) (fun s => D s ω) n - c n * sampleMean (f n) (fun s => D s ω) (c n)) / (n - c n) := by
    rw [price_eq q pinv (some (c n)) (M n ω) n (fun s => D s ω) hq]
    have e : (q.input pinv (some (c n)) (M n ω) n (fun s => D s ω)).pricing = Finset.univ.filter (fun s : Fin n => ¬ s.val < c n) := by
      simp only [not_lt]
      rfl
    have hsum := Finset.sum_filter_add_sum_filter_not (Finset.univ : Finset (Fin n)) (fun s => s.val < c n) (fun s => f n (D s.val ω))
    have hcard := Finset.card_filter_add_card_filter_not (s := (Finset.univ : Finset (Fin n))) (fun s => s.val < c n)
    have hcard2 := fin_sum_below (c n) n (hc n) (fun _ => 1)
    simp only [Finset.sum_const, nsmul_eq_mul, mul_one, Finset.card_range] at hcard2
    have hcard2' : (Finset.univ.filter (fun s : Fin n => s.val < c n)).card = c n := by exact_mod_cast hcard2
    rw [hcard2', Finset.card_univ, Fintype.card_fin] at hcard
    rw [fin_sum_below (c n) n (hc n) (fun s => f n (D s ω)), Fin.sum_univ_eq_sum_range (fun s => f n (D s ω))] at hsum
    rw [e, show ((Finset.univ.filter (fun s : Fin n => ¬ s.val < c n)).card : ℝ) = n - c n by
      rw [eq_sub_iff_add_eq, add_comm]
      exact_mod_cast hcard]
    refine congrArg (· / ((n : ℝ) - c n)) ?_
    have h1 : (n : ℝ) * sampleMean (f n) (fun s => D s ω) n = ∑ s ∈ Finset.range n, f n (D s ω) := by
      unfold sampleMean
      field_simp
    have h2 : (c n : ℝ) * sampleMean (f n) (fun s => D s ω) (c n) = ∑ s ∈ Finset.range (c n), f n (D s ω) := by
      unfold sampleMean
      by_cases h0 : c n = 0
      · rw [h0]; simp
      · have : (c n : ℝ) ≠ 0 := by exact_mod_cast h0
        field_simp
    rw [h1, h2, ← hsum]
    ring
  have hKpos : 0 ≤ K := by
    by_contra hneg
    have := mul_nonpos_of_nonpos_of_nonneg (not_le.1 hneg).le hpos.le
    linarith
  rw [hprice, Real.norm_eq_abs, abs_of_nonneg hKpos]
  generalize sampleMean (f n) (fun s => D s ω) n = a
  generalize sampleMean (f n) (fun s => D s ω) (c n) = b'
  have hc0 : (0 : ℝ) ≤ c n := Nat.cast_nonneg _
  have e : ((n : ℝ) * a - c n * b') / (n - c n) - V = n / (n - c n) * (a - V) - c n / (n - c n) * (b' - V) := by
    field_simp
    ring
  have h1 : (n : ℝ) / (n - c n) ≤ K := (div_le_iff₀ hpos).2 hn
  have h2 : (c n : ℝ) / (n - c n) ≤ K := (div_le_iff₀ hpos).2 (hcn.trans hn)
  rw [e]
  refine (abs_sub _ _).trans (add_le_add ?_ ?_)
  · rw [abs_mul, abs_of_nonneg (by positivity)]
    exact mul_le_mul_of_nonneg_right h1 (abs_nonneg _)
  · rw [abs_mul, abs_of_nonneg (by positivity)]
    exact mul_le_mul_of_nonneg_right h2 (abs_nonneg _)

/-- C138: the two earlier versions of the code converge to the same limit. -/
theorem C138_versions (hq : q.Admissible) (hp : ∀ A, A * pinv A * A = A) (hD : PathDraws P ν D) (hr : q.problem.Regular ν β) (hβ : q.problem.IsLimitRule ν β)
    (M : ℕ → Ω → ℕ → Matrix (Fin b) (Fin b) ℝ) (hM : ∀ n ω i, (M n ω i).det ≠ 0) :
    ∀ᵐ ω ∂P, Tendsto (fun n => (q.input pinv none (M n ω) n (fun s => D s ω)).leastSquareMcV2) atTop (𝓝 (∫ x, q.problem.value β q.problem.last x ∂ν)) ∧
      Tendsto (fun n => (q.input pinv none (M n ω) n (fun s => D s ω)).leastSquareMcV1) atTop (𝓝 (∫ x, q.problem.value β q.problem.last x ∂ν)) := by
  filter_upwards [C138_price q pinv P ν D β hq hp hD hr hβ M hM] with ω hω
  have h := fun n => C57_versions (q.input pinv none (M n ω) n (fun s => D s ω)) (fun i s hi => input_nonzero q pinv none (M n ω) n _ hq i s hi) hq.times hq.fuel
  exact ⟨hω.congr fun n => (h n).1, hω.congr fun n => (h n).2 rfl⟩

/-- C138: the limit is the expected discounted payoff of an exercise time, so it is not above the value of the contract. -/
theorem C138_lower (ℱ : Filtration ℕ ‹MeasurableSpace E›) (hi : q.problem.Informed ℱ) :
    ∃ τ, IsExerciseTime ℱ q.problem.last τ ∧ ∫ x, q.problem.value β q.problem.last x ∂ν = q.problem.worth ν τ :=
  ⟨q.problem.rule β q.problem.last, rule_exercise_time hi β _, rfl⟩

/-- C138: if the regressors span the conditional expectations of going on, the prices converge to the largest expected discounted payoff of all exercise times. -/
theorem C138_optimal [IsProbabilityMeasure ν] (hq : q.Admissible) (hp : ∀ A, A * pinv A * A = A) (hD : PathDraws P ν D) (hr : q.problem.Regular ν β)
    (ℱ : Filtration ℕ ‹MeasurableSpace E›) (hi : q.problem.Informed ℱ) (hcomplete : q.problem.IsComplete ν ℱ β)
    (M : ℕ → Ω → ℕ → Matrix (Fin b) (Fin b) ℝ) (hM : ∀ n ω i, (M n ω i).det ≠ 0) :
    ∃ v, IsGreatest {w | ∃ τ, IsExerciseTime ℱ q.problem.last τ ∧ w = q.problem.worth ν τ} v ∧
      ∀ᵐ ω ∂P, Tendsto (fun n => (q.input pinv none (M n ω) n (fun s => D s ω)).leastSquareMc) atTop (𝓝 v) := by
  refine ⟨_, ⟨C138_lower q ν β ℱ hi, ?_⟩, C138_price q pinv P ν D β hq hp hD hr (complete_limit_rule hr hi hcomplete) M hM⟩
  rintro w ⟨τ, hτ, rfl⟩
  have h := rule_optimal_on hr hi hcomplete τ hτ q.problem.last le_rfl Set.univ MeasurableSet.univ (fun x _ => by omega)
  rwa [setIntegral_univ, setIntegral_univ] at h

/-- A fair coin: the contract pays one half now or 4 later if heads comes up, with a later factor of one half. -/
noncomputable def coinContract : PathContract Bool 1 :=
  ⟨[0, 1], fun i x => if i = 0 then 1 / 2 else if x then 4 else 0, fun _ _ _ => 1, [fun _ => 1, fun _ => 1 / 2], 2⟩

noncomputable def coinLaw : Measure Bool := (2 : ENNReal)⁻¹ • Measure.dirac true + (2 : ENNReal)⁻¹ • Measure.dirac false

instance : IsProbabilityMeasure coinLaw := by
  constructor
  simp only [coinLaw, Measure.add_apply, Measure.smul_apply, measure_univ, smul_eq_mul, mul_one]
  exact ENNReal.inv_two_add_inv_two

theorem coin_integral (f : Bool → ℝ) : ∫ x, f x ∂coinLaw = (f true + f false) / 2 := by
  unfold coinLaw
  have h : ∀ y : Bool, Integrable f ((2 : ENNReal)⁻¹ • Measure.dirac y) := fun y => (Integrable.of_finite : Integrable f (Measure.dirac y)).smul_measure (by simp)
  rw [integral_add_measure (h true) (h false), integral_smul_measure, integral_smul_measure, integral_dirac, integral_dirac]
  simp
  ring

/-- The price of this contract converges to 1, the value of waiting. -/
example (Ω : Type) [MeasurableSpace Ω] (P : Measure Ω) (D : ℕ → Ω → Bool) (hD : PathDraws P coinLaw D) (pinv : Matrix (Fin 1) (Fin 1) ℝ → Matrix (Fin 1) (Fin 1) ℝ)
    (hp : ∀ A, A * pinv A * A = A) :
    ∀ᵐ ω ∂P, Tendsto (fun n => (coinContract.input pinv none (fun _ => 1) n (fun s => D s ω)).leastSquareMc) atTop (𝓝 1) := by
  have hmask : ∀ k x, coinContract.problem.masked 0 k x = 1 := by
    intro k x
    simp [ExerciseProblem.masked, PathContract.problem, coinContract]
  have hv0 : ∀ x, coinContract.problem.value (fun _ _ => 1) 0 x = if x then 2 else 0 := by
    intro x
    cases x <;> simp [ExerciseProblem.value, ExerciseProblem.rule, PathContract.problem, coinContract] <;> norm_num
  have hgram : ∀ k l, coinContract.problem.gram coinLaw 0 k l = 1 := by
    intro k l
    simp only [ExerciseProblem.gram, hmask]
    rw [coin_integral]
    norm_num
  have hr : coinContract.problem.Regular coinLaw (fun _ _ => 1) := by
    refine ⟨fun _ => measurable_of_finite _, fun _ => measurable_of_finite _, fun _ _ => measurable_of_finite _, Integrable.of_finite, fun _ _ _ _ => Integrable.of_finite,
      fun _ _ _ => Integrable.of_finite, fun j hj => ?_, fun j hj => ?_⟩
    · have : j = 0 := by simpa [PathContract.problem, coinContract] using hj
      subst this
      rw [Matrix.det_fin_one, hgram]
      norm_num
    · have : j = 0 := by simpa [PathContract.problem, coinContract] using hj
      subst this
      refine Eventually.of_forall fun x _ => ?_
      simp [PathContract.problem, coinContract]
  have hβ : coinContract.problem.IsLimitRule coinLaw (fun _ _ => 1) := by
    intro d hd k
    have : d = 0 := by simpa [PathContract.problem, coinContract] using hd
    subst this
    have e : coinContract.problem.last - (0 + 1) = 0 := rfl
    simp only [e, hgram, hmask, hv0, coin_integral]
    simp [PathContract.problem, coinContract]
  have hq : coinContract.Admissible := by
    refine ⟨by simp [coinContract], by simp [coinContract], by simp [coinContract], ?_⟩
    intro f hf x
    simp only [coinContract, List.mem_cons, List.not_mem_nil, or_false] at hf
    rcases hf with h | h <;> rw [h] <;> norm_num
  have h := C138_price coinContract pinv P coinLaw D (fun _ _ => 1) hq hp hD hr hβ (fun _ _ _ => 1) (fun _ _ _ => by rw [Matrix.det_one]; norm_num)
  have e : ∫ x, coinContract.problem.value (fun _ _ => 1) coinContract.problem.last x ∂coinLaw = 1 := by
    have hl : coinContract.problem.last = 0 + 1 := rfl
    have hv : ∀ x, coinContract.problem.value (fun _ _ => 1) coinContract.problem.last x = if x then 2 else 0 := by
      classical
      intro x
      rw [hl, value_succ, if_neg, hv0]
      simp [PathContract.problem, coinContract]
      norm_num
    simp only [hv, coin_integral]
    norm_num
  rw [e] at h
  exact h

/-- There are such draws. -/
example : PathDraws (Measure.infinitePi fun _ : ℕ => coinLaw) coinLaw (fun k ω => ω k) := by
  refine ⟨fun k => measurable_pi_apply k, fun k => ?_, fun k l hkl => ?_⟩
  · exact (measurePreserving_eval_infinitePi (fun _ : ℕ => coinLaw) k).map_eq
  · exact (iIndepFun_infinitePi (P := fun _ : ℕ => coinLaw) (X := fun _ z => z) (fun _ => measurable_id)).indepFun hkl

end Props
