import Mathlib.Algebra.Order.Star.Real
import Mathlib.LinearAlgebra.Matrix.DotProduct
import Mathlib.Tactic.Linarith
import Mathlib.Tactic.FieldSimp
import Mathlib.Tactic.Ring
import Mathlib.Tactic.IntervalCases
import Verif.Model.Lsm
import Verif.Spec.Lsm

/-! # C57: the regression Monte Carlo of Longstaff and Schwartz -/

namespace Lemmas
open Model Spec
open scoped BigOperators

variable {n b : Nat}

/-- The normal equations from the first Penrose equation. -/
theorem normal_equations (X : Matrix (Fin n) (Fin b) ℝ) (P : Matrix (Fin b) (Fin b) ℝ)
    (hP : (X.transpose * X) * P * (X.transpose * X) = X.transpose * X) : (X.transpose * X) * P * X.transpose = X.transpose := by
  have hsym : (X.transpose * X).transpose = X.transpose * X := by simp [Matrix.transpose_mul]
  have hQ : (X.transpose * X) * P.transpose * (X.transpose * X) = X.transpose * X := by
    have h := congrArg Matrix.transpose hP
    generalize X.transpose * X = A at hsym h ⊢
    rw [Matrix.transpose_mul, Matrix.transpose_mul, hsym] at h
    rw [Matrix.mul_assoc]
    exact h
  have hZ : X.transpose * (X * P.transpose * (X.transpose * X) - X) = 0 := by
    rw [Matrix.mul_sub]
    simp only [Matrix.mul_assoc] at hQ ⊢
    rw [hQ, sub_self]
  have hZ2 : (X * P.transpose * (X.transpose * X) - X).transpose * (X * P.transpose * (X.transpose * X) - X) = 0 := by
    have : X * P.transpose * (X.transpose * X) - X = X * (P.transpose * (X.transpose * X) - 1) := by
      rw [Matrix.mul_sub, Matrix.mul_one, Matrix.mul_assoc]
    conv_lhs => rw [this, Matrix.transpose_mul, Matrix.mul_assoc, ← this, hZ, Matrix.mul_zero]
  have hZ3 : X * P.transpose * (X.transpose * X) - X = 0 := by
    rw [← Matrix.conjTranspose_mul_self_eq_zero, Matrix.conjTranspose_eq_transpose_of_trivial]
    exact hZ2
  have h := congrArg Matrix.transpose (sub_eq_zero.1 hZ3)
  rw [Matrix.transpose_mul, hsym, Matrix.transpose_mul, Matrix.transpose_transpose, ← Matrix.mul_assoc] at h
  exact h

open Classical in
/-- The regression of the code is a least squares fit. -/
theorem expectedExercise_eq (a : LsmInput n b) (hp : ∀ A : Matrix (Fin b) (Fin b) ℝ, A * a.pinv A * A = A) (x : Fin b → Fin n → ℝ) (y exercise : Fin n → ℝ) :
    ∃ beta : Fin b → ℝ, IsLeastSquares (a.calibration.filter (fun s => exercise s > 0)) x y beta ∧
      ∀ s, a.expectedExercise x y exercise s = max (∑ k, x k s * beta k) 0 := by
  set X : Matrix (Fin n) (Fin b) ℝ := fun s k => if s ∈ a.calibration.filter (fun s => exercise s > 0) then x k s else 0
  have hXs : ∀ s k, X s k = if s ∈ a.calibration.filter (fun s => exercise s > 0) then x k s else 0 := fun s k => rfl
  clear_value X
  have hlhs : (fun k l => ∑ s ∈ a.calibration, (if exercise s > 0 then x k s else 0) * (if exercise s > 0 then x l s else 0)) = X.transpose * X := by
    funext k l
    rw [Matrix.mul_apply, ← Finset.sum_subset (Finset.subset_univ a.calibration)]
    · apply Finset.sum_congr rfl
      intro s hs
      simp only [Matrix.transpose_apply, hXs, Finset.mem_filter, hs, true_and]
    · intro s _ hs
      simp only [Matrix.transpose_apply, hXs, Finset.mem_filter, hs, false_and, if_false, zero_mul]
  have hrhs : (fun k => ∑ s ∈ a.calibration, (if exercise s > 0 then x k s else 0) * y s) = X.transpose.mulVec y := by
    funext k
    simp only [Matrix.mulVec, dotProduct]
    rw [← Finset.sum_subset (Finset.subset_univ a.calibration)]
    · apply Finset.sum_congr rfl
      intro s hs
      simp only [Matrix.transpose_apply, hXs, Finset.mem_filter, hs, true_and]
    · intro s _ hs
      simp only [Matrix.transpose_apply, hXs, Finset.mem_filter, hs, false_and, if_false, zero_mul]
  set beta := (a.pinv (X.transpose * X)).mulVec (X.transpose.mulVec y) with hbeta
  refine ⟨beta, ?_, ?_⟩
  · have hne : (X.transpose * X).mulVec beta = X.transpose.mulVec y := by
      rw [hbeta, Matrix.mulVec_mulVec, Matrix.mulVec_mulVec, normal_equations X _ (hp _)]
    intro beta'
    have hres : ∀ k, ∑ s ∈ a.calibration.filter (fun s => exercise s > 0), (y s - ∑ l, x l s * beta l) * x k s = 0 := by
      intro k
      have h1 := congrFun hne k
      rw [← Matrix.mulVec_mulVec] at h1
      simp only [Matrix.mulVec, dotProduct, Matrix.transpose_apply] at h1
      have h2 : ∀ f : Fin n → ℝ, ∑ s, X s k * f s = ∑ s ∈ a.calibration.filter (fun s => exercise s > 0), x k s * f s := by
        intro f
        rw [← Finset.sum_subset (Finset.subset_univ (a.calibration.filter (fun s => exercise s > 0)))]
        · apply Finset.sum_congr rfl
          intro s hs
          simp only [hXs, if_pos hs]
        · intro s _ hs
          simp only [hXs, if_neg hs, zero_mul]
      rw [h2, h2] at h1
      have h3 : ∑ s ∈ a.calibration.filter (fun s => exercise s > 0), x k s * ∑ l, X s l * beta l =
          ∑ s ∈ a.calibration.filter (fun s => exercise s > 0), x k s * ∑ l, x l s * beta l := by
        apply Finset.sum_congr rfl
        intro s hs
        simp only [hXs, if_pos hs]
      rw [h3] at h1
      have : ∀ s ∈ a.calibration.filter (fun s => exercise s > 0), (y s - ∑ l, x l s * beta l) * x k s = x k s * y s - x k s * ∑ l, x l s * beta l := by
        intro s _; ring
      rw [Finset.sum_congr rfl this, Finset.sum_sub_distrib, h1, sub_self]
    set S := a.calibration.filter (fun s => exercise s > 0)
    have hcross : ∑ s ∈ S, (y s - ∑ l, x l s * beta l) * (∑ k, x k s * (beta' k - beta k)) = 0 := by
      simp only [Finset.mul_sum]
      rw [Finset.sum_comm]
      apply Finset.sum_eq_zero
      intro k _
      have := hres k
      calc ∑ s ∈ S, (y s - ∑ l, x l s * beta l) * (x k s * (beta' k - beta k))
          = (∑ s ∈ S, (y s - ∑ l, x l s * beta l) * x k s) * (beta' k - beta k) := by
            rw [Finset.sum_mul]; apply Finset.sum_congr rfl; intro s _; ring
        _ = 0 := by rw [this, zero_mul]
    have hexp : ∑ s ∈ S, (y s - ∑ k, x k s * beta' k) ^ 2 = ∑ s ∈ S, (y s - ∑ k, x k s * beta k) ^ 2 -
        2 * ∑ s ∈ S, (y s - ∑ l, x l s * beta l) * (∑ k, x k s * (beta' k - beta k)) + ∑ s ∈ S, (∑ k, x k s * (beta' k - beta k)) ^ 2 := by
      rw [Finset.mul_sum, ← Finset.sum_sub_distrib, ← Finset.sum_add_distrib]
      apply Finset.sum_congr rfl
      intro s _
      have : ∑ k, x k s * (beta' k - beta k) = ∑ k, x k s * beta' k - ∑ k, x k s * beta k := by
        rw [← Finset.sum_sub_distrib]; apply Finset.sum_congr rfl; intro k _; ring
      rw [this]; ring
    rw [hexp, hcross]
    have := Finset.sum_nonneg (fun s (_ : s ∈ S) => sq_nonneg (∑ k, x k s * (beta' k - beta k)))
    linarith
  · intro s
    change max (∑ k, x k s * (a.pinv (fun k l => ∑ s ∈ a.calibration, (if exercise s > 0 then x k s else 0) * (if exercise s > 0 then x l s else 0))).mulVec
      (fun k => ∑ s ∈ a.calibration, (if exercise s > 0 then x k s else 0) * y s) k) 0 = _
    rw [hlhs, hrhs]

open Classical in
/-- The exercise index of the code, `d` exercise times before the last. -/
noncomputable def lsmPolicy (a : LsmInput n b) : Nat → Fin n → Nat
  | 0, _ => a.numTimes - 1
  | d + 1, s =>
    let j := a.numTimes - 1 - (d + 1)
    if a.exerciseValue j s > a.expectedExercise (a.design j)
        (fun s => a.padded (lsmPolicy a d s + 1) s / a.padded (j + 1) s * a.exerciseValue (lsmPolicy a d s) s) (a.exerciseValue j) s then j
    else lsmPolicy a d s

theorem lsmPolicy_range (a : LsmInput n b) (d : Nat) (s : Fin n) : a.numTimes - 1 - d ≤ lsmPolicy a d s ∧ lsmPolicy a d s ≤ a.numTimes - 1 := by
  induction d with
  | zero => simp [lsmPolicy]
  | succ d ih =>
    unfold lsmPolicy
    simp only
    split <;> omega

/-- What each sample is worth `d` exercise times before the last. -/
noncomputable def lsmValue (a : LsmInput n b) (d e : Nat) (s : Fin n) : ℝ :=
  a.padded (lsmPolicy a d s + 1) s / a.padded e s * a.exerciseValue (lsmPolicy a d s) s

variable (a : LsmInput n b) (hD : ∀ i s, i ≤ a.numTimes → a.padded i s ≠ 0)
include hD

theorem loopBody_value (d : Nat) (hd : d + 1 ≤ a.numTimes - 1) (v : LsmInput.Vars n) (he : v.exerciseIndex = a.numTimes - 1 - d)
    (hv : ∀ s, v.cashflow s + v.values s = lsmValue a d (a.numTimes - 1 - d + 1) s) :
    (a.loopBody v).exerciseIndex = a.numTimes - 1 - (d + 1) ∧
      ∀ s, (a.loopBody v).cashflow s + (a.loopBody v).values s = lsmValue a (d + 1) (a.numTimes - 1 - (d + 1) + 1) s := by
  have he1 : v.exerciseIndex - 1 = a.numTimes - 1 - (d + 1) := by omega
  have he2 : v.exerciseIndex = a.numTimes - 1 - (d + 1) + 1 := by omega
  have hcont : a.applyDiscount (fun s => v.values s + v.cashflow s) v.exerciseIndex =
      fun s => a.padded (lsmPolicy a d s + 1) s / a.padded (a.numTimes - 1 - (d + 1) + 1) s * a.exerciseValue (lsmPolicy a d s) s := by
    funext s
    unfold LsmInput.applyDiscount
    simp only
    rw [add_comm (v.values s), hv s]
    unfold lsmValue
    rw [he, show a.numTimes - 1 - d = a.numTimes - 1 - (d + 1) + 1 by omega]
    have h1 := hD (a.numTimes - 1 - (d + 1) + 1 + 1) s (by omega)
    have h2 := hD (a.numTimes - 1 - (d + 1) + 1) s (by omega)
    field_simp
  refine ⟨by simp only [LsmInput.loopBody]; exact he1, fun s => ?_⟩
  unfold LsmInput.loopBody
  simp only
  rw [hcont, he1]
  unfold lsmValue LsmInput.applyDiscount
  rw [lsmPolicy]
  simp only
  by_cases h : a.exerciseValue (a.numTimes - 1 - (d + 1)) s > a.expectedExercise (a.design (a.numTimes - 1 - (d + 1)))
      (fun s => a.padded (lsmPolicy a d s + 1) s / a.padded (a.numTimes - 1 - (d + 1) + 1) s * a.exerciseValue (lsmPolicy a d s) s)
      (a.exerciseValue (a.numTimes - 1 - (d + 1))) s
  · rw [if_pos h, if_pos h, if_pos h, mul_zero, add_zero, div_self (hD _ s (by omega)), one_mul]
  · rw [if_neg h, if_neg h, if_neg h, zero_add]
    have := congrFun hcont s
    unfold LsmInput.applyDiscount at this
    rw [add_comm (v.cashflow s), this]

theorem loop_value (fuel d : Nat) (hf : a.numTimes - 1 - d ≤ fuel) (hd : d ≤ a.numTimes - 1) (v : LsmInput.Vars n) (he : v.exerciseIndex = a.numTimes - 1 - d)
    (hv : ∀ s, v.cashflow s + v.values s = lsmValue a d (a.numTimes - 1 - d + 1) s) (s : Fin n) :
    (a.loop fuel v).cashflow s + (a.loop fuel v).values s = lsmValue a (a.numTimes - 1) 1 s := by
  induction fuel generalizing d v with
  | zero =>
    have : d = a.numTimes - 1 := by omega
    subst this
    rw [LsmInput.loop, hv s]; simp
  | succ fuel ih =>
    rw [LsmInput.loop]
    by_cases h : v.exerciseIndex > 0
    · rw [if_pos h]
      obtain ⟨h1, h2⟩ := loopBody_value a hD d (by omega) v he hv
      exact ih (d + 1) (by omega) (by omega) _ h1 h2
    · rw [if_neg h]
      have : d = a.numTimes - 1 := by omega
      subst this
      rw [hv s]; simp


omit hD in
/-- The cashflows of the two earlier versions: only the payoff at the exercise index. -/
theorem continuation_value (cash : Fin n → Nat → ℝ) (d e : Nat) (s : Fin n) (hlen : 0 < a.numTimes) (he : e ≤ a.numTimes - 1 - d)
    (hc : ∀ j, e ≤ j → j < a.numTimes → cash s j = if j = lsmPolicy a d s then a.exerciseValue (lsmPolicy a d s) s else 0) :
    a.continuationV2 cash e s = lsmValue a d e s ∧ a.continuationV1 cash e s = lsmValue a d e s := by
  obtain ⟨r1, r2⟩ := lsmPolicy_range a d s
  constructor
  · unfold LsmInput.continuationV2 lsmValue
    rw [Finset.sum_eq_single (lsmPolicy a d s)]
    · rw [if_pos (by omega), if_pos (by omega), hc _ (by omega) (by omega), if_pos rfl]; ring
    · intro j hj hne
      rw [Finset.mem_range] at hj
      by_cases h : j ≥ e
      · rw [if_pos h, hc j h hj, if_neg hne, zero_mul]
      · rw [if_neg h, zero_mul]
    · intro h; rw [Finset.mem_range] at h; omega
  · unfold LsmInput.continuationV1 lsmValue
    rw [Finset.sum_eq_single (lsmPolicy a d s)]
    · rw [hc _ (by omega) (by omega), if_pos rfl]; ring
    · intro j hj hne
      rw [Finset.mem_Ico] at hj
      rw [hc j hj.1 hj.2, if_neg hne, zero_mul]
    · intro h; rw [Finset.mem_Ico] at h; omega

omit hD in
open Classical in
/-- One step of the two earlier versions. -/
theorem updatedCashflow_value (cash : Fin n → Nat → ℝ) (d : Nat) (hd : d + 1 ≤ a.numTimes - 1) (s : Fin n)
    (hc : ∀ j, a.numTimes - 1 - d ≤ j → j < a.numTimes → cash s j = if j = lsmPolicy a d s then a.exerciseValue (lsmPolicy a d s) s else 0)
    (j : Nat) (hj : a.numTimes - 1 - (d + 1) ≤ j) (hj2 : j < a.numTimes) (y : Fin n → ℝ) (hy : y = fun s => lsmValue a d (a.numTimes - 1 - d) s) :
    LsmInput.updatedCashflowV2 (a.numTimes - 1 - d) (a.exerciseValue (a.numTimes - 1 - d - 1))
        (a.expectedExercise (a.design (a.numTimes - 1 - d - 1)) y (a.exerciseValue (a.numTimes - 1 - d - 1))) cash s j =
      (if j = lsmPolicy a (d + 1) s then a.exerciseValue (lsmPolicy a (d + 1) s) s else 0) ∧
    LsmInput.updatedCashflowV1 (a.numTimes - 1 - d) (a.exerciseValue (a.numTimes - 1 - d - 1))
        (a.expectedExercise (a.design (a.numTimes - 1 - d - 1)) y (a.exerciseValue (a.numTimes - 1 - d - 1))) cash s j =
      (if j = lsmPolicy a (d + 1) s then a.exerciseValue (lsmPolicy a (d + 1) s) s else 0) := by
  obtain ⟨r1, r2⟩ := lsmPolicy_range a d s
  have hpol : lsmPolicy a (d + 1) s = if a.exerciseValue (a.numTimes - 1 - d - 1) s >
      a.expectedExercise (a.design (a.numTimes - 1 - d - 1)) y (a.exerciseValue (a.numTimes - 1 - d - 1)) s then a.numTimes - 1 - d - 1 else lsmPolicy a d s := by
    rw [lsmPolicy, hy]
    simp only [lsmValue]
    rw [show a.numTimes - 1 - (d + 1) = a.numTimes - 1 - d - 1 by omega, show a.numTimes - 1 - d - 1 + 1 = a.numTimes - 1 - d by omega]
    split_ifs with h
    · exact (if_pos h).symm
    · exact (if_neg h).symm
  unfold LsmInput.updatedCashflowV2 LsmInput.updatedCashflowV1
  simp only
  rw [hpol]
  by_cases h : a.exerciseValue (a.numTimes - 1 - d - 1) s >
      a.expectedExercise (a.design (a.numTimes - 1 - d - 1)) y (a.exerciseValue (a.numTimes - 1 - d - 1)) s
  · simp only [if_pos h]
    constructor
    · by_cases h' : j ≥ a.numTimes - 1 - d
      · rw [if_pos h', if_neg (by omega)]
      · rw [if_neg h', if_pos (by omega)]
    · rw [if_neg (by omega)]
      by_cases h' : j ≥ a.numTimes - 1 - d
      · rw [if_neg (by omega), if_neg (by omega)]; simp
      · rw [if_pos (by omega), if_pos (by omega)]; simp
  · simp only [if_neg h]
    constructor
    · by_cases h' : j ≥ a.numTimes - 1 - d
      · rw [if_pos h', hc j h' hj2]
      · rw [if_neg h', if_neg (by omega)]
    · rw [if_neg (by omega)]
      by_cases h' : j ≥ a.numTimes - 1 - d
      · rw [if_neg (by omega), if_neg (by omega), hc j h' hj2]; simp
      · rw [if_pos (by omega), if_pos (by omega), if_neg (by omega)]; simp

omit hD in
theorem loopV2_value (hlen : 0 < a.numTimes) (fuel d : Nat) (hf : a.numTimes - 1 - d ≤ fuel) (hd : d ≤ a.numTimes - 1) (cash : Fin n → Nat → ℝ)
    (hc : ∀ s j, a.numTimes - 1 - d ≤ j → j < a.numTimes → cash s j = if j = lsmPolicy a d s then a.exerciseValue (lsmPolicy a d s) s else 0) (s : Fin n) :
    a.continuationV2 (a.loopV2 fuel (a.numTimes - 1 - d) cash) 0 s = lsmValue a (a.numTimes - 1) 0 s := by
  induction fuel generalizing d cash with
  | zero =>
    have : d = a.numTimes - 1 := by omega
    subst this
    exact (continuation_value a cash _ 0 s hlen (by omega) (fun j _ hj => hc s j (by omega) hj)).1
  | succ fuel ih =>
    rw [LsmInput.loopV2]
    by_cases h : a.numTimes - 1 - d > 0
    · rw [if_pos h]
      have := ih (d + 1) (by omega) (by omega) (LsmInput.updatedCashflowV2 (a.numTimes - 1 - d) (a.exerciseValue (a.numTimes - 1 - d - 1))
        (a.expectedExercise (a.design (a.numTimes - 1 - d - 1)) (a.continuationV2 cash (a.numTimes - 1 - d)) (a.exerciseValue (a.numTimes - 1 - d - 1))) cash)
        (fun s j h1 h2 => (updatedCashflow_value a cash d (by omega) s (hc s) j h1 h2 _
          (funext (fun s => (continuation_value a cash d _ s hlen le_rfl (hc s)).1))).1)
      rw [show a.numTimes - 1 - (d + 1) = a.numTimes - 1 - d - 1 by omega] at this
      exact this
    · rw [if_neg h]
      have : d = a.numTimes - 1 := by omega
      subst this
      exact (continuation_value a cash _ 0 s hlen (by omega) (fun j _ hj => hc s j (by omega) hj)).1

omit hD in
theorem loopV1_value (hlen : 0 < a.numTimes) (fuel d : Nat) (hf : a.numTimes - 1 - d ≤ fuel) (hd : d ≤ a.numTimes - 1) (cash : Fin n → Nat → ℝ)
    (hc : ∀ s j, a.numTimes - 1 - d ≤ j → j < a.numTimes → cash s j = if j = lsmPolicy a d s then a.exerciseValue (lsmPolicy a d s) s else 0) (s : Fin n) :
    a.continuationV1 (a.loopV1 fuel (a.numTimes - 1 - d) cash) 0 s = lsmValue a (a.numTimes - 1) 0 s := by
  induction fuel generalizing d cash with
  | zero =>
    have : d = a.numTimes - 1 := by omega
    subst this
    exact (continuation_value a cash _ 0 s hlen (by omega) (fun j _ hj => hc s j (by omega) hj)).2
  | succ fuel ih =>
    rw [LsmInput.loopV1]
    by_cases h : a.numTimes - 1 - d > 0
    · rw [if_pos h]
      have := ih (d + 1) (by omega) (by omega) (LsmInput.updatedCashflowV1 (a.numTimes - 1 - d) (a.exerciseValue (a.numTimes - 1 - d - 1))
        (a.expectedExercise (a.design (a.numTimes - 1 - d - 1)) (a.continuationV1 cash (a.numTimes - 1 - d)) (a.exerciseValue (a.numTimes - 1 - d - 1))) cash)
        (fun s j h1 h2 => (updatedCashflow_value a cash d (by omega) s (hc s) j h1 h2 _
          (funext (fun s => (continuation_value a cash d _ s hlen le_rfl (hc s)).2))).2)
      rw [show a.numTimes - 1 - (d + 1) = a.numTimes - 1 - d - 1 by omega] at this
      exact this
    · rw [if_neg h]
      have : d = a.numTimes - 1 := by omega
      subst this
      exact (continuation_value a cash _ 0 s hlen (by omega) (fun j _ hj => hc s j (by omega) hj)).2

theorem leastSquareMc_value (hlen : 0 < a.numTimes) (hfuel : a.numTimes ≤ a.numPathTimes + 1) :
    a.leastSquareMc = (∑ s ∈ a.pricing, lsmValue a (a.numTimes - 1) 0 s) / (a.pricing.card : ℝ) := by
  unfold LsmInput.leastSquareMc
  simp only
  congr 1
  apply Finset.sum_congr rfl
  intro s _
  have h := loop_value a hD a.numPathTimes 0 (by omega) (by omega) ⟨a.numTimes - 1, a.exerciseValue (a.numTimes - 1), fun _ => 0⟩ (by simp)
    (by
      intro s
      simp only [lsmValue, lsmPolicy, Nat.sub_zero]
      rw [div_self (hD _ s (by omega))]; ring) s
  unfold LsmInput.applyDiscount
  simp only at h ⊢
  rw [h]
  unfold lsmValue
  have h1 := hD 1 s (by omega)
  have h0 := hD 0 s (by omega)
  simp only [zero_add]
  field_simp

omit hD in
theorem leastSquareMcV2_value (hlen : 0 < a.numTimes) :
    a.leastSquareMcV2 = (∑ s ∈ a.pricing, lsmValue a (a.numTimes - 1) 0 s) / (a.pricing.card : ℝ) := by
  unfold LsmInput.leastSquareMcV2
  simp only
  congr 1
  apply Finset.sum_congr rfl
  intro s _
  exact loopV2_value a hlen a.numTimes 0 (by omega) (by omega) _ (by
    intro s j h1 h2
    have hz : lsmPolicy a 0 s = a.numTimes - 1 := rfl
    rw [if_neg (by omega), if_pos (by omega), hz]) s

omit hD in
theorem leastSquareMcV1_value (hlen : 0 < a.numTimes) :
    a.leastSquareMcV1 = (∑ s, lsmValue a (a.numTimes - 1) 0 s) / (n : ℝ) := by
  unfold LsmInput.leastSquareMcV1
  simp only
  congr 1
  apply Finset.sum_congr rfl
  intro s _
  exact loopV1_value a hlen a.numTimes 0 (by omega) (by omega) _ (by
    intro s j h1 h2
    have hz : lsmPolicy a 0 s = a.numTimes - 1 := rfl
    rw [if_neg (by omega), if_pos (by omega), hz]) s

omit hD in
theorem lsmValue_zero (d : Nat) (s : Fin n) : lsmValue a d 0 s = a.padded (lsmPolicy a d s + 1) s * a.exerciseValue (lsmPolicy a d s) s := by
  unfold lsmValue LsmInput.padded
  simp

end Lemmas

namespace Props
open Model Lemmas Spec
open scoped BigOperators

/-- C57: the price is the mean over the pricing samples of the discounted payoff under an exercise policy of Longstaff and Schwartz. -/
theorem C57_price {n b : Nat} (a : LsmInput n b) (hp : ∀ A : Matrix (Fin b) (Fin b) ℝ, A * a.pinv A * A = A)
    (hD : ∀ i s, i ≤ a.numTimes → a.padded i s ≠ 0) (hlen : 0 < a.numTimes) (hfuel : a.numTimes ≤ a.numPathTimes + 1) :
    ∃ tau : Nat → Fin n → Nat,
      IsLsmPolicy (a.numTimes - 1) (fun j => a.exerciseValue j) (fun j => a.padded (j + 1)) (fun j => a.design j) a.calibration tau ∧
      a.leastSquareMc = (∑ s ∈ a.pricing, a.padded (tau 0 s + 1) s * a.exerciseValue (tau 0 s) s) / (a.pricing.card : ℝ) := by
  refine ⟨fun j => lsmPolicy a (a.numTimes - 1 - j), ⟨fun s => by simp [lsmPolicy], ?_⟩, ?_⟩
  · intro j hj
    obtain ⟨beta, h1, h2⟩ := expectedExercise_eq a hp (a.design j)
      (fun s => a.padded (lsmPolicy a (a.numTimes - 1 - (j + 1)) s + 1) s / a.padded (j + 1) s * a.exerciseValue (lsmPolicy a (a.numTimes - 1 - (j + 1)) s) s)
      (a.exerciseValue j)
    refine ⟨beta, h1, fun s => ?_⟩
    simp only
    obtain ⟨d, hd⟩ : ∃ d, a.numTimes - 1 - j = d + 1 := ⟨a.numTimes - 1 - j - 1, by omega⟩
    have hj' : a.numTimes - 1 - (d + 1) = j := by omega
    have hd' : a.numTimes - 1 - (j + 1) = d := by omega
    rw [← h2 s, hd, hd', lsmPolicy]
    simp only [hj']
  · rw [leastSquareMc_value a hD hlen hfuel]
    congr 1
    apply Finset.sum_congr rfl
    intro s _
    simp only [Nat.sub_zero, lsmValue_zero]

/-- C57: the three versions of the algorithm agree (the oldest one has no calibration samples). -/
theorem C57_versions {n b : Nat} (a : LsmInput n b) (hD : ∀ i s, i ≤ a.numTimes → a.padded i s ≠ 0) (hlen : 0 < a.numTimes)
    (hfuel : a.numTimes ≤ a.numPathTimes + 1) :
    a.leastSquareMc = a.leastSquareMcV2 ∧ (a.numCalibration = none → a.leastSquareMc = a.leastSquareMcV1) := by
  rw [leastSquareMc_value a hD hlen hfuel, leastSquareMcV2_value a hlen, leastSquareMcV1_value a hlen]
  refine ⟨rfl, fun h => ?_⟩
  simp [LsmInput.pricing, h]

/-- C57: the price is never above the mean of the best discounted payoff on each path, if discounted payoffs are below `best`. -/
theorem C57_upper {n b : Nat} (a : LsmInput n b) (hD : ∀ i s, i ≤ a.numTimes → a.padded i s ≠ 0) (hlen : 0 < a.numTimes)
    (hfuel : a.numTimes ≤ a.numPathTimes + 1) (best : Fin n → ℝ) (hb : ∀ j s, j < a.numTimes → a.padded (j + 1) s * a.exerciseValue j s ≤ best s) :
    a.leastSquareMc ≤ (∑ s ∈ a.pricing, best s) / (a.pricing.card : ℝ) := by
  rw [leastSquareMc_value a hD hlen hfuel]
  apply div_le_div_of_nonneg_right _ (Nat.cast_nonneg _)
  apply Finset.sum_le_sum
  intro s _
  rw [lsmValue_zero]
  exact hb _ _ (by have := (lsmPolicy_range a (a.numTimes - 1) s).2; omega)

theorem powersIj_spec (degree dim : Nat) : (powersIj degree dim).Nodup ∧ ∀ p, p ∈ powersIj degree dim ↔ p.length = dim ∧ ∀ k ∈ p, k ≤ degree := by
  induction dim with
  | zero =>
    refine ⟨by simp [powersIj], fun p => ?_⟩
    simp only [powersIj, List.mem_singleton, List.length_eq_zero_iff]
    constructor
    · rintro rfl; simp
    · exact fun h => h.1
  | succ dim ih =>
    constructor
    · rw [powersIj, List.nodup_flatMap]
      constructor
      · intro k _
        exact ih.1.map (fun p q h => (List.cons.inj h).2)
      · apply List.Nodup.pairwise_of_forall_ne List.nodup_range
        intro k _ l _ hkl p hp hq
        simp only [List.mem_map] at hp hq
        obtain ⟨p', _, rfl⟩ := hp
        obtain ⟨q', _, hq'⟩ := hq
        exact hkl (List.cons.inj hq').1.symm
    · intro p
      simp only [powersIj, List.mem_flatMap, List.mem_range, List.mem_map]
      constructor
      · rintro ⟨k, hk, q, hq, rfl⟩
        obtain ⟨h1, h2⟩ := (ih.2 q).1 hq
        refine ⟨by simp [h1], fun x hx => ?_⟩
        rcases List.mem_cons.1 hx with rfl | hx
        · omega
        · exact h2 x hx
      · rintro ⟨h1, h2⟩
        cases p with
        | nil => simp at h1
        | cons k q =>
          exact ⟨k, by have := h2 k List.mem_cons_self; omega, q,
            (ih.2 q).2 ⟨by simpa using h1, fun x hx => h2 x (List.mem_cons_of_mem _ hx)⟩, rfl⟩

/-- C57: the polynomial basis has each monomial with exponents up to the degree exactly once. -/
theorem C57_basis_powers (degree dim : Nat) :
    (basisPowers degree dim).Nodup ∧ ∀ p, p ∈ basisPowers degree dim ↔ p.length = dim ∧ ∀ k ∈ p, k ≤ degree := by
  set swap : List Nat → List Nat := fun p => match p with
    | x :: y :: t => y :: x :: t
    | p => p with hswap
  have hinv : ∀ p, swap (swap p) = p := by
    intro p
    match p with
    | [] => rfl
    | [x] => rfl
    | x :: y :: t => rfl
  have hlen : ∀ p, (swap p).length = p.length := by
    intro p
    match p with
    | [] => rfl
    | [x] => rfl
    | x :: y :: t => rfl
  have hmem : ∀ p k, k ∈ swap p ↔ k ∈ p := by
    intro p k
    match p with
    | [] => rfl
    | [x] => rfl
    | x :: y :: t => simp only [hswap, List.mem_cons]; tauto
  obtain ⟨h1, h2⟩ := powersIj_spec degree dim
  change ((powersIj degree dim).map swap).Nodup ∧ ∀ p, p ∈ (powersIj degree dim).map swap ↔ _
  refine ⟨h1.map (fun p q h => by rw [← hinv p, ← hinv q, h]), fun p => ?_⟩
  rw [List.mem_map]
  constructor
  · rintro ⟨q, hq, rfl⟩
    obtain ⟨a1, a2⟩ := (h2 q).1 hq
    exact ⟨by rw [hlen, a1], fun k hk => a2 k ((hmem q k).1 hk)⟩
  · rintro ⟨a1, a2⟩
    exact ⟨swap p, (h2 _).2 ⟨by rw [hlen, a1], fun k hk => a2 k ((hmem p k).1 hk)⟩, hinv p⟩

/-- C57: with calibration samples, the regression uses exactly the first `m` samples and the price exactly the others, so that no
sample is used for both; otherwise all samples are used for both. -/
theorem C57_samples (a : LsmInput n b) :
    (∀ m, a.numCalibration = some m → (∀ s, s ∈ a.calibration ↔ s.val < m) ∧ (∀ s, s ∈ a.pricing ↔ ¬ s.val < m) ∧
      Disjoint a.calibration a.pricing ∧ a.calibration ∪ a.pricing = Finset.univ) ∧
    (a.numCalibration = none → a.calibration = Finset.univ ∧ a.pricing = Finset.univ) := by
  refine ⟨fun m h => ?_, fun h => ?_⟩
  · have h1 : ∀ s, s ∈ a.calibration ↔ s.val < m := fun s => by simp [LsmInput.calibration, h]
    have h2 : ∀ s, s ∈ a.pricing ↔ ¬ s.val < m := fun s => by simp [LsmInput.pricing, h]
    refine ⟨h1, h2, Finset.disjoint_left.2 fun s hs hs' => (h2 s).1 hs' ((h1 s).1 hs), Finset.eq_univ_of_forall fun s => ?_⟩
    rw [Finset.mem_union, h1, h2]
    exact em _
  · constructor <;> simp [LsmInput.calibration, LsmInput.pricing, h]

/-- One sample, two exercise times, no regressors: the continuation estimate is 0, so the option is exercised at the first time, where it pays 3. -/
example : (⟨[0, 1], fun t _ => if t = 0 then 3 else 5, fun _ k _ => k.elim0, [fun _ => 1, fun _ => 1 / 2], none, 2, fun A => A⟩ : LsmInput 1 0).leastSquareMc = 3 := by
  rw [leastSquareMc_value _ _ (by simp [LsmInput.numTimes]) (by simp [LsmInput.numTimes])]
  · simp [LsmInput.pricing, lsmValue_zero, lsmPolicy, LsmInput.numTimes, LsmInput.expectedExercise, LsmInput.exerciseValue, LsmInput.padded]
  · intro i s hi
    simp only [LsmInput.numTimes, List.length_cons, List.length_nil] at hi
    interval_cases i <;> simp [LsmInput.padded]

example : basisPowers 1 2 = [[0, 0], [1, 0], [0, 1], [1, 1]] := by decide

end Props
