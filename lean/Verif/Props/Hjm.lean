import Mathlib.Tactic.FieldSimp
import Mathlib.Tactic.Linarith
import Mathlib.LinearAlgebra.Matrix.Orthogonal
import Mathlib.Analysis.SpecialFunctions.ExpDeriv
import Verif.Model.Hjm
import Verif.Spec.Hjm
import Verif.Lemmas.HullWhite
import Verif.Props.PathDiscount

/-!
# Property theorems C93: Heath-Jarrow-Morton models
-/

namespace Props
open Model Spec Lemmas

variable {n : Nat}

/-- The exponent of the bond price. -/
noncomputable def hjmLoading (k τ : ℝ) : ℝ := (1 - Real.exp (-k * τ)) / k

theorem hjmLoading_deriv (k T t : ℝ) (hk : k ≠ 0) : HasDerivAt (fun s => hjmLoading k (T - s)) (k * hjmLoading k (T - t) - 1) t := by
  unfold hjmLoading
  have h1 : HasDerivAt (fun s : ℝ => -k * (T - s)) k t := by
    have := ((hasDerivAt_id t).const_sub T).const_mul (-k)
    simpa using this
  refine ((h1.exp.const_sub 1).div_const k).congr_deriv ?_
  field_simp
  ring

theorem sum_update (x g : Fin n → ℝ) (i : Fin n) (s : ℝ) : ∑ k, Function.update x i s k * g k = (∑ k, x k * g k) + (s - x i) * g i := by
  have h : ∀ k, Function.update x i s k * g k = x k * g k + if k = i then (s - x i) * g i else 0 := by
    intro k
    by_cases h : k = i
    · subst h; simp; ring
    · simp [h]
  simp only [h, Finset.sum_add_distrib, Finset.sum_ite_eq', Finset.mem_univ, if_true]

theorem bondPrice_eq (m : Hjm n) (t T : ℝ) (x : Fin n → ℝ) (y : Fin n → Fin n → ℝ) :
    m.bondPrice t T x y = Real.exp (m.discountRate t * t - m.discountRate T * T - (∑ i, x i * hjmLoading (m.meanReversion i) (T - t)) -
      1 / 2 * ∑ i, ∑ j, y i j * (hjmLoading (m.meanReversion i) (T - t) * hjmLoading (m.meanReversion j) (T - t))) := by
  unfold Hjm.bondPrice
  simp only
  rw [← Real.exp_sub, ← Real.exp_add]
  congr 1
  have : ∑ i, (1 - Real.exp (-m.meanReversion i * (T - t))) / m.meanReversion i *
      ∑ j, y i j * ((1 - Real.exp (-m.meanReversion j * (T - t))) / m.meanReversion j) =
      ∑ i, ∑ j, y i j * (hjmLoading (m.meanReversion i) (T - t) * hjmLoading (m.meanReversion j) (T - t)) := by
    refine Finset.sum_congr rfl (fun i _ => ?_)
    rw [Finset.mul_sum]
    refine Finset.sum_congr rfl (fun j _ => ?_)
    unfold hjmLoading
    ring
  rw [this]
  unfold hjmLoading
  norm_num
  ring

theorem bondPrice_hasDerivAt_y (m : Hjm n) (T t : ℝ) (x : Fin n → ℝ) (y : Fin n → Fin n → ℝ) (i j : Fin n) :
    HasDerivAt (fun s => m.bondPrice t T x (Function.update y i (Function.update (y i) j s)))
      (m.bondPrice t T x y * -(1 / 2 * (hjmLoading (m.meanReversion i) (T - t) * hjmLoading (m.meanReversion j) (T - t)))) (y i j) := by
  set G : Fin n → ℝ := fun i => hjmLoading (m.meanReversion i) (T - t) with hG
  have hP : ∀ x' y', m.bondPrice t T x' y' = Real.exp (m.discountRate t * t - m.discountRate T * T - (∑ i, x' i * G i) -
      1 / 2 * ∑ i, ∑ j, y' i j * (G i * G j)) := fun x' y' => bondPrice_eq m t T x' y'
  have hs : ∀ s, ∑ a, ∑ b, Function.update y i (Function.update (y i) j s) a b * (G a * G b) =
      (∑ a, ∑ b, y a b * (G a * G b)) + (s - y i j) * (G i * G j) := by
    intro s
    have : ∀ a, ∑ b, Function.update y i (Function.update (y i) j s) a b * (G a * G b) =
        (∑ b, y a b * (G a * G b)) + if a = i then (s - y i j) * (G i * G j) else 0 := by
      intro a
      by_cases h : a = i
      · subst h
        rw [Function.update_self, if_pos rfl, sum_update (y a) (fun b => G a * G b)]
      · rw [Function.update_of_ne h, if_neg h, add_zero]
    simp only [this, Finset.sum_add_distrib, Finset.sum_ite_eq', Finset.mem_univ, if_true]
  have h1 : HasDerivAt (fun s => m.discountRate t * t - m.discountRate T * T - (∑ k, x k * G k) -
      1 / 2 * ∑ a, ∑ b, Function.update y i (Function.update (y i) j s) a b * (G a * G b)) (-(1 / 2 * (G i * G j))) (y i j) := by
    simp only [hs]
    have := (((((hasDerivAt_id (y i j)).sub_const (y i j)).mul_const (G i * G j)).const_add (∑ a, ∑ b, y a b * (G a * G b))).const_mul
      (1 / 2)).const_sub (m.discountRate t * t - m.discountRate T * T - ∑ k, x k * G k)
    simpa using this
  have h2 := h1.exp
  rw [Function.update_eq_self, Function.update_eq_self, ← hP] at h2
  exact h2.congr_of_eventuallyEq (Filter.Eventually.of_forall (fun s => hP _ _))

/-- C93.  Bond prices have no arbitrage: for a symmetric state `y` they solve the pricing equation with the drifts and the covariance of
the sampler and the short rate. -/
theorem C93_bond_equation (m : Hjm n) (hk : ∀ i, m.meanReversion i ≠ 0) (hrho : m.sqrtRho * m.sqrtRho.transpose = m.rho) (T t : ℝ)
    (hR : DifferentiableAt ℝ m.discountRate t) (x : Fin n → ℝ) (y : Fin n → Fin n → ℝ) (hy : ∀ i j, y i j = y j i) :
    SolvesPricing (fun t x y => m.bondPrice t T x y) t x y (m.driftX x y) (m.driftY t x y)
      (fun i j => ∑ k, m.diffusion t x i k * m.diffusion t x j k) (m.shortRate t x) := by
  set G : Fin n → ℝ := fun i => hjmLoading (m.meanReversion i) (T - t) with hG
  set v := m.volatility t (m.shortRate t x) with hv
  have hf : HasDerivAt (fun s => m.discountRate s * s) (m.instantForwardRate t) t := by
    have h1 : HasDerivAt (fun s => -m.discountRate s * s) (deriv (fun s => -m.discountRate s * s) t) t :=
      ((hR.neg).mul differentiableAt_id).hasDerivAt
    have h2 := h1.neg
    unfold Hjm.instantForwardRate
    refine (h2.congr_of_eventuallyEq (Filter.Eventually.of_forall (fun s => ?_)))
    simp
  have hP : ∀ x' y', m.bondPrice t T x' y' = Real.exp (m.discountRate t * t - m.discountRate T * T - (∑ i, x' i * G i) -
      1 / 2 * ∑ i, ∑ j, y' i j * (G i * G j)) := fun x' y' => bondPrice_eq m t T x' y'
  have hcov : ∀ i j, ∑ k, m.diffusion t x i k * m.diffusion t x j k = m.rho i j * (v i * v j) := by
    intro i j
    rw [← hrho, Matrix.mul_apply, Finset.sum_mul]
    refine Finset.sum_congr rfl (fun k _ => ?_)
    simp only [Hjm.diffusion, Matrix.transpose_apply, ← hv]
    ring
  refine ⟨m.bondPrice t T x y * (m.instantForwardRate t - (∑ i, x i * (m.meanReversion i * G i - 1)) -
      1 / 2 * ∑ i, ∑ j, y i j * ((m.meanReversion i * G i - 1) * G j + G i * (m.meanReversion j * G j - 1))),
    fun x' i => m.bondPrice t T x' y * -G i, fun i j => m.bondPrice t T x y * -(1 / 2 * (G i * G j)),
    fun i j => m.bondPrice t T x y * (G i * G j), ?_, ?_, ?_, ?_, ?_⟩
  · have h1 : HasDerivAt (fun s => m.discountRate s * s - m.discountRate T * T - (∑ i, x i * hjmLoading (m.meanReversion i) (T - s)) -
        1 / 2 * ∑ i, ∑ j, y i j * (hjmLoading (m.meanReversion i) (T - s) * hjmLoading (m.meanReversion j) (T - s)))
        (m.instantForwardRate t - (∑ i, x i * (m.meanReversion i * G i - 1)) -
          1 / 2 * ∑ i, ∑ j, y i j * ((m.meanReversion i * G i - 1) * G j + G i * (m.meanReversion j * G j - 1))) t := by
      refine ((hf.sub_const _).sub ?_).sub (HasDerivAt.const_mul _ ?_)
      · exact HasDerivAt.fun_sum (fun i _ => (hjmLoading_deriv _ T t (hk i)).const_mul _)
      · refine HasDerivAt.fun_sum (fun i _ => HasDerivAt.fun_sum (fun j _ => HasDerivAt.const_mul _ ?_))
        exact (hjmLoading_deriv _ T t (hk i)).mul (hjmLoading_deriv _ T t (hk j))
    have h2 := h1.exp
    rw [← bondPrice_eq] at h2
    refine h2.congr_of_eventuallyEq (Filter.Eventually.of_forall (fun s => bondPrice_eq m s T x y))
  · intro x' i
    have h1 : HasDerivAt (fun s => m.discountRate t * t - m.discountRate T * T - (∑ k, Function.update x' i s k * G k) -
        1 / 2 * ∑ i, ∑ j, y i j * (G i * G j)) (-G i) (x' i) := by
      simp only [sum_update]
      have := (((((hasDerivAt_id (x' i)).sub_const (x' i)).mul_const (G i)).const_add (∑ k, x' k * G k)).const_sub
        (m.discountRate t * t - m.discountRate T * T)).sub_const (1 / 2 * ∑ i, ∑ j, y i j * (G i * G j))
      simpa using this
    have h2 := h1.exp
    rw [Function.update_eq_self, ← hP] at h2
    exact h2.congr_of_eventuallyEq (Filter.Eventually.of_forall (fun s => hP _ _))
  · intro i j
    have h1 : HasDerivAt (fun s => m.discountRate t * t - m.discountRate T * T - (∑ k, Function.update x j s k * G k) -
        1 / 2 * ∑ i, ∑ j, y i j * (G i * G j)) (-G j) (x j) := by
      simp only [sum_update]
      have := (((((hasDerivAt_id (x j)).sub_const (x j)).mul_const (G j)).const_add (∑ k, x k * G k)).const_sub
        (m.discountRate t * t - m.discountRate T * T)).sub_const (1 / 2 * ∑ i, ∑ j, y i j * (G i * G j))
      simpa using this
    have h2 := h1.exp
    rw [Function.update_eq_self, ← hP] at h2
    have h3 := (h2.congr_of_eventuallyEq (Filter.Eventually.of_forall (fun s => hP (Function.update x j s) y))).mul_const (-G i)
    refine h3.congr_deriv ?_
    ring
  · exact fun i j => bondPrice_hasDerivAt_y m T t x y i j
  · simp only [hcov]
    have e1 : ∑ i, m.driftX x y i * (m.bondPrice t T x y * -G i) =
        m.bondPrice t T x y * (∑ i, m.meanReversion i * x i * G i - ∑ i, ∑ j, y i j * G i) := by
      rw [← Finset.sum_sub_distrib, Finset.mul_sum]
      refine Finset.sum_congr rfl (fun i _ => ?_)
      rw [← Finset.sum_mul]
      simp only [Hjm.driftX]
      ring
    have e2 : ∑ i, ∑ j, m.driftY t x y i j * (m.bondPrice t T x y * -(1 / 2 * (G i * G j))) + 1 / 2 * ∑ i, ∑ j,
        m.rho i j * (v i * v j) * (m.bondPrice t T x y * (G i * G j)) =
        m.bondPrice t T x y * (1 / 2 * ∑ i, ∑ j, (m.meanReversion i + m.meanReversion j) * y i j * (G i * G j)) := by
      rw [Finset.mul_sum, ← Finset.sum_add_distrib, Finset.mul_sum, Finset.mul_sum]
      refine Finset.sum_congr rfl (fun i _ => ?_)
      rw [Finset.mul_sum, ← Finset.sum_add_distrib, Finset.mul_sum, Finset.mul_sum]
      refine Finset.sum_congr rfl (fun j _ => ?_)
      simp only [Hjm.driftY, ← hv]
      ring
    have e3 : ∑ i, ∑ j, y i j * ((m.meanReversion i * G i - 1) * G j + G i * (m.meanReversion j * G j - 1)) =
        (∑ i, ∑ j, (m.meanReversion i + m.meanReversion j) * y i j * (G i * G j)) - 2 * ∑ i, ∑ j, y i j * G i := by
      have hsym : ∑ i, ∑ j, y i j * G j = ∑ i, ∑ j, y i j * G i := by
        rw [Finset.sum_comm]
        refine Finset.sum_congr rfl (fun i _ => Finset.sum_congr rfl (fun j _ => ?_))
        rw [hy j i]
      have : 2 * ∑ i, ∑ j, y i j * G i = ∑ i, ∑ j, (y i j * G i + y i j * G j) := by
        simp only [Finset.sum_add_distrib]
        rw [hsym]; ring
      rw [this, ← Finset.sum_sub_distrib]
      refine Finset.sum_congr rfl (fun i _ => ?_)
      rw [← Finset.sum_sub_distrib]
      refine Finset.sum_congr rfl (fun j _ => ?_)
      ring
    have e4 : ∑ i, x i * (m.meanReversion i * G i - 1) = (∑ i, m.meanReversion i * x i * G i) - ∑ i, x i := by
      rw [← Finset.sum_sub_distrib]
      refine Finset.sum_congr rfl (fun i _ => ?_)
      ring
    rw [add_assoc, e2, e1, e3, e4, Hjm.shortRate]
    ring

/-- C93.  A bond is worth one at maturity; for the zero state, in particular today, bond prices are those of the initial curve. -/
theorem C93_bond_ends (m : Hjm n) (t T : ℝ) (x : Fin n → ℝ) (y : Fin n → Fin n → ℝ) :
    m.bondPrice T T x y = 1 ∧
    m.bondPrice t T 0 0 = Real.exp (-m.discountRate T * T) / Real.exp (-m.discountRate t * t) ∧
    m.bondPrice 0 T 0 0 = Real.exp (-m.discountRate T * T) := by
  refine ⟨?_, ?_, ?_⟩ <;> simp [Hjm.bondPrice]

/-- C93.  The short rate is the forward rate for the time of the state. -/
theorem C93_short_rate (m : Hjm n) (hk : ∀ i, m.meanReversion i ≠ 0) (t : ℝ) (hR : DifferentiableAt ℝ m.discountRate t) (x : Fin n → ℝ)
    (y : Fin n → Fin n → ℝ) : HasDerivAt (fun T => -Real.log (m.bondPrice t T x y)) (m.shortRate t x) t := by
  have hf : HasDerivAt (fun s => m.discountRate s * s) (m.instantForwardRate t) t := by
    have h1 : HasDerivAt (fun s => -m.discountRate s * s) (deriv (fun s => -m.discountRate s * s) t) t :=
      ((hR.neg).mul differentiableAt_id).hasDerivAt
    unfold Hjm.instantForwardRate
    refine (h1.neg.congr_of_eventuallyEq (Filter.Eventually.of_forall (fun s => ?_)))
    simp
  have hg : ∀ i, HasDerivAt (fun T => hjmLoading (m.meanReversion i) (T - t)) 1 t := by
    intro i
    unfold hjmLoading
    have h1 : HasDerivAt (fun s : ℝ => -m.meanReversion i * (s - t)) (-m.meanReversion i) t := by
      have := ((hasDerivAt_id t).sub_const t).const_mul (-m.meanReversion i)
      simpa using this
    refine ((h1.exp.const_sub 1).div_const (m.meanReversion i)).congr_deriv ?_
    have := hk i
    simp [this]
  have hz : ∀ i, hjmLoading (m.meanReversion i) (t - t) = 0 := by intro i; simp [hjmLoading]
  have h2 : HasDerivAt (fun T => m.discountRate t * t - m.discountRate T * T - (∑ i, x i * hjmLoading (m.meanReversion i) (T - t)) -
      1 / 2 * ∑ i, ∑ j, y i j * (hjmLoading (m.meanReversion i) (T - t) * hjmLoading (m.meanReversion j) (T - t)))
      (-m.instantForwardRate t - (∑ i, x i * 1) - 1 / 2 * ∑ i : Fin n, ∑ j : Fin n, y i j * (1 * hjmLoading (m.meanReversion j) (t - t) +
        hjmLoading (m.meanReversion i) (t - t) * 1)) t := by
    refine ((hf.const_sub _).sub ?_).sub (HasDerivAt.const_mul _ ?_)
    · exact HasDerivAt.fun_sum (fun i _ => (hg i).const_mul _)
    · exact HasDerivAt.fun_sum (fun i _ => HasDerivAt.fun_sum (fun j _ => ((hg i).mul (hg j)).const_mul _))
  have h3 := h2.neg
  refine (h3.congr_of_eventuallyEq (Filter.Eventually.of_forall (fun T => ?_))).congr_deriv ?_
  · simp only [bondPrice_eq, Real.log_exp, Pi.neg_apply]
  · simp only [hz, mul_one, mul_zero, add_zero, Finset.sum_const_zero, Hjm.shortRate]
    ring

/-- C93.  The matrices `y` of all states of the sampler are symmetric. -/
theorem C93_symmetric (m : Hjm n) (hrho : ∀ i j, m.rho i j = m.rho j i) (t : ℝ) (l : List (ℝ × (Fin n → ℝ)))
    (s : (Fin n → ℝ) × (Fin n → Fin n → ℝ)) (hs : ∀ i j, s.2 i j = s.2 j i) :
    ∀ s' ∈ m.eulerStates t s l, ∀ i j, s'.2 i j = s'.2 j i := by
  induction l generalizing t s with
  | nil => intro s' h; simp only [Hjm.eulerStates, List.mem_singleton] at h; rw [h]; exact hs
  | cons q l ih =>
    obtain ⟨dt, z⟩ := q
    intro s' h
    rw [Hjm.eulerStates, List.mem_cons] at h
    rcases h with rfl | h
    · exact hs
    · refine ih _ _ ?_ s' h
      intro i j
      simp only [Hjm.eulerStep, Hjm.driftY]
      rw [hs i j, hrho i j, mul_comm (m.volatility t _ i), add_comm (m.meanReversion i)]

/-- C93.  The root of the correlation matrix: the matrix itself if its eigenvalues are at least `1e-5`, otherwise the one with all
eigenvalues raised to `1e-5`. -/
theorem C93_sqrt_partial (e : Fin n → ℝ) (v chol rho : Matrix (Fin n) (Fin n) ℝ) (hv : rho = v * Matrix.diagonal e * v.transpose)
    (hc : (∀ i, 1e-5 ≤ e i) → chol * chol.transpose = rho) :
    hjmSqrtMatrix e v chol * (hjmSqrtMatrix e v chol).transpose = v * Matrix.diagonal (fun i => max (e i) 1e-5) * v.transpose ∧
    ((∀ i, 1e-5 ≤ e i) → hjmSqrtMatrix e v chol * (hjmSqrtMatrix e v chol).transpose = rho) := by
  have h1 : (∀ i, 1e-5 ≤ e i) → hjmSqrtMatrix e v chol = chol := by
    intro h
    unfold hjmSqrtMatrix
    rw [if_neg (by push Not; exact h)]
  have h2 : (∀ i, 1e-5 ≤ e i) → hjmSqrtMatrix e v chol * (hjmSqrtMatrix e v chol).transpose = rho := fun h => by rw [h1 h, hc h]
  refine ⟨?_, h2⟩
  by_cases h : ∀ i, 1e-5 ≤ e i
  · rw [h2 h, hv]
    congr 3
    funext i
    exact (max_eq_left (h i)).symm
  · unfold hjmSqrtMatrix
    rw [if_pos (by push Not at h; exact h)]
    have hd : (Matrix.diagonal (fun i => max (e i) 1e-5)).map Real.sqrt = Matrix.diagonal (fun i => Real.sqrt (max (e i) 1e-5)) := by
      rw [Matrix.diagonal_map (by simp)]
    rw [hd, Matrix.transpose_mul, Matrix.diagonal_transpose, ← Matrix.mul_assoc, Matrix.mul_assoc v, Matrix.diagonal_mul_diagonal]
    congr 3
    funext i
    exact Real.mul_self_sqrt (le_trans (by norm_num) (le_max_right _ _))

/-- Deviation from C93: two perfectly correlated factors, with the eigenvalues 2 and 0, are simulated with the variances `1 + 5e-6`. -/
theorem C93_sqrt_perfect (chol : Matrix (Fin 2) (Fin 2) ℝ) :
    let c := Real.sqrt 2 / 2
    let v : Matrix (Fin 2) (Fin 2) ℝ := !![c, c; c, -c]
    let e : Fin 2 → ℝ := ![2, 0]
    v * Matrix.diagonal e * v.transpose = !![1, 1; 1, 1] ∧
    hjmSqrtMatrix e v chol * (hjmSqrtMatrix e v chol).transpose = !![1 + 5e-6, 1 - 5e-6; 1 - 5e-6, 1 + 5e-6] := by
  intro c v e
  have hcc : c * c = 1 / 2 := by
    have := Real.mul_self_sqrt (show (0 : ℝ) ≤ 2 by norm_num)
    simp only [c]; linarith
  have hve : v * Matrix.diagonal e * v.transpose = !![1, 1; 1, 1] := by
    ext i j
    fin_cases i <;> fin_cases j <;>
      · rw [Matrix.mul_apply, Fin.sum_univ_two, Matrix.mul_diagonal, Matrix.mul_diagonal]
        simp [v, e]
        nlinarith
  refine ⟨hve, ?_⟩
  rw [(C93_sqrt_partial e v chol _ rfl (fun h => by have := h 1; simp [e] at this; norm_num at this)).1]
  have hm : (fun i => max (e i) 1e-5) = ![2, 1e-5] := by
    funext i
    fin_cases i
    · simp [e]; norm_num
    · simp [e]; norm_num
  rw [hm]
  ext i j
  fin_cases i <;> fin_cases j <;>
    · rw [Matrix.mul_apply, Fin.sum_univ_two, Matrix.mul_diagonal, Matrix.mul_diagonal]
      simp [v]
      nlinarith

/-- C93.  Discount factors on a grid: the quasi-Gaussian model takes the rate at the end of each step, the Gaussian model the one at its
start. -/
theorem C93_discounts (times rates : List ℝ) (hl : rates.length = times.length) (i : Nat) (hi : i < times.length) :
    (quasiGaussianDiscounts times rates)[i]? =
      some (Real.exp (-∑ j ∈ Finset.range i, rates.getD (j + 1) 0 * (times.getD (j + 1) 0 - times.getD j 0))) ∧
    (gaussianDiscounts times rates)[i]? =
      some (Real.exp (-∑ j ∈ Finset.range i, rates.getD j 0 * (times.getD (j + 1) 0 - times.getD j 0))) := by
  obtain ⟨h1, h2⟩ := C56_path_discount_partial times rates hl i hi
  have hq : quasiGaussianDiscounts times rates = pathDiscountFactorsSum times rates := rfl
  refine ⟨by rw [hq, h2, h1], ?_⟩
  have hne : times ≠ [] := by rintro rfl; simp at hi
  have hlen := simulationSteps_length times hne
  set v := 1 :: List.zipWith (fun r dt => Real.exp (-r * dt)) rates.dropLast (simulationSteps times).tail with hv
  have hvl : v.length = times.length := by
    have : 0 < times.length := List.length_pos_of_ne_nil hne
    rw [hv]; simp [hl, hlen]; omega
  have hpos : ∀ a ∈ v, 0 < a := by
    intro a ha
    rw [hv, List.mem_cons] at ha
    rcases ha with rfl | ha
    · exact one_pos
    · obtain ⟨k, hk⟩ := List.mem_iff_getElem?.1 ha
      rw [List.getElem?_zipWith] at hk
      split at hk
      · simp only [Option.some.injEq] at hk; rw [← hk]; exact Real.exp_pos _
      · simp at hk
  have hg : gaussianDiscounts times rates = cumprodUsingMatvec v := rfl
  rw [hg, (C56_cumprod v hpos).2 i (by omega)]
  congr 1
  rw [← exp_sum_log _ (fun a ha => hpos a (List.mem_of_mem_take ha)), List.map_take, take_sum _ _ (by simp; omega),
    Finset.sum_range_succ']
  congr 1
  rw [← Finset.sum_neg_distrib]
  have h0 : (v.map Real.log).getD 0 0 = 0 := by simp [hv]
  rw [h0, add_zero]
  refine Finset.sum_congr rfl (fun j hj => ?_)
  have hj' := Finset.mem_range.1 hj
  have e1 : rates.dropLast[j]? = some (rates.getD j 0) := by
    rw [List.getElem?_dropLast, if_pos (by omega), getD_some _ _ (by omega)]
  have e2 : (simulationSteps times).tail[j]? = some (times.getD (j + 1) 0 - times.getD j 0) := by
    rw [List.getElem?_tail, getD_some _ _ (by omega), simulationSteps_getD times j (by omega)]
  rw [hv, List.map_cons, List.getD_cons_succ, List.getD_eq_getElem?_getD, List.getElem?_map, List.getElem?_zipWith, e1, e2]
  simp

/-- Conditions on two factors: common jumps, in order and not negative. -/
structure CommonJumps {n : Nat} (m : GaussianHjm n) (i j : Fin n) : Prop where
  mr : m.meanReversion i + m.meanReversion j ≠ 0
  same : m.jumps i = m.jumps j
  sorted : (m.jumps j).Pairwise (· < ·)
  nonneg : ∀ s ∈ m.jumps j, 0 ≤ s

section
variable {n : Nat} (m : GaussianHjm n) (i j : Fin n)

theorem gaussianVolatility_piece (i : Fin n) (hs : (m.jumps i).Pairwise (· < ·)) (k : Nat) (hk : k ≤ (m.jumps i).length) (s : ℝ)
    (h1 : 0 < k → (m.jumps i).getD (k - 1) 0 < s) (h2 : k < (m.jumps i).length → s ≤ (m.jumps i).getD k 0) :
    m.volatility s i = (m.values i).getD k 0 := by
  unfold GaussianHjm.volatility piecewiseConstant
  rw [if_pos rfl, searchLeft_of_piece _ hs k hk s h1 h2]

theorem gaussianVolatility_jump (i : Fin n) (hs : (m.jumps i).Pairwise (· < ·)) (k : Nat) (hk : k < (m.jumps i).length) :
    m.volatility ((m.jumps i).getD k 0) i = (m.values i).getD k 0 := by
  apply gaussianVolatility_piece m i hs k hk.le
  · intro h0
    have := List.pairwise_iff_getElem.1 hs (k - 1) k (by omega) hk (by omega)
    rwa [getD_of_some _ _ _ (List.getElem?_eq_getElem (show k - 1 < (m.jumps i).length by omega)),
      getD_of_some _ _ _ (List.getElem?_eq_getElem hk)]
  · intro _; exact le_rfl

theorem betweenKnots_getElem? (h : CommonJumps m i j) (k : Nat) (hk : k < (m.jumps j).length) :
    (m.betweenKnots i j)[k]? = some (m.integrateVolatilitySquared i j ((m.values i).getD k 0) ((m.values j).getD k 0)
      ((0 :: m.jumps j).getD k 0) ((m.jumps j).getD k 0)) := by
  have hi : k < (m.jumps i).length := by rw [h.same]; exact hk
  have hz : ((0 :: (m.jumps j).dropLast).zip (m.jumps j))[k]? = some ((0 :: m.jumps j).getD k 0, (m.jumps j).getD k 0) := by
    rw [zip_getD _ _ k (by simp; omega) hk]
    congr 2
    cases k with
    | zero => rfl
    | succ k =>
      rw [List.getD_cons_succ, List.getD_cons_succ, List.getD_eq_getElem?_getD, List.getElem?_dropLast, if_pos (by omega),
        List.getD_eq_getElem?_getD]
  have hv : (((m.jumps i).map (fun s => m.volatility s i)).zip ((m.jumps j).map (fun s => m.volatility s j)))[k]? =
      some ((m.values i).getD k 0, (m.values j).getD k 0) := by
    refine List.getElem?_zip_eq_some.2 ⟨?_, ?_⟩
    · rw [List.getElem?_map, getD_some _ k hi, Option.map_some, gaussianVolatility_jump m i (by rw [h.same]; exact h.sorted) k hi]
    · rw [List.getElem?_map, getD_some _ k hk, Option.map_some, gaussianVolatility_jump m j h.sorted k hk]
  unfold GaussianHjm.betweenKnots
  rw [List.getElem?_zipWith, hz, hv]

theorem betweenKnots_length (h : CommonJumps m i j) : (m.betweenKnots i j).length = (m.jumps j).length := by
  simp [GaussianHjm.betweenKnots, h.same]
  cases m.jumps j <;> simp

theorem integrateVolatilitySquared_eq (h : CommonJumps m i j) (a b l t : ℝ) :
    m.integrateVolatilitySquared i j a b l t =
      ∫ s in l..t, m.rho i j * (a * b) * Real.exp ((m.meanReversion i + m.meanReversion j) * s) := by
  have hk := h.mr
  rw [intervalIntegral.integral_const_mul, intervalIntegral.integral_eq_sub_of_hasDerivAt
    (f := fun s => Real.exp ((m.meanReversion i + m.meanReversion j) * s) / (m.meanReversion i + m.meanReversion j))]
  · simp only [GaussianHjm.integrateVolatilitySquared]
    field_simp
  · intro s _
    have h1 : HasDerivAt (fun s : ℝ => (m.meanReversion i + m.meanReversion j) * s) (m.meanReversion i + m.meanReversion j) s := by
      simpa using (hasDerivAt_id s).const_mul (m.meanReversion i + m.meanReversion j)
    refine (h1.exp.div_const _).congr_deriv ?_
    field_simp
  · apply Continuous.intervalIntegrable
    fun_prop

/-- The pieces of `state_y` add up to the integral. -/
theorem stateY_piece (h : CommonJumps m i j) (k : Nat) (hk : k ≤ (m.jumps j).length) (t : ℝ) (h1 : (0 :: m.jumps j).getD k 0 ≤ t)
    (h2 : k < (m.jumps j).length → t ≤ (m.jumps j).getD k 0) :
    m.integrateVolatilitySquared i j ((m.values i).getD k 0) ((m.values j).getD k 0) ((0 :: m.jumps j).getD k 0) t +
      (0 :: cumsumUsingMatvec (m.betweenKnots i j)).getD k 0 =
    ∫ s in (0 : ℝ)..t, m.rho i j * (m.volatility s i * m.volatility s j) * Real.exp ((m.meanReversion i + m.meanReversion j) * s) := by
  have hl := betweenKnots_length m i j h
  refine (accumulate (m.jumps j) h.sorted h.nonneg
    (fun s => m.rho i j * (m.volatility s i * m.volatility s j) * Real.exp ((m.meanReversion i + m.meanReversion j) * s))
    (fun k s => m.rho i j * ((m.values i).getD k 0 * (m.values j).getD k 0) * Real.exp ((m.meanReversion i + m.meanReversion j) * s))
    (fun k => by fun_prop) ?_
    (fun k t => m.integrateVolatilitySquared i j ((m.values i).getD k 0) ((m.values j).getD k 0) ((0 :: m.jumps j).getD k 0) t)
    (fun k _ t => integrateVolatilitySquared_eq m i j h _ _ _ t)
    (fun k => (0 :: cumsumUsingMatvec (m.betweenKnots i j)).getD k 0) rfl ?_ k hk t h1 h2).2
  · intro k hk s hs1 hs2
    have hq : 0 < k → (m.jumps j).getD (k - 1) 0 < s := by
      intro h0
      obtain ⟨k, rfl⟩ := Nat.exists_eq_succ_of_ne_zero h0.ne'
      simpa using hs1
    beta_reduce
    rw [gaussianVolatility_piece m j h.sorted k hk s hq hs2, gaussianVolatility_piece m i (by rw [h.same]; exact h.sorted) k
      (by rw [h.same]; exact hk) s (by rw [h.same]; exact hq) (by rw [h.same]; exact hs2)]
  · intro k hk
    have hc : ∀ k, k < (m.jumps j).length → (cumsumUsingMatvec (m.betweenKnots i j)).getD k 0 = ((m.betweenKnots i j).take (k + 1)).sum := by
      intro k hk
      rw [List.getD_eq_getElem?_getD, (C56_cumsum (m.betweenKnots i j)).2 k (by omega), Option.getD_some]
    have hb : (m.betweenKnots i j).getD k 0 = m.integrateVolatilitySquared i j ((m.values i).getD k 0) ((m.values j).getD k 0)
      ((0 :: m.jumps j).getD k 0) ((m.jumps j).getD k 0) := by
      rw [List.getD_eq_getElem?_getD, betweenKnots_getElem? m i j h k hk, Option.getD_some]
    beta_reduce
    rw [List.getD_cons_succ, hc k hk, ← hb]
    cases k with
    | zero =>
      rw [take_sum _ _ (by omega)]
      simp
    | succ k =>
      rw [List.getD_cons_succ, hc k (by omega), take_sum _ _ (by omega), take_sum _ _ (by omega), Finset.sum_range_succ _ (k + 1)]

/-- C93.  The matrix `y` of the Gaussian model, for volatilities with common jumps, is the covariance of the factors. -/
theorem C93_state_y_partial (h : CommonJumps m i j) (t : ℝ) (ht : 0 ≤ t) :
    m.stateY t i j = Spec.factorCovariance (m.rho i j) (m.meanReversion i + m.meanReversion j) (fun s => m.volatility s i)
      (fun s => m.volatility s j) t := by
  obtain ⟨h1, h2, h3⟩ := searchLeft_piece (m.jumps j) h.sorted t ht
  have hp := stateY_piece m i j h _ h1 t h2 h3
  have hvi : m.volatility t i = (m.values i).getD (searchLeft (m.jumps j) t) 0 := by
    rw [← h.same]; simp [GaussianHjm.volatility, piecewiseConstant]
  have hvj : m.volatility t j = (m.values j).getD (searchLeft (m.jumps j) t) 0 := by simp [GaussianHjm.volatility, piecewiseConstant]
  unfold GaussianHjm.stateY
  simp only
  rw [h.same, hvi, hvj, hp, Spec.factorCovariance, ← intervalIntegral.integral_const_mul]
  refine intervalIntegral.integral_congr (fun s _ => ?_)
  beta_reduce
  rw [mul_comm (m.rho i j * _), ← mul_assoc, ← Real.exp_add]
  have e : -(m.meanReversion i + m.meanReversion j) * t + (m.meanReversion i + m.meanReversion j) * s =
    -(m.meanReversion i + m.meanReversion j) * (t - s) := by ring
  rw [e]
  ring

/-- C93.  Between the jumps the matrix moves as in the sampler of the base class. -/
theorem C93_state_y_drift (h : CommonJumps m i j) (t : ℝ) (ht : 0 < t) (hj : t ∉ m.jumps j) (x : Fin n → ℝ) :
    HasDerivAt (fun s => m.stateY s i j) (m.toHjm.driftY t x (m.stateY t) i j) t := by
  obtain ⟨h1, h2, h3⟩ := searchLeft_piece (m.jumps j) h.sorted t ht.le
  set k := searchLeft (m.jumps j) t with hk
  have h2' : (0 :: m.jumps j).getD k 0 < t := by
    rcases lt_or_eq_of_le h2 with h | h
    · exact h
    · exfalso
      cases hi' : k with
      | zero => rw [hi'] at h; simp at h; linarith
      | succ l =>
        rw [hi', List.getD_cons_succ] at h
        exact hj (h ▸ List.mem_of_getElem? (getD_some (m.jumps j) l (by omega)))
  have h3' : k < (m.jumps j).length → t < (m.jumps j).getD k 0 := by
    intro hlt
    rcases lt_or_eq_of_le (h3 hlt) with h | h
    · exact h
    · exact absurd (h ▸ List.mem_of_getElem? (getD_some (m.jumps j) k hlt)) hj
  have hpiece : ∀ s, (0 :: m.jumps j).getD k 0 < s → (k < (m.jumps j).length → s < (m.jumps j).getD k 0) →
      searchLeft (m.jumps j) s = k := by
    intro s a b
    refine searchLeft_of_piece (m.jumps j) h.sorted k h1 s (fun h0 => ?_) (fun h => (b h).le)
    obtain ⟨l, hl⟩ := Nat.exists_eq_succ_of_ne_zero h0.ne'
    rw [hl] at a ⊢
    simpa using a
  set A := (0 :: cumsumUsingMatvec (m.betweenKnots i j)).getD k 0 with hA
  set c := (0 :: m.jumps j).getD k 0 with hc
  have hev : ∀ᶠ s in nhds t, m.stateY s i j = Real.exp (-(m.meanReversion i + m.meanReversion j) * s) *
      (m.integrateVolatilitySquared i j (m.volatility t i) (m.volatility t j) c s + A) := by
    have e2 : ∀ᶠ s in nhds t, k < (m.jumps j).length → s < (m.jumps j).getD k 0 := by
      by_cases hlt : k < (m.jumps j).length
      · filter_upwards [eventually_lt_nhds (h3' hlt)] with s hs _ using hs
      · exact Filter.Eventually.of_forall (fun s h => absurd h hlt)
    filter_upwards [eventually_gt_nhds h2', e2] with s a b
    have hs := hpiece s a b
    unfold GaussianHjm.stateY GaussianHjm.volatility piecewiseConstant
    simp only [if_true]
    rw [h.same, hs, ← hk]
  have hY : m.stateY t i j = _ := hev.self_of_nhds
  have hd : HasDerivAt (fun s => Real.exp (-(m.meanReversion i + m.meanReversion j) * s) *
      (m.integrateVolatilitySquared i j (m.volatility t i) (m.volatility t j) c s + A)) (m.toHjm.driftY t x (m.stateY t) i j) t := by
    have hr := h.mr
    have e1 : HasDerivAt (fun s : ℝ => -(m.meanReversion i + m.meanReversion j) * s) (-(m.meanReversion i + m.meanReversion j)) t := by
      simpa using (hasDerivAt_id t).const_mul (-(m.meanReversion i + m.meanReversion j))
    have e2 : HasDerivAt (fun s : ℝ => (m.meanReversion i + m.meanReversion j) * s) (m.meanReversion i + m.meanReversion j) t := by
      simpa using (hasDerivAt_id t).const_mul (m.meanReversion i + m.meanReversion j)
    have e3 : HasDerivAt (fun s => m.integrateVolatilitySquared i j (m.volatility t i) (m.volatility t j) c s + A)
        (m.rho i j * (m.volatility t i * m.volatility t j) * Real.exp ((m.meanReversion i + m.meanReversion j) * t)) t := by
      unfold GaussianHjm.integrateVolatilitySquared
      refine (((e2.exp.sub_const _).const_mul _).add_const _).congr_deriv ?_
      field_simp
    refine (e1.exp.mul e3).congr_deriv ?_
    have hee : Real.exp (-(m.meanReversion i + m.meanReversion j) * t) * Real.exp ((m.meanReversion i + m.meanReversion j) * t) = 1 := by
      rw [← Real.exp_add, neg_mul, neg_add_cancel, Real.exp_zero]
    simp only [Hjm.driftY, GaussianHjm.toHjm]
    rw [hY]
    linear_combination (m.rho i j * (m.volatility t i * m.volatility t j)) * hee
  exact hd.congr_of_eventuallyEq hev

theorem stateY_symm (h : ∀ i j, CommonJumps m i j) (hrho : ∀ i j, m.rho i j = m.rho j i) (t : ℝ) (ht : 0 ≤ t) (i j : Fin n) :
    m.stateY t i j = m.stateY t j i := by
  rw [C93_state_y_partial m i j (h i j) t ht, C93_state_y_partial m j i (h j i) t ht]
  unfold factorCovariance
  refine intervalIntegral.integral_congr (fun s _ => ?_)
  beta_reduce
  rw [hrho i j, add_comm (m.meanReversion i)]
  ring

/-- C93.  Bond prices of the Gaussian model, for volatilities with common jumps, solve the pricing equation of its one state `x`. -/
theorem C93_gaussian_bond (h : ∀ i j, CommonJumps m i j) (hk : ∀ i, m.meanReversion i ≠ 0)
    (hrho : m.sqrtRho * m.sqrtRho.transpose = m.rho) (T t : ℝ) (ht : 0 < t) (hj : ∀ j, t ∉ m.jumps j)
    (hR : DifferentiableAt ℝ m.discountRate t) (x : Fin n → ℝ) :
    SolvesPricing (fun t x _ => m.discountBondPrice x t T) t x 0 (m.drift t x) 0
      (fun i j => ∑ k, m.toHjm.diffusion t x i k * m.toHjm.diffusion t x j k) (m.toHjm.shortRate t x) := by
  have hsym : ∀ i j, m.rho i j = m.rho j i := by
    intro i j
    rw [← hrho, Matrix.mul_apply, Matrix.mul_apply]
    refine Finset.sum_congr rfl (fun k _ => ?_)
    simp only [Matrix.transpose_apply]
    ring
  have hY : ∀ s, 0 ≤ s → (fun i j => m.stateY s j i) = m.stateY s := by
    intro s hs
    funext i j
    exact stateY_symm m h hsym s hs j i
  obtain ⟨Pt, Px, Py, Pxx, e1, e2, e3, e4, e5⟩ := C93_bond_equation m.toHjm hk hrho T t hR x (m.stateY t)
    (stateY_symm m h hsym t ht.le)
  set P := m.toHjm.bondPrice t T x (m.stateY t) with hPdef
  set g : ℝ → Fin n → ℝ := fun s i => hjmLoading (m.meanReversion i) (T - s) with hg
  have hPy : ∀ i j, Py i j = P * -(1 / 2 * (g t i * g t j)) := fun i j =>
    (e4 i j).unique (bondPrice_hasDerivAt_y m.toHjm T t x (m.stateY t) i j)
  have hgd : ∀ i, DifferentiableAt ℝ (fun s => g s i) t := fun i => (hjmLoading_deriv _ T t (hk i)).differentiableAt
  have hgd' : ∀ i, HasDerivAt (fun s => g s i) (deriv (fun s => g s i) t) t := fun i => (hgd i).hasDerivAt
  have hq : HasDerivAt (fun s => -(1 / 2) * ∑ i, ∑ j, (m.stateY s i j - m.stateY t i j) * (g s i * g s j))
      (-(1 / 2) * ∑ i, ∑ j, m.toHjm.driftY t x (m.stateY t) i j * (g t i * g t j)) t := by
    refine HasDerivAt.const_mul _ (HasDerivAt.fun_sum (fun i _ => HasDerivAt.fun_sum (fun j _ => ?_)))
    refine (((C93_state_y_drift m i j (h i j) t ht (hj j) x).sub_const _).mul ((hgd' i).mul (hgd' j))).congr_deriv ?_
    simp
  have htot := e1.mul hq.exp
  refine ⟨Pt + ∑ i, ∑ j, m.toHjm.driftY t x (m.stateY t) i j * Py i j, Px, 0, Pxx, ?_, ?_, e3, ?_, ?_⟩
  · have hev : ∀ᶠ s in nhds t, m.discountBondPrice x s T = m.toHjm.bondPrice s T x (m.stateY t) *
        Real.exp (-(1 / 2) * ∑ i, ∑ j, (m.stateY s i j - m.stateY t i j) * (g s i * g s j)) := by
      filter_upwards [eventually_gt_nhds ht] with s hs
      unfold GaussianHjm.discountBondPrice
      rw [hY s hs.le, bondPrice_eq, bondPrice_eq, ← Real.exp_add]
      congr 1
      have : ∑ i, ∑ j, (m.stateY s i j - m.stateY t i j) * (g s i * g s j) =
          ∑ i, ∑ j, m.stateY s i j * (g s i * g s j) - ∑ i, ∑ j, m.stateY t i j * (g s i * g s j) := by
        simp only [sub_mul, Finset.sum_sub_distrib]
      rw [this]
      simp only [hg, GaussianHjm.toHjm]
      ring
    refine (htot.congr_of_eventuallyEq hev).congr_deriv ?_
    simp only [sub_self, zero_mul, Finset.sum_const_zero, mul_zero, Real.exp_zero, mul_one, one_mul, hPy]
    congr 1
    rw [← hPdef, Finset.mul_sum, Finset.mul_sum]
    refine Finset.sum_congr rfl (fun i _ => ?_)
    rw [Finset.mul_sum, Finset.mul_sum]
    refine Finset.sum_congr rfl (fun j _ => ?_)
    ring
  · intro x' i
    have := e2 x' i
    unfold GaussianHjm.discountBondPrice
    simp only [hY t ht.le]
    exact this
  · intro i j
    exact hasDerivAt_const _ _
  · have hdr : m.drift t x = m.toHjm.driftX x (m.stateY t) := rfl
    have hb : m.discountBondPrice x t T = P := by
      unfold GaussianHjm.discountBondPrice
      rw [hY t ht.le]
    beta_reduce at e5 ⊢
    rw [hdr, hb, hPdef, ← e5]
    simp only [Pi.zero_apply, mul_zero, Finset.sum_const_zero]
    ring

end

/-- Deviation from C93: two factors with constant volatilities one, correlation one and mean reversions 1/2, given with jumps at 1 and at 2.
At the time 3/2 the covariance is `1 - e^{-3/2}`, but the matrix has a larger and a smaller value, and is not symmetric. -/
theorem C93_jumps :
    let m : GaussianHjm 2 := ⟨fun _ => 1 / 2, ![[1], [2]], fun _ => [1, 1], fun _ _ => 1, 1, fun _ => 0⟩
    factorCovariance 1 1 (fun _ => 1) (fun _ => 1) (3 / 2) = 1 - Real.exp (-(3 / 2)) ∧
    m.stateY (3 / 2) 0 1 = 1 - Real.exp (-(3 / 2)) + (Real.exp (1 / 2) - Real.exp (-(3 / 2))) ∧
    m.stateY (3 / 2) 1 0 = 1 - Real.exp (-(1 / 2)) ∧
    m.stateY (3 / 2) 1 0 < m.stateY (3 / 2) 0 1 := by
  intro m
  have hv : ∀ (t : ℝ) (i : Fin 2), m.volatility t i = 1 := by
    intro t i
    fin_cases i
    · by_cases h : 1 < t <;> simp [m, GaussianHjm.volatility, piecewiseConstant, searchLeft, List.takeWhile_cons, h]
    · by_cases h : 2 < t <;> simp [m, GaussianHjm.volatility, piecewiseConstant, searchLeft, List.takeWhile_cons, h]
  have e1 : Real.exp (-(3 / 2)) * Real.exp (3 / 2) = 1 := by rw [← Real.exp_add]; simp
  have e2 : Real.exp (-(3 / 2)) * Real.exp 2 = Real.exp (1 / 2) := by rw [← Real.exp_add]; norm_num
  have e3 : Real.exp (-(3 / 2)) * Real.exp 1 = Real.exp (-(1 / 2)) := by rw [← Real.exp_add]; norm_num
  have a : m.stateY (3 / 2) 0 1 = 1 - Real.exp (-(3 / 2)) + (Real.exp (1 / 2) - Real.exp (-(3 / 2))) := by
    unfold GaussianHjm.stateY GaussianHjm.betweenKnots GaussianHjm.integrateVolatilitySquared
    simp only [hv]
    have s1 : searchLeft (m.jumps 0) (3 / 2) = 1 := by simp [m, searchLeft]; norm_num
    have s2 : searchLeft (m.jumps 1) (3 / 2) = 0 := by simp [m, searchLeft]; norm_num
    rw [s1, s2]
    simp [m, cumsumUsingMatvec, matVec, lowerTriangle, List.range_succ]
    norm_num
    linear_combination e1 + e2
  have b : m.stateY (3 / 2) 1 0 = 1 - Real.exp (-(1 / 2)) := by
    unfold GaussianHjm.stateY GaussianHjm.betweenKnots GaussianHjm.integrateVolatilitySquared
    simp only [hv]
    have s1 : searchLeft (m.jumps 0) (3 / 2) = 1 := by simp [m, searchLeft]; norm_num
    have s2 : searchLeft (m.jumps 1) (3 / 2) = 0 := by simp [m, searchLeft]; norm_num
    rw [s1, s2]
    simp [m]
    norm_num
    linear_combination e1 - e3
  refine ⟨?_, a, b, ?_⟩
  · have h : ∀ u ∈ Set.uIcc (0 : ℝ) (3 / 2), HasDerivAt (fun u : ℝ => Real.exp (-1 * (3 / 2 - u))) (Real.exp (-1 * (3 / 2 - u)) * (1 * 1 * 1)) u := by
      intro u _
      have h1 : HasDerivAt (fun u : ℝ => -1 * (3 / 2 - u)) 1 u := by
        simpa using ((hasDerivAt_id u).const_sub (3 / 2 : ℝ)).const_mul (-1)
      refine h1.exp.congr_deriv ?_
      ring
    unfold factorCovariance
    rw [intervalIntegral.integral_eq_sub_of_hasDerivAt h (Continuous.intervalIntegrable (by fun_prop) _ _)]
    norm_num
  · rw [a, b]
    have h1 : Real.exp (-(3 / 2)) < Real.exp (-(1 / 2)) := Real.exp_lt_exp.2 (by norm_num)
    have h2 : Real.exp (-(3 / 2)) < 1 := by rw [← Real.exp_zero]; exact Real.exp_lt_exp.2 (by norm_num)
    have h3 : 1 < Real.exp (1 / 2) := by rw [← Real.exp_zero]; exact Real.exp_lt_exp.2 (by norm_num)
    nlinarith [Real.exp_pos (-(1 / 2)), Real.add_one_le_exp (1/2 : ℝ), Real.add_one_le_exp (3/2 : ℝ), Real.exp_pos (-(3/2))]

/-! Examples. -/

/-- Two factors with a jump at one. -/
noncomputable def exHjm : GaussianHjm 2 :=
  ⟨![1 / 10, 1 / 2], fun _ => [1], ![[1 / 100, 2 / 100], [1 / 50, 1 / 100]], !![1, 3 / 5; 3 / 5, 1], !![1, 0; 3 / 5, 4 / 5], fun _ => 1 / 20⟩

theorem exHjm_common (i j : Fin 2) : CommonJumps exHjm i j := by
  refine ⟨?_, rfl, by simp [exHjm], by simp [exHjm]⟩
  fin_cases i <;> fin_cases j <;> norm_num [exHjm]

example : exHjm.sqrtRho * exHjm.sqrtRho.transpose = exHjm.rho := by
  ext i j
  fin_cases i <;> fin_cases j <;> norm_num [exHjm, Matrix.mul_apply, Fin.sum_univ_two]

example (x : Fin 2 → ℝ) : SolvesPricing (fun t x _ => exHjm.discountBondPrice x t 5) 2 x 0 (exHjm.drift 2 x) 0
    (fun i j => ∑ k, exHjm.toHjm.diffusion 2 x i k * exHjm.toHjm.diffusion 2 x j k) (exHjm.toHjm.shortRate 2 x) := by
  refine C93_gaussian_bond exHjm exHjm_common ?_ ?_ 5 2 (by norm_num) (by simp [exHjm]) (by simp [exHjm]) x
  · intro i; fin_cases i <;> norm_num [exHjm]
  · ext i j
    fin_cases i <;> fin_cases j <;> norm_num [exHjm, Matrix.mul_apply, Fin.sum_univ_two]

example : (quasiGaussianDiscounts [0, 1, 3] [1 / 20, 1 / 10, 1 / 5])[2]? = some (Real.exp (-(1 / 2))) := by
  rw [(C93_discounts [0, 1, 3] [1 / 20, 1 / 10, 1 / 5] rfl 2 (by decide)).1]
  norm_num [Finset.sum_range_succ]

example : (gaussianDiscounts [0, 1, 3] [1 / 20, 1 / 10, 1 / 5])[2]? = some (Real.exp (-(1 / 4))) := by
  rw [(C93_discounts [0, 1, 3] [1 / 20, 1 / 10, 1 / 5] rfl 2 (by decide)).2]
  norm_num [Finset.sum_range_succ]

end Props
