import Verif.Lemmas.Parabolic
import Verif.Props.FdSolvers
import Mathlib.Analysis.SpecialFunctions.Exp
import Mathlib.Tactic.Positivity

/-! # C48 Order of convergence and damping of the time marching schemes -/

namespace Spec
open Model

/-- Amplification factors for `z = lambda (t2 - t1)`. -/
noncomputable def weightedFactor (theta z : ℝ) : ℝ := (1 + theta * z) / (1 - (1 - theta) * z)
noncomputable def extrapolationFactor (z : ℝ) : ℝ := 2 / (1 - z / 2) ^ 2 - 1 / (1 - z)

/-- Product of row `j` of a tridiagonal matrix with a vector. -/
def rowProduct {K : Type} [Field K] (m : Tridiag K) (v : List K) (j : Nat) : K :=
  m.lower.getD j 0 * (if j = 0 then 0 else v.getD (j - 1) 0) + m.diag.getD j 0 * v.getD j 0 +
    m.upper.getD j 0 * v.getD (j + 1) 0

/-- `dv/dt = A v` with an eigenvector `v`: the matrix may depend on time, but `A v = lambda v` always. -/
def Eigen {K : Type} [Field K] (params : K → Option (Tridiag K × List K)) (lambda : K) (v : List K) : Prop :=
  ∀ t, ∃ m b, params t = some (m, b) ∧ m.diag.length = v.length ∧ m.upper.length = v.length ∧ m.lower.length = v.length ∧
    b = List.replicate v.length 0 ∧ ∀ j, j < v.length → rowProduct m v j = lambda * v.getD j 0

end Spec

namespace Lemmas
open Model Spec

section
variable {K : Type} [Field K] [LinearOrder K] [IsStrictOrderedRing K]

omit [LinearOrder K] [IsStrictOrderedRing K] in
theorem rowApply_scale (m : Tridiag K) (v : List K) (r : K) (j : Nat) : rowApply m (v.map (fun a => r * a)) j = r * rowApply m v j := by
  have g : ∀ i, (v.map (fun a => r * a)).getD i 0 = r * v.getD i 0 := by
    intro i
    rw [List.getD_eq_getElem?_getD, List.getD_eq_getElem?_getD, List.getElem?_map]
    cases v[i]? <;> simp
  unfold rowApply
  rw [g, g, g]
  split <;> ring

theorem weighted_eigen (theta t1 t2 lambda rho : K) (params : K → Option (Tridiag K × List K)) (v out : List K) (hv : 0 < v.length)
    (he : Eigen params lambda v) (hne : 1 - (1 - theta) * (lambda * (t2 - t1)) ≠ 0)
    (h : weightedScheme theta (v.map (fun a => rho * a)) t1 t2 params = some out) :
    out = v.map (fun a => ((1 + theta * (lambda * (t2 - t1))) / (1 - (1 - theta) * (lambda * (t2 - t1))) * rho) * a) := by
  obtain ⟨m, b, hp, h1, h2, h3, hb, hrow⟩ := he ((t1 + t2) / 2)
  refine weightedScheme_unique theta _ out t1 t2 params m b v.length hv hp ⟨h1, h2, h3⟩ (by rw [hb]; simp) (by simp) h _ (by simp) ?_
  intro j hj
  have hr : rowApply m v j = lambda * v.getD j 0 := hrow j hj
  have hb0 : b.getD j 0 = 0 := by rw [hb]; simp
  rw [rowApply_scale, rowApply_scale, hr, hb0, getD_map_zero _ _ _ hj, getD_map_zero _ _ _ hj]
  generalize v.getD j 0 = a
  have hR := div_mul_cancel₀ (1 + theta * (lambda * (t2 - t1))) hne
  linear_combination (rho * a) * hR

theorem extrapolation_eigen (t1 t2 lambda rho : K) (params : K → Option (Tridiag K × List K)) (v out : List K) (hv : 0 < v.length)
    (he : Eigen params lambda v) (hz : lambda * (t2 - t1) ≤ 0)
    (h : extrapolationScheme (v.map (fun a => rho * a)) t1 t2 params = some out) :
    out = v.map (fun a => ((2 / (1 - lambda * (t2 - t1) / 2) ^ 2 - 1 / (1 - lambda * (t2 - t1))) * rho) * a) := by
  unfold extrapolationScheme implicitScheme at h
  simp only [Option.bind_eq_bind, Option.bind_eq_some_iff, Option.some.injEq] at h
  obtain ⟨first, hf, two, ht, full, hfu, rfl⟩ := h
  have e1 : lambda * ((t1 + t2) / 2 - t1) = lambda * (t2 - t1) / 2 := by ring
  have e2 : lambda * (t2 - (t1 + t2) / 2) = lambda * (t2 - t1) / 2 := by ring
  have n1 : 1 - lambda * (t2 - t1) / 2 ≠ 0 := by
    have : 0 < 1 - lambda * (t2 - t1) / 2 := by linarith
    exact this.ne'
  have n2 : 1 - lambda * (t2 - t1) ≠ 0 := by
    have : 0 < 1 - lambda * (t2 - t1) := by linarith
    exact this.ne'
  have hf' := weighted_eigen 0 _ _ lambda rho params v first hv he (by rw [e1]; simpa using n1) hf
  rw [hf'] at ht
  have ht' := weighted_eigen 0 _ _ lambda _ params v two hv he (by rw [e2]; simpa using n1) ht
  have hfu' := weighted_eigen 0 _ _ lambda rho params v full hv he (by simpa using n2) hfu
  rw [ht', hfu', e1, e2]
  rw [List.zipWith_map_left, List.zipWith_map_right, List.zipWith_self]
  apply List.map_congr_left
  intro a _
  simp only [zero_mul, add_zero, sub_zero, one_mul]
  generalize lambda * (t2 - t1) = z at *
  field_simp

end

theorem exp_taylor (z : ℝ) (hz : |z| ≤ 1) : |Real.exp z - (1 + z + z ^ 2 / 2)| ≤ |z| ^ 3 * (2 / 9) := by
  have := Real.exp_bound hz (n := 3) (by norm_num)
  simp [Finset.sum_range_succ, Nat.factorial] at this
  norm_num at this
  convert this using 2

theorem crankNicolson_factor (z : ℝ) (hz : |z| ≤ 1) : |weightedFactor (1 / 2) z - Real.exp z| ≤ |z| ^ 3 := by
  have h1 := exp_taylor z hz
  have hz' := abs_le.1 hz
  have hd : 0 < 1 - z / 2 := by linarith [hz'.2]
  have hd' : 2 - z ≠ 0 := by intro hc; linarith [hz'.2]
  have e : weightedFactor (1 / 2) z - (1 + z + z ^ 2 / 2) = z ^ 3 * (1 / (4 * (1 - z / 2))) := by
    unfold weightedFactor
    have : (1 : ℝ) - (1 - 1 / 2) * z = 1 - z / 2 := by ring
    rw [this]
    field_simp
    ring
  have h2 : |weightedFactor (1 / 2) z - (1 + z + z ^ 2 / 2)| ≤ |z| ^ 3 * (1 / 2) := by
    rw [e, abs_mul, abs_pow]
    apply mul_le_mul_of_nonneg_left _ (by positivity)
    rw [abs_of_pos (by positivity), div_le_div_iff₀ (by positivity) (by norm_num)]
    linarith [hz'.2]
  have h3 : weightedFactor (1 / 2) z - Real.exp z = (weightedFactor (1 / 2) z - (1 + z + z ^ 2 / 2)) - (Real.exp z - (1 + z + z ^ 2 / 2)) := by ring
  rw [h3]
  refine (abs_sub _ _).trans ?_
  have : 0 ≤ |z| ^ 3 := by positivity
  linarith

theorem extrapolation_factor (z : ℝ) (hz : |z| ≤ 1 / 2) : |extrapolationFactor z - Real.exp z| ≤ |z| ^ 3 := by
  have h1 := exp_taylor z (by linarith)
  have hz' := abs_le.1 hz
  have hd : 0 < 1 - z / 2 := by linarith [hz'.2]
  have hd' : 2 - z ≠ 0 := by intro hc; linarith [hz'.2]
  have hd2 : 0 < 1 - z := by linarith [hz'.2]
  have e : extrapolationFactor z - (1 + z + z ^ 2 / 2) = z ^ 3 * ((-(3 / 8) * z + z ^ 2 / 8) / ((1 - z / 2) ^ 2 * (1 - z))) := by
    unfold extrapolationFactor
    field_simp
    ring
  have h2 : |extrapolationFactor z - (1 + z + z ^ 2 / 2)| ≤ |z| ^ 3 * (7 / 9) := by
    rw [e, abs_mul, abs_pow]
    apply mul_le_mul_of_nonneg_left _ (by positivity)
    rw [abs_div, abs_of_pos (show 0 < (1 - z / 2) ^ 2 * (1 - z) by positivity), div_le_iff₀ (by positivity)]
    have a1 : |-(3 / 8) * z + z ^ 2 / 8| ≤ 7 / 32 := by
      rw [abs_le]; constructor <;> nlinarith
    have a2 : 9 / 32 ≤ (1 - z / 2) ^ 2 * (1 - z) := by
      have b1 : 9 / 16 ≤ (1 - z / 2) ^ 2 := by nlinarith
      have b2 : 1 / 2 ≤ 1 - z := by linarith
      nlinarith
    linarith
  have h3 : extrapolationFactor z - Real.exp z = (extrapolationFactor z - (1 + z + z ^ 2 / 2)) - (Real.exp z - (1 + z + z ^ 2 / 2)) := by ring
  rw [h3]
  refine (abs_sub _ _).trans ?_
  have : 0 ≤ |z| ^ 3 := by positivity
  linarith

theorem weightedFactor_le_one (theta z : ℝ) (h1 : theta ≤ 1 / 2) (hz : z ≤ 0) : |weightedFactor theta z| ≤ 1 := by
  unfold weightedFactor
  have hd : 0 < 1 - (1 - theta) * z := by nlinarith
  rw [abs_div, abs_of_pos hd, div_le_one hd, abs_le]
  constructor <;> nlinarith

theorem extrapolationFactor_le_one (z : ℝ) (hz : z ≤ 0) : |extrapolationFactor z| ≤ 1 := by
  unfold extrapolationFactor
  have hd : 0 < 1 - z / 2 := by linarith
  have hd' : 2 - z ≠ 0 := by intro hc; linarith
  have hd2 : 0 < 1 - z := by linarith
  have e : 2 / (1 - z / 2) ^ 2 - 1 / (1 - z) = (1 - z - z ^ 2 / 4) / ((1 - z / 2) ^ 2 * (1 - z)) := by field_simp; ring
  have hden : 1 - z - z ^ 2 / 4 ≤ (1 - z / 2) ^ 2 * (1 - z) ∧ -(1 - z - z ^ 2 / 4) ≤ (1 - z / 2) ^ 2 * (1 - z) := by
    have h0 : 0 ≤ -z := by linarith
    have h3 : 0 ≤ (-z) ^ 3 := by positivity
    constructor <;> nlinarith [sq_nonneg z]
  have hp : 0 < (1 - z / 2) ^ 2 * (1 - z) := by positivity
  rw [e, abs_div, abs_of_pos hp, div_le_one hp, abs_le]
  exact ⟨by linarith [hden.2], hden.1⟩

end Lemmas

namespace Props
open Model Lemmas Spec

/-- C48: one step multiplies an eigenvector of the space discretization by a rational function of `z`. -/
theorem C48_weighted_factor (theta t1 t2 lambda : ℝ) (params : ℝ → Option (Tridiag ℝ × List ℝ)) (v out : List ℝ) (hv : 0 < v.length)
    (he : Eigen params lambda v) (hz : lambda * (t2 - t1) ≤ 0) (h : weightedScheme theta v t1 t2 params = some out) :
    out = v.map (fun a => weightedFactor theta (lambda * (t2 - t1)) * a) := by
  have hth : theta ≤ 1 := by
    obtain ⟨m, b, hp, h1, h2, h3, hb, _⟩ := he ((t1 + t2) / 2)
    exact (weightedScheme_solves theta v out t1 t2 params m b v.length hv hp ⟨h1, h2, h3⟩ (by rw [hb]; simp) rfl h).2.1
  have := weighted_eigen theta t1 t2 lambda 1 params v out hv he (by
    have : 0 ≤ (1 - theta) * -(lambda * (t2 - t1)) := mul_nonneg (by linarith) (by linarith)
    intro hc; linarith) (by simpa using h)
  simpa [weightedFactor] using this

theorem C48_extrapolation_factor (t1 t2 lambda : ℝ) (params : ℝ → Option (Tridiag ℝ × List ℝ)) (v out : List ℝ) (hv : 0 < v.length)
    (he : Eigen params lambda v) (hz : lambda * (t2 - t1) ≤ 0) (h : extrapolationScheme v t1 t2 params = some out) :
    out = v.map (fun a => extrapolationFactor (lambda * (t2 - t1)) * a) := by
  have := extrapolation_eigen t1 t2 lambda 1 params v out hv he hz (by simpa using h)
  simpa [extrapolationFactor] using this

/-- C48: the implicit, Crank-Nicolson and extrapolation schemes are stable for every step size: no component grows. -/
theorem C48_stable (theta z : ℝ) (h1 : theta ≤ 1 / 2) (hz : z ≤ 0) :
    |weightedFactor theta z| ≤ 1 ∧ |extrapolationFactor z| ≤ 1 :=
  ⟨weightedFactor_le_one theta z h1 hz, extrapolationFactor_le_one z hz⟩

/-- C48: stiff components are damped by the extrapolation scheme, while Crank-Nicolson lets them oscillate. -/
theorem C48_damping : Filter.Tendsto extrapolationFactor Filter.atBot (nhds 0) ∧ Filter.Tendsto (weightedFactor (1 / 2)) Filter.atBot (nhds (-1)) := by
  have hlin : ∀ a : ℝ, 0 < a → Filter.Tendsto (fun z : ℝ => 1 - a * z) Filter.atBot Filter.atTop := by
    intro a ha
    have h1 : Filter.Tendsto (fun z : ℝ => (-a) * z) Filter.atBot Filter.atTop :=
      (Filter.tendsto_const_mul_atTop_of_neg (by linarith)).2 Filter.tendsto_id
    have := Filter.tendsto_atTop_add_const_left Filter.atBot (1 : ℝ) h1
    refine this.congr (fun z => by ring)
  have hinv : ∀ a : ℝ, 0 < a → Filter.Tendsto (fun z : ℝ => (1 - a * z)⁻¹) Filter.atBot (nhds 0) := fun a ha =>
    (hlin a ha).inv_tendsto_atTop
  constructor
  · have h1 := ((hinv (1 / 2) (by norm_num)).pow 2).const_mul 2
    have h2 := (h1.sub (hinv 1 (by norm_num)))
    simp only [ne_eq, OfNat.ofNat_ne_zero, not_false_eq_true, zero_pow, mul_zero, sub_zero] at h2
    refine h2.congr (fun z => ?_)
    unfold extrapolationFactor
    rw [show (1 : ℝ) - 1 / 2 * z = 1 - z / 2 by ring, inv_pow, one_mul, div_eq_mul_inv 2, one_div]
  · have h1 := ((hinv (1 / 2) (by norm_num)).const_mul 2).add_const (-1)
    simp only [mul_zero, zero_add] at h1
    refine Filter.Tendsto.congr' ?_ h1
    filter_upwards [Filter.eventually_lt_atBot (0 : ℝ)] with z hz
    unfold weightedFactor
    have : (1 : ℝ) - 1 / 2 * z ≠ 0 := by
      have : 0 < (1 : ℝ) - 1 / 2 * z := by linarith
      exact this.ne'
    have h2 : (1 : ℝ) - (1 - 1 / 2) * z = 1 - 1 / 2 * z := by ring
    have h3 : 2 - z ≠ 0 := by intro hc; linarith
    rw [h2]
    field_simp
    ring

/-- A step that multiplies an eigenvector by a factor close to the exponential. -/
def SecondOrderStep (step : ℝ → ℝ → Nat → List ℝ → Option (List ℝ)) (lambda : ℝ) (v : List ℝ) : Prop :=
  ∀ t1 t2 k rho out, lambda * (t2 - t1) ≤ 0 → |lambda * (t2 - t1)| ≤ 1 / 2 → step t1 t2 k (v.map (fun a => rho * a)) = some out →
    ∃ r, out = v.map (fun a => (r * rho) * a) ∧ |r| ≤ 1 ∧ |r - Real.exp (lambda * (t2 - t1))| ≤ |lambda * (t2 - t1)| ^ 3

/-- C48: Crank-Nicolson, extrapolation and the composition of both (the default scheme of the solver) are of second order. -/
theorem C48_second_order (lambda : ℝ) (params : ℝ → Option (Tridiag ℝ × List ℝ)) (v : List ℝ) (hv : 0 < v.length) (he : Eigen params lambda v)
    (steps : Nat) :
    SecondOrderStep (fun t1 t2 _ g => crankNicolsonScheme g t1 t2 params) lambda v ∧
    SecondOrderStep (fun t1 t2 _ g => extrapolationScheme g t1 t2 params) lambda v ∧
    SecondOrderStep (fun t1 t2 k g => compositeScheme steps extrapolationScheme crankNicolsonScheme k g t1 t2 params) lambda v := by
  have cn : SecondOrderStep (fun t1 t2 _ g => crankNicolsonScheme g t1 t2 params) lambda v := by
    intro t1 t2 k rho out hz hz2 h
    refine ⟨weightedFactor (1 / 2) (lambda * (t2 - t1)), ?_, weightedFactor_le_one _ _ le_rfl hz, crankNicolson_factor _ (by linarith)⟩
    exact weighted_eigen (1 / 2) t1 t2 lambda rho params v out hv he (by intro hc; linarith) h
  have ex : SecondOrderStep (fun t1 t2 _ g => extrapolationScheme g t1 t2 params) lambda v := by
    intro t1 t2 k rho out hz hz2 h
    refine ⟨extrapolationFactor (lambda * (t2 - t1)), ?_, extrapolationFactor_le_one _ hz, extrapolation_factor _ hz2⟩
    exact extrapolation_eigen t1 t2 lambda rho params v out hv he hz h
  refine ⟨cn, ex, ?_⟩
  intro t1 t2 k rho out hz hz2 h
  unfold compositeScheme at h
  simp only at h
  split at h
  · exact ex t1 t2 k rho out hz hz2 h
  · exact cn t1 t2 k rho out hz hz2 h

theorem march_eigen (step : ℝ → ℝ → Nat → List ℝ → Option (List ℝ)) (lambda dz : ℝ) (v : List ℝ) (hs : SecondOrderStep step lambda v)
    (times : Nat → ℝ) (k0 N : Nat) (hz : dz ≤ 0) (hz2 : |dz| ≤ 1 / 2) (ht : ∀ i, i < N → lambda * (times (i + 1) - times i) = dz)
    (n i : Nat) (hn : i + n ≤ N) (rho : ℝ) (hrho : |rho - Real.exp (i * dz)| ≤ i * |dz| ^ 3) (out : List ℝ)
    (h : march step none times k0 i n (v.map (fun a => rho * a)) = some out) :
    ∃ r, out = v.map (fun a => r * a) ∧ |r - Real.exp ((i + n : Nat) * dz)| ≤ ((i + n : Nat) : ℝ) * |dz| ^ 3 := by
  induction n generalizing i rho with
  | zero =>
    simp only [march, Option.some.injEq] at h
    exact ⟨rho, h.symm, by simpa using hrho⟩
  | succ n ih =>
    simp only [march, Option.bind_eq_some_iff, Option.elim_none] at h
    obtain ⟨g, hg, h⟩ := h
    have hti := ht i (by omega)
    obtain ⟨r, rfl, hr1, hr2⟩ := hs _ _ _ _ _ (by rw [hti]; exact hz) (by rw [hti]; exact hz2) hg
    rw [hti] at hr2
    have := ih (i + 1) (by omega) (r * rho) (by
      have e : r * rho - Real.exp (((i + 1 : Nat) : ℝ) * dz) = r * (rho - Real.exp (i * dz)) + Real.exp (i * dz) * (r - Real.exp dz) := by
        push_cast
        rw [add_mul, one_mul, Real.exp_add]; ring
      rw [e]
      refine (abs_add_le _ _).trans ?_
      rw [abs_mul, abs_mul]
      have h1 : |r| * |rho - Real.exp (i * dz)| ≤ 1 * (i * |dz| ^ 3) := mul_le_mul hr1 hrho (abs_nonneg _) zero_le_one
      have h2 : |Real.exp (i * dz)| * |r - Real.exp dz| ≤ 1 * |dz| ^ 3 := by
        apply mul_le_mul _ hr2 (abs_nonneg _) zero_le_one
        rw [Real.abs_exp]
        exact Real.exp_le_one_iff.2 (mul_nonpos_of_nonneg_of_nonpos (Nat.cast_nonneg _) hz)
      push_cast
      linarith) h
    rw [show i + 1 + n = i + (n + 1) by omega] at this
    exact this

/-- C48, convergence: the solver with `n` equal steps of a second order scheme, applied to `dv/dt = A v` with final value an eigenvector,
gives the exact solution up to an error of order `1 / n ^ 2`. -/
theorem C48_convergence (step : ℝ → ℝ → Nat → List ℝ → Option (List ℝ)) (lambda s e : ℝ) (v : List ℝ) (hs : SecondOrderStep step lambda v)
    (hl : 0 ≤ lambda) (he : 0 ≤ e) (hse : e < s) (n : Nat) (hn : 2 * (lambda * (s - e)) ≤ n) (hn0 : 0 < n) (k0 : Nat) (r : List ℝ × ℝ × Nat)
    (h : solveBackward s e v (some n) k0 none step none = some r) :
    r.1.length = v.length ∧ ∀ j, j < v.length →
      |r.1.getD j 0 - Real.exp (-(lambda * (s - e))) * v.getD j 0| ≤ (lambda * (s - e)) ^ 3 / n ^ 2 * |v.getD j 0| := by
  rw [C47_backward_steps s e he hse n hn0 v k0 step none] at h
  simp only [Option.map_eq_some_iff] at h
  obtain ⟨g, hg, rfl⟩ := h
  have hn' : (0 : ℝ) < n := by exact_mod_cast hn0
  have hT : 0 ≤ lambda * (s - e) := mul_nonneg hl (by linarith)
  have hdz : -(lambda * (s - e)) / n ≤ 0 := div_nonpos_of_nonpos_of_nonneg (by linarith) hn'.le
  have habs : |-(lambda * (s - e)) / n| = lambda * (s - e) / n := by
    rw [abs_of_nonpos hdz]; ring
  have hv1 : v = v.map (fun a => 1 * a) := by simp
  rw [hv1] at hg
  obtain ⟨q, hq, hq2⟩ := march_eigen step lambda (-(lambda * (s - e)) / n) v hs _ k0 n hdz (by
      rw [habs, div_le_div_iff₀ hn' (by norm_num)]; linarith) (by
      intro i hi
      simp only [if_pos hi]
      by_cases h1 : i + 1 < n
      · simp only [if_pos h1]; push_cast; ring
      · have h2 : i + 1 = n := by omega
        have h3 : (i : ℝ) = n - 1 := by
          have : ((i + 1 : Nat) : ℝ) = n := by rw [h2]
          push_cast at this; linarith
        simp only [if_neg h1, h3]
        field_simp
        ring) n 0 (by omega) 1 (by simp) g hg
  simp only [Nat.zero_add] at hq2
  have e1 : (n : ℝ) * (-(lambda * (s - e)) / n) = -(lambda * (s - e)) := by field_simp
  rw [e1, habs] at hq2
  refine ⟨by rw [hq]; simp, ?_⟩
  intro j hj
  simp only
  rw [hq, getD_map_zero _ _ _ hj, ← sub_mul, abs_mul]
  apply mul_le_mul_of_nonneg_right _ (abs_nonneg _)
  refine hq2.trans (le_of_eq ?_)
  field_simp

/-- The second difference on three inner points of a uniform grid with zero boundary values: `[1, 0, -1]` has the eigenvalue 2. -/
theorem ex_eigen : Eigen (fun _ : ℝ => some (⟨[2, 2, 2], [-1, -1, -1], [-1, -1, -1]⟩, [0, 0, 0])) 2 [1, 0, -1] := by
  intro t
  refine ⟨_, _, rfl, rfl, rfl, rfl, rfl, ?_⟩
  intro j hj
  have : j = 0 ∨ j = 1 ∨ j = 2 := by simp at hj; omega
  rcases this with rfl | rfl | rfl <;> norm_num [rowProduct]

example : crankNicolsonScheme ([1, 0, -1] : List Rat) (1 / 2) 0 (fun _ => some (⟨[2, 2, 2], [-1, -1, -1], [-1, -1, -1]⟩, [0, 0, 0])) =
    some [1 / 3, 0, -1 / 3] := by decide +kernel

example : extrapolationScheme ([1, 0, -1] : List Rat) 1 0 (fun _ => some (⟨[2, 2, 2], [-1, -1, -1], [-1, -1, -1]⟩, [0, 0, 0])) =
    some [1 / 6, 0, -1 / 6] := by decide +kernel

example (steps : Nat) : SecondOrderStep (fun t1 t2 k g => compositeScheme steps extrapolationScheme crankNicolsonScheme k g t1 t2
    (fun _ : ℝ => some (⟨[2, 2, 2], [-1, -1, -1], [-1, -1, -1]⟩, [0, 0, 0]))) 2 [1, 0, -1] :=
  (C48_second_order 2 _ [1, 0, -1] (by simp) ex_eigen steps).2.2

end Props
