import Verif.Props.Instability
import Verif.Model.OscillationDamped

/-! # C148 The oscillation damped Crank-Nicolson scheme damps oscillations -/

namespace Spec
open Model

/-- `solve_backward` on a uniform grid with zero boundary values from a sine mode. -/
noncomputable def solveMode (step : ℝ → ℝ → ℕ → List ℝ → Option (List ℝ)) (m k n : ℕ) (e s : ℝ) : Option (List ℝ × ℝ × ℕ) :=
  solveBackward s e ((List.range (k + 4)).map (sineMode m k)) (some n) 0 none step none

end Spec

namespace Lemmas
open Model Spec

/-- With zero boundary values a step is the scheme on the inner points. -/
theorem zero_step (xs values : List ℝ) (c : ℝ → PdeCoeffs ℝ) (scheme : MarchingScheme ℝ) (t1 t2 : ℝ) :
    parabolicStep t1 t2 xs values (some (dirichletCondition fun _ => 0)) (some (dirichletCondition fun _ => 0)) c scheme =
    (scheme (values.drop 1).dropLast t1 t2 (equationParams xs (some (dirichletCondition fun _ => 0)) (some (dirichletCondition fun _ => 0)) c)).bind
      (fun out => some (0 :: (out ++ [0]))) := by
  unfold parabolicStep
  simp [boundaryAfterStep, boundaryValue, dirichletCondition, discretizeBoundary, appendEnds, bind, Option.bind]

/-- The inner values of a mode. -/
noncomputable def innerMode (m k : ℕ) (q : ℝ) : List ℝ := (List.range (k + 2)).map fun i : ℕ => q * sineMode m k (i + 1)

theorem mode_ends (m k : ℕ) (q : ℝ) : ((List.range (k + 4)).map fun i : ℕ => q * sineMode m k i) = 0 :: (innerMode m k q ++ [0]) := by
  rw [show k + 4 = (k + 2 + 1) + 1 from rfl, List.range_succ_eq_map, List.map_cons, sineMode_zero', mul_zero, List.map_map, List.range_succ, List.map_append]
  congr 1
  congr 1
  simp only [List.map_cons, List.map_nil, Function.comp_apply, Nat.succ_eq_add_one]
  rw [show k + 2 + 1 = k + 3 from rfl, sineMode_last', mul_zero]
where
  sineMode_zero' : sineMode m k 0 = 0 := Props.sineMode_zero m k
  sineMode_last' : sineMode m k (k + 3) = 0 := Props.sineMode_last m k

theorem innerMode_eq (m k : ℕ) (q : ℝ) : ((((List.range (k + 4)).map fun i : ℕ => q * sineMode m k i).drop 1).dropLast) = innerMode m k q := by
  rw [mode_ends]
  simp

theorem innerMode_zipWith (m k : ℕ) (p r : ℝ) :
    List.zipWith (fun a b => 2 * a - b) (innerMode m k p) (innerMode m k r) = innerMode m k (2 * p - r) := by
  unfold innerMode
  rw [List.zipWith_map, List.zipWith_self]
  refine List.map_congr_left fun i _ => ?_
  ring

/-- The weighted scheme on the inner values of a mode. -/
theorem weighted_inner (lo h a theta t1 t2 q : ℝ) (m k : ℕ) (hh : 0 < h) (ha : 0 < a) (hth0 : 0 ≤ theta) (hth1 : theta ≤ 1) (ht : t2 ≤ t1) :
    weightedScheme theta (innerMode m k q) t1 t2
      (equationParams (uniformGrid lo h k) (some (dirichletCondition fun _ => 0)) (some (dirichletCondition fun _ => 0)) (heatCoeffs a k)) =
    some (innerMode m k (q * weightedFactor theta (-(modeRate a h m k * (t1 - t2))))) := by
  have := Props.mode_step lo h a theta t1 t2 q m k hh ha hth0 hth1 ht
  rw [zero_step, innerMode_eq, mode_ends, Option.bind_eq_some_iff] at this
  obtain ⟨out, h1, h2⟩ := this
  rw [h1]
  have h3 := (List.cons.inj (Option.some.inj h2)).2
  rw [List.append_cancel_right h3]

theorem implicit_factor (y : ℝ) : weightedFactor 0 (-y) = 1 / (1 + y) := by
  unfold weightedFactor
  congr 1 <;> ring

/-- The extrapolation scheme on the inner values of a mode. -/
theorem extrapolation_inner (lo h a t1 t2 q : ℝ) (m k : ℕ) (hh : 0 < h) (ha : 0 < a) (ht : t2 ≤ t1) :
    extrapolationScheme (innerMode m k q) t1 t2
      (equationParams (uniformGrid lo h k) (some (dirichletCondition fun _ => 0)) (some (dirichletCondition fun _ => 0)) (heatCoeffs a k)) =
    some (innerMode m k (q * extrapolationFactor (-(modeRate a h m k * (t1 - t2))))) := by
  unfold extrapolationScheme implicitScheme
  rw [weighted_inner lo h a 0 t1 ((t1 + t2) / 2) q m k hh ha le_rfl zero_le_one (by linarith)]
  simp only [Option.bind_eq_bind, Option.bind_some]
  rw [weighted_inner lo h a 0 ((t1 + t2) / 2) t2 _ m k hh ha le_rfl zero_le_one (by linarith),
    weighted_inner lo h a 0 t1 t2 q m k hh ha le_rfl zero_le_one ht]
  simp only [Option.bind_some]
  rw [innerMode_zipWith, implicit_factor, implicit_factor, implicit_factor]
  congr 2
  unfold extrapolationFactor
  have e1 : t1 - (t1 + t2) / 2 = (t1 - t2) / 2 := by ring
  have e2 : (t1 + t2) / 2 - t2 = (t1 - t2) / 2 := by ring
  rw [e1, e2]
  have e3 : 1 - -(modeRate a h m k * (t1 - t2)) / 2 = 1 + modeRate a h m k * ((t1 - t2) / 2) := by ring
  have e4 : 1 - -(modeRate a h m k * (t1 - t2)) = 1 + modeRate a h m k * (t1 - t2) := by ring
  rw [e3, e4]
  generalize 1 + modeRate a h m k * ((t1 - t2) / 2) = x
  generalize 1 + modeRate a h m k * (t1 - t2) = y
  rw [div_eq_mul_inv, div_eq_mul_inv, div_eq_mul_inv, ← inv_pow]
  ring

/-- One step of the damped scheme. -/
theorem damped_mode_step (lo h a t1 t2 q : ℝ) (m k p j : ℕ) (hh : 0 < h) (ha : 0 < a) (ht : t2 ≤ t1) :
    oscillationDampedStep p (uniformGrid lo h k) (some (dirichletCondition fun _ => 0)) (some (dirichletCondition fun _ => 0)) (heatCoeffs a k) t1 t2 j
      ((List.range (k + 4)).map fun i : ℕ => q * sineMode m k i) =
    some ((List.range (k + 4)).map fun i : ℕ => q * (if j < p then extrapolationFactor (-(modeRate a h m k * (t1 - t2)))
      else weightedFactor (1 / 2) (-(modeRate a h m k * (t1 - t2)))) * sineMode m k i) := by
  unfold oscillationDampedStep compositeStep
  rw [zero_step, innerMode_eq, mode_ends]
  unfold compositeScheme
  beta_reduce
  split
  · rw [extrapolation_inner lo h a t1 t2 q m k hh ha ht]; rfl
  · unfold crankNicolsonScheme
    rw [weighted_inner lo h a (1 / 2) t1 t2 q m k hh ha (by norm_num) (by norm_num) ht]; rfl

end Lemmas

namespace Props
open Model Spec Lemmas Filter Topology

/-- C148: on a uniform grid the solver multiplies a sine mode by the factor of the extrapolation scheme for the first steps and by the factor of the
Crank-Nicolson scheme for all others. -/
theorem C148_mode (lo h a e s : ℝ) (m k n p : ℕ) (hh : 0 < h) (ha : 0 < a) (he : 0 ≤ e) (hes : e < s) (hn : 0 < n) :
    solveMode (oscillationDampedStep p (uniformGrid lo h k) (some (dirichletCondition fun _ => 0)) (some (dirichletCondition fun _ => 0)) (heatCoeffs a k))
      m k n e s =
    some ((List.range (k + 4)).map (fun i => extrapolationFactor (-(modeRate a h m k * ((s - e) / n))) ^ min n p *
      weightedFactor (1 / 2) (-(modeRate a h m k * ((s - e) / n))) ^ (n - p) * sineMode m k i), e, n) := by
  have hn' : (0 : ℝ) < n := by exact_mod_cast hn
  have hend : s - n * ((s - e) / n) = e := by field_simp; ring
  have hd : 0 < (s - e) / n := div_pos (by linarith) hn'
  have htime : ∀ i : ℕ, i ≤ n → (if i < n then s - i * ((s - e) / n) else e) = s - i * ((s - e) / n) := by
    intro i hi
    split
    · rfl
    · next hc => rw [show i = n by omega, hend]
  obtain ⟨E, hE⟩ : ∃ E, E = extrapolationFactor (-(modeRate a h m k * ((s - e) / n))) := ⟨_, rfl⟩
  obtain ⟨W, hW⟩ : ∃ W, W = weightedFactor (1 / 2) (-(modeRate a h m k * ((s - e) / n))) := ⟨_, rfl⟩
  have ind : ∀ (j i : ℕ), i + j = n → ∀ q : ℝ,
      march (oscillationDampedStep p (uniformGrid lo h k) (some (dirichletCondition fun _ => 0)) (some (dirichletCondition fun _ => 0)) (heatCoeffs a k)) none
        (fun i => if i < n then s - i * ((s - e) / n) else e) 0 i j ((List.range (k + 4)).map fun i : ℕ => q * sineMode m k i) =
      some ((List.range (k + 4)).map fun l : ℕ => q * (E ^ (min n p - min i p) * W ^ ((n - p) - (i - p))) * sineMode m k l) := by
    intro j
    induction j with
    | zero =>
      intro i hi q
      rw [show i = n by omega]
      simp [march]
    | succ j ih =>
      intro i hij q
      unfold march
      beta_reduce
      rw [htime i (by omega), htime (i + 1) (by omega), Nat.zero_add, damped_mode_step lo h a _ _ q m k p i hh ha (by push_cast; linarith),
        show s - i * ((s - e) / n) - (s - ((i + 1 : ℕ) : ℝ) * ((s - e) / n)) = (s - e) / n by push_cast; ring, ← hE, ← hW]
      refine (ih (i + 1) (by omega) _).trans ?_
      congr 2
      funext l
      by_cases hip : i < p
      · rw [if_pos hip, show min n p - min i p = (min n p - min (i + 1) p) + 1 by omega, show (n - p) - (i - p) = (n - p) - (i + 1 - p) by omega, pow_succ]
        ring
      · rw [if_neg hip, show min n p - min i p = min n p - min (i + 1) p by omega, show (n - p) - (i - p) = ((n - p) - (i + 1 - p)) + 1 by omega, pow_succ]
        ring
  unfold solveMode
  rw [C47_backward_steps s e he hes n hn]
  have := ind n 0 (by omega) 1
  simp only [one_mul, Nat.zero_min, Nat.sub_zero, Nat.zero_sub] at this
  rw [this, ← hE, ← hW]
  simp

theorem mode_argument_nonpos (h a e s : ℝ) (m k n : ℕ) (ha : 0 < a) (hes : e < s) : -(modeRate a h m k * ((s - e) / n)) ≤ 0 := by
  have hr : 0 ≤ modeRate a h m k := by
    unfold modeRate
    exact mul_nonneg (by positivity) (by linarith [Real.cos_le_one (m * Real.pi / (k + 3))])
  have : 0 ≤ (s - e) / n := div_nonneg (by linarith) (Nat.cast_nonneg n)
  linarith [mul_nonneg hr this]

/-- C148: the damped scheme is stable on every uniform grid for all time steps. -/
theorem C148_stable (lo h a e s : ℝ) (m k n p : ℕ) (hh : 0 < h) (ha : 0 < a) (he : 0 ≤ e) (hes : e < s) (hn : 0 < n) (w : List ℝ) (r : ℝ × ℕ)
    (hw : solveMode (oscillationDampedStep p (uniformGrid lo h k) (some (dirichletCondition fun _ => 0)) (some (dirichletCondition fun _ => 0)) (heatCoeffs a k))
      m k n e s = some (w, r)) (i : ℕ) (hi : i < k + 4) : |w.getD i 0| ≤ |sineMode m k i| := by
  rw [C148_mode lo h a e s m k n p hh ha he hes hn] at hw
  obtain ⟨rfl, -⟩ := Prod.mk.inj (Option.some.inj hw)
  have hf := C48_stable (1 / 2) _ le_rfl (mode_argument_nonpos h a e s m k n ha hes)
  rw [List.getD_eq_getElem _ _ (by simpa using hi), List.getElem_map, List.getElem_range, abs_mul, abs_mul, abs_pow, abs_pow]
  exact mul_le_of_le_one_left (abs_nonneg _) (mul_le_one₀ (pow_le_one₀ (abs_nonneg _) hf.2) (pow_nonneg (abs_nonneg _) _) (pow_le_one₀ (abs_nonneg _) hf.1))

/-- C148: with at least one extrapolation step, modes whose rate is large compared to the time step vanish, whatever the number of steps. -/
theorem C148_damped (p : ℕ) (hp : 0 < p) (ε : ℝ) (hε : 0 < ε) :
    ∃ R : ℝ, ∀ (lo h a e s : ℝ) (m k n : ℕ), 0 < h → 0 < a → 0 ≤ e → e < s → 0 < n → R ≤ modeRate a h m k * ((s - e) / n) →
      ∃ w, solveMode (oscillationDampedStep p (uniformGrid lo h k) (some (dirichletCondition fun _ => 0)) (some (dirichletCondition fun _ => 0))
        (heatCoeffs a k)) m k n e s = some (w, e, n) ∧ ∀ i, i < k + 4 → |w.getD i 0| ≤ ε := by
  obtain ⟨Z, hZ⟩ := eventually_atBot.1 (C48_damping.1.abs.eventually (gt_mem_nhds (show |(0 : ℝ)| < ε by simpa using hε)))
  refine ⟨-Z, ?_⟩
  intro lo h a e s m k n hh ha he hes hn hR
  refine ⟨_, C148_mode lo h a e s m k n p hh ha he hes hn, ?_⟩
  intro i hi
  have hf := C48_stable (1 / 2) _ le_rfl (mode_argument_nonpos h a e s m k n ha hes)
  have hE := hZ (-(modeRate a h m k * ((s - e) / n))) (by linarith)
  rw [List.getD_eq_getElem _ _ (by simpa using hi), List.getElem_map, List.getElem_range, abs_mul, abs_mul, abs_pow, abs_pow]
  have h1 : |extrapolationFactor (-(modeRate a h m k * ((s - e) / n)))| ^ min n p ≤ |extrapolationFactor (-(modeRate a h m k * ((s - e) / n)))| :=
    pow_le_of_le_one (abs_nonneg _) hf.2 (by omega)
  have h2 : |weightedFactor (1 / 2) (-(modeRate a h m k * ((s - e) / n)))| ^ (n - p) ≤ 1 := pow_le_one₀ (abs_nonneg _) hf.1
  have h3 : |sineMode m k i| ≤ 1 := Real.abs_sin_le_one _
  calc _ ≤ |extrapolationFactor (-(modeRate a h m k * ((s - e) / n)))| * 1 * 1 :=
        mul_le_mul (mul_le_mul h1 h2 (by positivity) (abs_nonneg _)) h3 (abs_nonneg _) (by positivity)
    _ ≤ ε := by rw [mul_one, mul_one]; exact hE.le

/-- C148: without the extrapolation steps, in the Crank-Nicolson scheme, such modes keep their size and change their sign in every step. -/
theorem C148_undamped (n : ℕ) (hn : 0 < n) (ε : ℝ) (hε : 0 < ε) :
    ∃ R : ℝ, ∀ (lo h a e s : ℝ) (m k : ℕ), 0 < h → 0 < a → 0 ≤ e → e < s → R ≤ modeRate a h m k * ((s - e) / n) →
      ∃ w, solveMode (oscillationDampedStep 0 (uniformGrid lo h k) (some (dirichletCondition fun _ => 0)) (some (dirichletCondition fun _ => 0))
        (heatCoeffs a k)) m k n e s = some (w, e, n) ∧ ∀ i, i < k + 4 → |w.getD i 0 - (-1) ^ n * sineMode m k i| ≤ ε := by
  have ht := ((C48_damping.2.pow n).sub_const ((-1) ^ n)).abs
  rw [sub_self] at ht
  obtain ⟨Z, hZ⟩ := eventually_atBot.1 (ht.eventually (gt_mem_nhds (show |(0 : ℝ)| < ε by simpa using hε)))
  refine ⟨-Z, ?_⟩
  intro lo h a e s m k hh ha he hes hR
  refine ⟨_, C148_mode lo h a e s m k n 0 hh ha he hes hn, ?_⟩
  intro i hi
  have hE := hZ (-(modeRate a h m k * ((s - e) / n))) (by linarith)
  rw [List.getD_eq_getElem _ _ (by simpa using hi), List.getElem_map, List.getElem_range, Nat.min_zero, pow_zero, one_mul, Nat.sub_zero, ← sub_mul, abs_mul]
  have h3 : |sineMode m k i| ≤ 1 := Real.abs_sin_le_one _
  calc _ ≤ |weightedFactor (1 / 2) (-(modeRate a h m k * ((s - e) / n))) ^ n - (-1) ^ n| * 1 := mul_le_mul_of_nonneg_left h3 (abs_nonneg _)
    _ ≤ ε := by rw [mul_one]; exact hE.le

/-- C148: without extrapolation steps the scheme is Crank-Nicolson, with the number of steps or more of them it is the extrapolation scheme throughout. -/
theorem C148_composition {K : Type} [Field K] [LinearOrder K] (p : ℕ) (xs : List K) (lower upper : Option (BoundaryFn K)) (c : K → PdeCoeffs K) (t1 t2 : K)
    (j : ℕ) (v : List K) :
    (j < p → oscillationDampedStep p xs lower upper c t1 t2 j v = parabolicStep t1 t2 xs v lower upper c extrapolationScheme) ∧
    (p ≤ j → oscillationDampedStep p xs lower upper c t1 t2 j v = parabolicStep t1 t2 xs v lower upper c crankNicolsonScheme) := by
  constructor
  · intro hj
    unfold oscillationDampedStep compositeStep compositeScheme
    simp only [if_pos hj]
  · intro hj
    unfold oscillationDampedStep compositeStep compositeScheme
    simp only [if_neg (not_lt.2 hj)]

/-- Two steps of length two on the grid 0, 1, 2, 3, the first one extrapolated: the factors are `-1 / 56` and `-1 / 2`. -/
example : solveMode (oscillationDampedStep 1 (uniformGrid 0 1 0) (some (dirichletCondition fun _ => 0)) (some (dirichletCondition fun _ => 0)) (heatCoeffs 1 0))
    2 0 2 0 4 = some ((List.range 4).map (fun i => 1 / 112 * sineMode 2 0 i), 0, 2) := by
  have hc : Real.cos (2 * Real.pi / 3) = -(1 / 2) := by
    rw [show 2 * Real.pi / 3 = Real.pi - Real.pi / 3 by ring, Real.cos_pi_sub, Real.cos_pi_div_three]
  have hr : modeRate 1 1 2 0 = 3 := by
    unfold modeRate
    push_cast
    rw [zero_add, hc]
    norm_num
  rw [C148_mode 0 1 1 0 4 2 0 2 1 one_pos one_pos le_rfl (by norm_num) (by norm_num), hr]
  have : extrapolationFactor (-(3 * ((4 - 0) / (2 : ℕ)))) ^ min 2 1 * weightedFactor (1 / 2) (-(3 * ((4 - 0) / (2 : ℕ)))) ^ (2 - 1) = 1 / 112 := by
    norm_num [extrapolationFactor, weightedFactor]
  rw [this]

end Props
