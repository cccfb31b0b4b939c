import Verif.Props.CrankNicolson
import Verif.Props.Amplification
import Verif.Model.BoundaryConditions

/-! # C145 Stability of the weighted schemes depends on the explicit weight being at most one half -/

namespace Spec
open Model Set

/-- Equal cells of length `h` from `lo`. -/
noncomputable def uniformGrid (lo h : ℝ) (k : ℕ) : List ℝ := (List.range (k + 4)).map fun i : ℕ => lo + i * h

/-- The equation `V_t + a V_xx = 0`. -/
noncomputable def heatCoeffs (a : ℝ) (k : ℕ) : ℝ → PdeCoeffs ℝ := fun _ => ⟨some (List.replicate (k + 4) a), none, none, none, none⟩

/-- The values of `sin (m pi x)` at equal distances from zero to one. -/
noncomputable def sineMode (m k : ℕ) (i : ℕ) : ℝ := Real.sin (m * Real.pi / (k + 3) * i)

/-- Rate at which the difference operator damps this mode. -/
noncomputable def modeRate (a h : ℝ) (m k : ℕ) : ℝ := 2 * a / h ^ 2 * (1 - Real.cos (m * Real.pi / (k + 3)))

end Spec

namespace Props
open Model Spec Lemmas Set

theorem uniformGrid_getD (lo h : ℝ) (k i : ℕ) (hi : i < k + 4) : (uniformGrid lo h k).getD i 0 = lo + i * h := by
  unfold uniformGrid
  rw [List.getD_eq_getElem _ _ (by simpa using hi)]
  simp

theorem sineMode_zero (m k : ℕ) : sineMode m k 0 = 0 := by simp [sineMode]

theorem sineMode_last (m k : ℕ) : sineMode m k (k + 3) = 0 := by
  have h : ((k : ℝ) + 3) ≠ 0 := by positivity
  unfold sineMode
  push_cast
  rw [div_mul_cancel₀ _ h]
  exact Real.sin_nat_mul_pi m

theorem sineMode_row (m k i : ℕ) : 2 * sineMode m k (i + 1) - sineMode m k i - sineMode m k (i + 2) =
    2 * (1 - Real.cos (m * Real.pi / (k + 3))) * sineMode m k (i + 1) := by
  unfold sineMode
  generalize (m : ℝ) * Real.pi / (k + 3) = y
  push_cast
  have e1 : y * i = y * (i + 1) - y := by ring
  have e2 : y * (i + 2) = y * (i + 1) + y := by ring
  rw [e1, e2, Real.sin_sub, Real.sin_add]
  ring

theorem heat_discretises (lo h a e s : ℝ) (k : ℕ) (hh : 0 < h) :
    Discretises (uniformGrid lo h k) k (heatCoeffs a k) (dirichletCondition fun _ => 0) (dirichletCondition fun _ => 0) (fun _ _ => 0) (fun _ _ => a) (fun _ _ => 0)
      (fun _ _ => 0) e s lo (lo + (k + 3) * h) := by
  refine ⟨by simp [uniformGrid], fun i hi => ?_, ?_, ?_, fun t _ => ⟨?_, ?_, ?_, ?_, ?_⟩, fun t _ i hi => ⟨?_, rfl, rfl⟩,
    fun t _ => ⟨1, _, rfl, one_ne_zero, by simp⟩, fun t _ => ⟨1, _, rfl, one_ne_zero, by simp⟩⟩
  · rw [uniformGrid_getD _ _ _ _ (by omega), uniformGrid_getD _ _ _ _ (by omega)]
    push_cast
    linarith
  · rw [uniformGrid_getD _ _ _ _ (by omega)]; simp
  · rw [uniformGrid_getD _ _ _ _ (by omega)]; push_cast; rfl
  · rintro l ⟨⟩; simp
  · rintro l ⟨⟩
  · rintro l ⟨⟩
  · rintro l ⟨⟩
  · rintro l ⟨⟩
  · simp only [heatCoeffs, coeffAt]
    rw [Option.elim_some, List.getD_eq_getElem _ _ (by simp; omega)]
    simp

/-- A weighted step multiplies a mode by the factor of the scheme. -/
theorem mode_step (lo h a theta t1 t2 q : ℝ) (m k : ℕ) (hh : 0 < h) (ha : 0 < a) (hth0 : 0 ≤ theta) (hth1 : theta ≤ 1) (ht : t2 ≤ t1) :
    parabolicStep t1 t2 (uniformGrid lo h k) ((List.range (k + 4)).map fun i => q * sineMode m k i) (some (dirichletCondition fun _ => 0))
      (some (dirichletCondition fun _ => 0)) (heatCoeffs a k) (weightedScheme theta) =
    some ((List.range (k + 4)).map fun i => q * weightedFactor theta (-(modeRate a h m k * (t1 - t2))) * sineMode m k i) := by
  have hD := heat_discretises lo h a t2 t1 k hh
  have hx := hD.increasing
  have m1 : t1 ∈ Icc t2 t1 := ⟨ht, le_rfl⟩
  have m2 : t2 ∈ Icc t2 t1 := ⟨le_rfl, ht⟩
  have mm : (t1 + t2) / 2 ∈ Icc t2 t1 := ⟨by linarith, by linarith⟩
  have hV : Diffusive (fun _ _ => a) (fun _ _ => 0) (fun _ _ => 0) t2 t1 lo (lo + (k + 3) * h) a 0 0 := ⟨by simp, by simp, by simp, by simp⟩
  have hsize : ∀ i, i < k + 3 → (uniformGrid lo h k).getD (i + 1) 0 - (uniformGrid lo h k).getD i 0 = h := by
    intro i hi
    rw [uniformGrid_getD _ _ _ _ (by omega), uniformGrid_getD _ _ _ _ (by omega)]
    push_cast
    ring
  have hg : Graded (uniformGrid lo h k) k 1 := by
    intro i hi
    have e1 := hsize i (by omega)
    have e2 := hsize (i + 1) (by omega)
    rw [show i + 1 + 1 = i + 2 from rfl] at e2
    rw [e1, e2, one_mul]
    exact ⟨le_rfl, le_rfl⟩
  have hst := grid_stable hV (uniformGrid lo h k) k _ _ _ hD (fun _ _ => ⟨rfl, rfl⟩) h (fun i hi => (hsize i hi).le) (by linarith) _ mm
  obtain ⟨w, hw⟩ := dirichlet_total (fun i => (uniformGrid lo h k).getD i 0) (fun i => q * sineMode m k i) k hx _ _ _ theta t1 t2 _ _ _ _ (hD.onGrid _ mm)
    (hD.lower _ mm) (hD.upper _ mm) (hD.lower _ m2) (hD.upper _ m2) hth0 hth1 ht _ hst
  obtain ⟨_, _, hwl, hw0, hwn, v', w', a1, a2, a3, a4, a5, heq⟩ := dirichlet_rows (fun i => (uniformGrid lo h k).getD i 0) (fun i => q * sineMode m k i) k hx
    _ _ _ theta t1 t2 _ _ _ _ (hD.onGrid _ mm) (hD.lower _ mm) (hD.upper _ mm) (hD.lower _ m2) (hD.upper _ m2) w hw
  rw [← asRange _ _ hD.length] at hw
  rw [hw]
  obtain ⟨La, hLa⟩ : ∃ La, La = modeRate a h m k := ⟨_, rfl⟩
  have hLa0 : 0 ≤ La := by
    rw [hLa, modeRate]
    exact mul_nonneg (by positivity) (by linarith [Real.cos_le_one (m * Real.pi / (k + 3))])
  obtain ⟨F, hF⟩ : ∃ F, F = weightedFactor theta (-(modeRate a h m k * (t1 - t2))) := ⟨_, rfl⟩
  rw [← hF]
  have hden : 0 < 1 + (1 - theta) * (La * (t1 - t2)) := by
    have := mul_nonneg (sub_nonneg.2 hth1) (mul_nonneg hLa0 (sub_nonneg.2 ht))
    linarith
  have hFe : F * (1 + (1 - theta) * (La * (t1 - t2))) = 1 - theta * (La * (t1 - t2)) := by
    rw [hF, ← hLa, weightedFactor, show 1 - (1 - theta) * -(La * (t1 - t2)) = 1 + (1 - theta) * (La * (t1 - t2)) by ring, div_mul_cancel₀ _ hden.ne']
    ring
  -- rows on the uniform grid
  have hrow : ∀ (u : ℕ → ℝ) (i : ℕ), i < k + 2 → entryLo (heatCoeffs a k ((t1 + t2) / 2)) (fun i => (uniformGrid lo h k).getD i 0) i * u i +
      entryDiag (heatCoeffs a k ((t1 + t2) / 2)) (fun i => (uniformGrid lo h k).getD i 0) i * u (i + 1) +
      entryUp (heatCoeffs a k ((t1 + t2) / 2)) (fun i => (uniformGrid lo h k).getD i 0) i * u (i + 2) = a / h ^ 2 * (2 * u (i + 1) - u i - u (i + 2)) := by
    intro u i hi
    have q1 := row_differences (heatCoeffs a k ((t1 + t2) / 2)) (fun i => (uniformGrid lo h k).getD i 0) i (hx i (by omega)) (hx (i + 1) (by omega)) rfl rfl u
    obtain ⟨ca, cb, cz⟩ := hD.coeffs _ mm i hi
    have e1 := hsize i (by omega)
    have e2 := hsize (i + 1) (by omega)
    have e3 : (uniformGrid lo h k).getD (i + 2) 0 - (uniformGrid lo h k).getD i 0 = 2 * h := by
      rw [show i + 1 + 1 = i + 2 from rfl] at e2
      linarith
    rw [q1, ca, cb, cz]
    rw [show i + 1 + 1 = i + 2 from rfl] at e2
    beta_reduce
    rw [e1, e2, e3]
    field_simp
    ring
  have hdiff : ∀ (u : ℕ → ℝ) (i : ℕ), i < k + 2 → diffRow (fun i => (uniformGrid lo h k).getD i 0) (fun _ => a) (fun _ => 0) (fun _ => 0) u i =
      a / h ^ 2 * (2 * u (i + 1) - u i - u (i + 2)) := by
    intro u i hi
    rw [← hrow u i hi, row_differences (heatCoeffs a k ((t1 + t2) / 2)) (fun i => (uniformGrid lo h k).getD i 0) i (hx i (by omega)) (hx (i + 1) (by omega)) rfl rfl u]
    obtain ⟨ca, cb, cz⟩ := hD.coeffs _ mm i hi
    rw [ca, cb, cz]
    rfl
  have hv : ∀ i, i ≤ k + 3 → v' i = q * sineMode m k i := by
    intro i hi
    by_cases h0 : i = 0
    · rw [h0, a1, sineMode_zero, mul_zero]
    · by_cases h3 : i = k + 3
      · rw [h3, a3, sineMode_last, mul_zero]
      · exact (a5 i (by omega) (by omega)).1
  have hd0 : ∀ i, i < k + 2 → w' (i + 1) - q * F * sineMode m k (i + 1) = -((t1 - t2) * (1 - theta)) *
      (a / h ^ 2 * (2 * (w' (i + 1) - q * F * sineMode m k (i + 1)) - (w' i - q * F * sineMode m k i) - (w' (i + 2) - q * F * sineMode m k (i + 2)))) := by
    intro i hi
    have e := heq i hi
    rw [hrow v' i hi, hrow w' i hi, hv i (by omega), hv (i + 1) (by omega), hv (i + 2) (by omega)] at e
    have r := sineMode_row m k i
    have hL : a / h ^ 2 * (2 * (1 - Real.cos (m * Real.pi / (k + 3)))) = La := by rw [hLa, modeRate]; ring
    have r2 : a / h ^ 2 * (2 * sineMode m k (i + 1) - sineMode m k i - sineMode m k (i + 2)) = La * sineMode m k (i + 1) := by
      rw [r, ← hL]; ring
    linear_combination e + (-(t1 - t2) * theta * q - (t1 - t2) * (1 - theta) * q * F) * r2 - q * sineMode m k (i + 1) * hFe
  have hen := grid_energy hV ha le_rfl zero_le_one _ k hx hD.first hD.last hg _ mm (fun i => w' i - q * F * sineMode m k i)
    (by beta_reduce; rw [a2, sineMode_zero]; ring) (by beta_reduce; rw [a4, sineMode_last]; ring)
  have hG : growthRate a 0 0 1 = 0 := by norm_num [growthRate]
  rw [hG, zero_mul, neg_zero] at hen
  have hwpos : ∀ i, i < k + 2 → 0 < cellWeight (uniformGrid lo h k) k i := by
    intro i hi
    unfold cellWeight
    have e1 := hx i (by omega)
    have e2 := hx (i + 1) (by omega)
    rw [show i + 1 + 1 = i + 2 from rfl] at e2
    rw [hD.first, hD.last]
    have : 0 < lo + (k + 3) * h - lo := by rw [add_sub_cancel_left]; positivity
    exact div_pos (by linarith) this
  have hsum : ∑ i ∈ Finset.range (k + 2), cellWeight (uniformGrid lo h k) k i * (w' (i + 1) - q * F * sineMode m k (i + 1)) ^ 2 ≤ 0 := by
    have : ∑ i ∈ Finset.range (k + 2), cellWeight (uniformGrid lo h k) k i * (w' (i + 1) - q * F * sineMode m k (i + 1)) ^ 2 =
        -((t1 - t2) * (1 - theta)) * ∑ i ∈ Finset.range (k + 2), cellWeight (uniformGrid lo h k) k i * ((w' (i + 1) - q * F * sineMode m k (i + 1)) *
          diffRow (fun i => (uniformGrid lo h k).getD i 0) (fun _ => a) (fun _ => 0) (fun _ => 0) (fun i => w' i - q * F * sineMode m k i) i) := by
      rw [Finset.mul_sum]
      refine Finset.sum_congr rfl fun i hi => ?_
      rw [hdiff _ i (Finset.mem_range.1 hi)]
      have e := hd0 i (Finset.mem_range.1 hi)
      linear_combination cellWeight (uniformGrid lo h k) k i * (w' (i + 1) - q * F * sineMode m k (i + 1)) * e
    rw [this]
    have := mul_nonneg (mul_nonneg (sub_nonneg.2 ht) (sub_nonneg.2 hth1)) hen
    linarith
  have hzero : ∀ i, i < k + 2 → w' (i + 1) = q * F * sineMode m k (i + 1) := by
    intro i hi
    have hnn : ∀ i ∈ Finset.range (k + 2), 0 ≤ cellWeight (uniformGrid lo h k) k i * (w' (i + 1) - q * F * sineMode m k (i + 1)) ^ 2 :=
      fun i hi => mul_nonneg (hwpos i (Finset.mem_range.1 hi)).le (sq_nonneg _)
    have h0 := (Finset.sum_eq_zero_iff_of_nonneg hnn).1 (le_antisymm hsum (Finset.sum_nonneg hnn)) i (Finset.mem_range.2 hi)
    rcases mul_eq_zero.1 h0 with h1 | h1
    · exact absurd h1 (hwpos i hi).ne'
    · have := pow_eq_zero_iff (two_ne_zero) |>.1 h1
      linarith
  congr 1
  rw [asRange w _ hwl]
  refine List.map_congr_left fun i hi => ?_
  have hi' := List.mem_range.1 hi
  by_cases h0 : i = 0
  · rw [h0, hw0, sineMode_zero, mul_zero]
  · by_cases h3 : i = k + 3
    · rw [h3, hwn, sineMode_last, mul_zero]
    · rw [← (a5 i (by omega) (by omega)).2]
      have := hzero (i - 1) (by omega)
      rwa [show i - 1 + 1 = i by omega] at this

/-- C145: on a uniform grid `solve_backward` with a weighted scheme multiplies the sine modes by a power of the factor of the scheme, for any explicit weight. -/
theorem C145_mode (lo h a theta e s : ℝ) (m k n k0 : ℕ) (hh : 0 < h) (ha : 0 < a) (hth0 : 0 ≤ theta) (hth1 : theta ≤ 1) (he : 0 ≤ e) (hes : e < s) (hn : 0 < n) :
    solveBackward s e ((List.range (k + 4)).map (sineMode m k)) (some n) k0 none
      (fdStep (uniformGrid lo h k) (heatCoeffs a k) (dirichletCondition fun _ => 0) (dirichletCondition fun _ => 0) theta) none =
    some ((List.range (k + 4)).map (fun i => weightedFactor theta (-(modeRate a h m k * ((s - e) / n))) ^ n * sineMode m k i), e, k0 + n) := by
  have hn' : (0 : ℝ) < n := by exact_mod_cast hn
  have hend : s - n * ((s - e) / n) = e := by field_simp; ring
  have hd : 0 < (s - e) / n := div_pos (by linarith) hn'
  have htime : ∀ i : ℕ, i ≤ n → (if i < n then s - i * ((s - e) / n) else e) = s - i * ((s - e) / n) := by
    intro i hi
    split
    · rfl
    · next hc => rw [show i = n by omega, hend]
  have ind : ∀ (j i : ℕ), i + j = n → ∀ q : ℝ,
      march (fdStep (uniformGrid lo h k) (heatCoeffs a k) (dirichletCondition fun _ => 0) (dirichletCondition fun _ => 0) theta) none
        (fun i => if i < n then s - i * ((s - e) / n) else e) k0 i j ((List.range (k + 4)).map fun i => q * sineMode m k i) =
      some ((List.range (k + 4)).map fun i => q * weightedFactor theta (-(modeRate a h m k * ((s - e) / n))) ^ j * sineMode m k i) := by
    intro j
    induction j with
    | zero => intro i _ q; simp [march]
    | succ j ih =>
      intro i hij q
      unfold march fdStep
      beta_reduce
      rw [htime i (by omega), htime (i + 1) (by omega), mode_step lo h a theta _ _ q m k hh ha hth0 hth1 (by push_cast; linarith),
        show s - i * ((s - e) / n) - (s - ((i + 1 : ℕ) : ℝ) * ((s - e) / n)) = (s - e) / n by push_cast; ring]
      refine (ih (i + 1) (by omega) _).trans ?_
      congr 2
      funext i
      ring
  rw [C47_backward_steps s e he hes n hn]
  have := ind n 0 (by omega) 1
  simp only [one_mul] at this
  rw [this]
  rfl

theorem top_cos (k : ℕ) : Real.cos (((k + 2 : ℕ) : ℝ) * Real.pi / (k + 3)) ≤ -(1 / 2) := by
  have h3 : (0 : ℝ) < k + 3 := by positivity
  have e : ((k + 2 : ℕ) : ℝ) * Real.pi / (k + 3) = Real.pi - Real.pi / (k + 3) := by push_cast; field_simp; ring
  rw [e, Real.cos_pi_sub, neg_le_neg_iff, ← Real.cos_pi_div_three]
  refine Real.cos_le_cos_of_nonneg_of_le_pi (by positivity) (by linarith [Real.pi_pos]) ?_
  exact div_le_div_of_nonneg_left Real.pi_pos.le (by norm_num) (by linarith [(Nat.cast_nonneg k : (0 : ℝ) ≤ k)])

theorem top_rate (a h : ℝ) (k : ℕ) (ha : 0 < a) (hh : 0 < h) : 3 * a / h ^ 2 ≤ modeRate a h (k + 2) k := by
  have := top_cos k
  unfold modeRate
  have h2 : 0 ≤ 2 * a / h ^ 2 := by positivity
  have := mul_le_mul_of_nonneg_left (show (3 : ℝ) / 2 ≤ 1 - Real.cos (((k + 2 : ℕ) : ℝ) * Real.pi / (k + 3)) by linarith) h2
  calc _ = 2 * a / h ^ 2 * (3 / 2) := by ring
    _ ≤ _ := this

theorem factor_large (theta y : ℝ) (hth1 : theta ≤ 1) (hy0 : 0 ≤ y) (hy : 2 < (2 * theta - 1) * y) : weightedFactor theta (-y) < -1 := by
  have : 0 ≤ (1 - theta) * y := mul_nonneg (by linarith) hy0
  unfold weightedFactor
  rw [div_lt_iff₀ (by linarith)]
  linarith

/-- C145, instability: with an explicit weight above one half and `(2 theta - 1) 3 a dt > 2 h^2` the values grow beyond all bounds, although those of the solution of the
equation decrease. -/
theorem C145_unstable (lo h a theta e d : ℝ) (k k0 : ℕ) (hh : 0 < h) (ha : 0 < a) (hth0 : 0 ≤ theta) (hth1 : theta ≤ 1) (he : 0 ≤ e) (hd : 0 < d)
    (hu : 2 * h ^ 2 < (2 * theta - 1) * (3 * a * d)) (bound : ℝ) :
    ∃ n : ℕ, 0 < n ∧ ∃ w, solveBackward (e + n * d) e ((List.range (k + 4)).map (sineMode (k + 2) k)) (some n) k0 none
      (fdStep (uniformGrid lo h k) (heatCoeffs a k) (dirichletCondition fun _ => 0) (dirichletCondition fun _ => 0) theta) none = some (w, e, k0 + n) ∧
      bound < |w.getD 1 0| := by
  have hh2 : 0 < h ^ 2 := by positivity
  have hr := top_rate a h k ha hh
  have hr0 : 0 ≤ modeRate a h (k + 2) k := le_trans (by positivity) hr
  have hF : weightedFactor theta (-(modeRate a h (k + 2) k * d)) < -1 := by
    refine factor_large theta _ hth1 (by positivity) ?_
    have h1 : 0 < 2 * theta - 1 := by
      by_contra hc
      push Not at hc
      have : (2 * theta - 1) * (3 * a * d) ≤ 0 := mul_nonpos_of_nonpos_of_nonneg hc (by positivity)
      linarith
    calc 2 < (2 * theta - 1) * (3 * a * d) / h ^ 2 := by rw [lt_div_iff₀ hh2]; exact hu
      _ = (2 * theta - 1) * (3 * a / h ^ 2 * d) := by ring
      _ ≤ _ := mul_le_mul_of_nonneg_left (mul_le_mul_of_nonneg_right hr hd.le) h1.le
  have hs : 0 < sineMode (k + 2) k 1 := by
    have h3 : (0 : ℝ) < k + 3 := by positivity
    unfold sineMode
    refine Real.sin_pos_of_pos_of_lt_pi (by have := Real.pi_pos; positivity) ?_
    push_cast
    rw [mul_one, div_lt_iff₀ h3]
    linarith [Real.pi_pos]
  have habs : 1 < |weightedFactor theta (-(modeRate a h (k + 2) k * d))| := lt_of_lt_of_le (by linarith) (neg_le_abs _)
  obtain ⟨n, hn⟩ := pow_unbounded_of_one_lt (|bound| / sineMode (k + 2) k 1) habs
  have hn2 : |bound| / sineMode (k + 2) k 1 < |weightedFactor theta (-(modeRate a h (k + 2) k * d))| ^ (n + 1) :=
    hn.trans_le (pow_le_pow_right₀ habs.le (Nat.le_succ n))
  have hn' : (0 : ℝ) < (n + 1 : ℕ) := by positivity
  refine ⟨n + 1, by omega, _, C145_mode lo h a theta e (e + (n + 1 : ℕ) * d) (k + 2) k (n + 1) k0 hh ha hth0 hth1 he (by nlinarith) (by omega), ?_⟩
  rw [show (e + (n + 1 : ℕ) * d - e) / (n + 1 : ℕ) = d by rw [add_sub_cancel_left, mul_div_cancel_left₀ _ hn'.ne']]
  rw [List.getD_eq_getElem _ _ (by simp), List.getElem_map, List.getElem_range, abs_mul, abs_pow, abs_of_pos hs]
  rw [div_lt_iff₀ hs] at hn2
  exact (le_abs_self _).trans_lt hn2

/-- C145: no mode grows on any uniform grid exactly if the explicit weight is at most one half. -/
theorem C145_stable_iff (theta : ℝ) (hth0 : 0 ≤ theta) (hth1 : theta ≤ 1) :
    (∀ (lo h a e s : ℝ) (m k n k0 : ℕ) (w : List ℝ) (r : ℝ × ℕ), 0 < h → 0 < a → 0 ≤ e → e < s → 0 < n →
      solveBackward s e ((List.range (k + 4)).map (sineMode m k)) (some n) k0 none
        (fdStep (uniformGrid lo h k) (heatCoeffs a k) (dirichletCondition fun _ => 0) (dirichletCondition fun _ => 0) theta) none = some (w, r) →
      ∀ i, i < k + 4 → |w.getD i 0| ≤ |sineMode m k i|) ↔ theta ≤ 1 / 2 := by
  constructor
  · intro hall
    by_contra hc
    push Not at hc
    have h1 : 0 < 2 * theta - 1 := by linarith
    obtain ⟨n, hn, w, hw, hb⟩ := C145_unstable 0 1 1 theta 0 (1 / (2 * theta - 1)) 0 0 one_pos one_pos hth0 hth1 le_rfl (by positivity)
      (by rw [show (2 * theta - 1) * (3 * 1 * (1 / (2 * theta - 1))) = 3 by field_simp]; norm_num) 1
    have := hall 0 1 1 0 _ 2 0 n 0 w _ one_pos one_pos le_rfl (by have : (0 : ℝ) < n := by exact_mod_cast hn
                                                                  positivity) hn hw 1 (by omega)
    exact absurd (hb.trans_le this) (not_lt.2 (Real.abs_sin_le_one _))
  · intro hth lo h a e s m k n k0 w r hh ha he hes hn hw i hi
    rw [C145_mode lo h a theta e s m k n k0 hh ha hth0 hth1 he hes hn] at hw
    obtain ⟨rfl, -⟩ := Prod.mk.inj (Option.some.inj hw)
    have hr : 0 ≤ modeRate a h m k := by
      unfold modeRate
      exact mul_nonneg (by positivity) (by linarith [Real.cos_le_one (m * Real.pi / (k + 3))])
    have hn' : (0 : ℝ) < n := by exact_mod_cast hn
    have hd : 0 < (s - e) / n := div_pos (by linarith) hn'
    rw [List.getD_eq_getElem _ _ (by simpa using hi), List.getElem_map, List.getElem_range, abs_mul, abs_pow]
    have hf := (C48_stable theta (-(modeRate a h m k * ((s - e) / n))) hth (by have := mul_nonneg hr hd.le; linarith))
    exact mul_le_of_le_one_left (abs_nonneg _) (pow_le_one₀ (abs_nonneg _) hf.1)

/-- C145, deviation from the documentation "The scheme is stable for `theta >= 0.5`": the explicit scheme, `theta = 1`, on four points. -/
theorem C145_documented_deviates : ∀ bound : ℝ, ∃ n : ℕ, ∃ w, solveBackward (n : ℝ) 0 ((List.range 4).map (sineMode 2 0)) (some n) 0 none
    (fdStep (uniformGrid 0 1 0) (heatCoeffs 1 0) (dirichletCondition fun _ => 0) (dirichletCondition fun _ => 0) 1) none = some (w, 0, n) ∧
    bound < |w.getD 1 0| := by
  intro bound
  obtain ⟨n, _, w, hw, hb⟩ := C145_unstable 0 1 1 1 0 1 0 0 one_pos one_pos zero_le_one le_rfl le_rfl one_pos (by norm_num) bound
  refine ⟨n, w, ?_, hb⟩
  rw [zero_add, mul_one, Nat.zero_add n] at hw
  exact hw

/-- C145, `dirichlet`: after a step the values at the boundaries are those of the given functions at the end of the step. -/
theorem C145_dirichlet {K : Type} [Field K] [LinearOrder K] [IsStrictOrderedRing K] (k : Nat) (x v : Nat → K) (hx : Increasing x k) (c : K → PdeCoeffs K)
    (f g : K → K) (theta t1 t2 : K) (hc : OnGrid (c ((t1 + t2) / 2)) (k + 4)) (w : List K)
    (h : parabolicStep t1 t2 ((List.range (k + 4)).map x) ((List.range (k + 4)).map v) (some (dirichletCondition f)) (some (dirichletCondition g)) c
      (weightedScheme theta) = some w) : w.getD 0 0 = f t2 ∧ w.getD (k + 3) 0 = g t2 := by
  have p : ∀ (f : K → K) (t : K), Prescribes (dirichletCondition f t) (f t) := fun f t => ⟨1, f t, rfl, one_ne_zero, by simp⟩
  obtain ⟨-, -, -, h0, hn, -⟩ := dirichlet_rows x v k hx c _ _ theta t1 t2 _ _ _ _ hc (p f _) (p g _) (p f _) (p g _) w h
  exact ⟨h0, hn⟩

/-- C145, `neumann`: after a step the parabolas through the three points next to the boundaries have the given derivatives in the direction out of the grid. -/
theorem C145_neumann {K : Type} [Field K] [LinearOrder K] [IsStrictOrderedRing K] (k : Nat) (x v : Nat → K) (hx : Increasing x k) (c : K → PdeCoeffs K)
    (f g : K → K) (theta t1 t2 : K) (hc : OnGrid (c ((t1 + t2) / 2)) (k + 4)) (w : List K)
    (h : parabolicStep t1 t2 ((List.range (k + 4)).map x) ((List.range (k + 4)).map v) (some (neumannCondition f)) (some (neumannCondition g)) c
      (weightedScheme theta) = some w) :
    (∀ p : Parabola K, p.Through x (fun i => w.getD i 0) 0 → -p.slope (x 0) = f t2) ∧
    (∀ p : Parabola K, p.Through x (fun i => w.getD i 0) (k + 1) → p.slope (x (k + 3)) = g t2) := by
  have p : ∀ t, ProperAt (some (neumannCondition f)) (some (neumannCondition g)) t := fun t =>
    ⟨by rintro _ ⟨⟩; exact one_ne_zero, by rintro _ ⟨⟩; exact one_ne_zero⟩
  obtain ⟨-, -, -, hbc, -⟩ := step_rows k x v hx c _ _ theta t1 t2 hc (p _) (p _) w h
  refine ⟨fun q hq => ?_, fun q hq => ?_⟩
  · have := hbc.lower _ rfl q hq
    simpa [neumannCondition] using this
  · have := hbc.upper _ rfl q hq
    simpa [neumannCondition] using this

/-- Three explicit steps of length one on the grid 0, 1, 2, 3 multiply the values by minus eight. -/
example : solveBackward (3 : ℝ) 0 ((List.range 4).map (sineMode 2 0)) (some 3) 0 none
    (fdStep (uniformGrid 0 1 0) (heatCoeffs 1 0) (dirichletCondition fun _ => 0) (dirichletCondition fun _ => 0) 1) none =
    some ((List.range 4).map (fun i => -8 * sineMode 2 0 i), 0, 3) := by
  have := C145_mode 0 1 1 1 0 3 2 0 3 0 one_pos one_pos zero_le_one le_rfl le_rfl (by norm_num) (by omega)
  have hc : Real.cos (2 * Real.pi / 3) = -(1 / 2) := by
    rw [show 2 * Real.pi / 3 = Real.pi - Real.pi / 3 by ring, Real.cos_pi_sub, Real.cos_pi_div_three]
  have hF : weightedFactor 1 (-(modeRate 1 1 2 0 * ((3 - 0) / (3 : ℕ)))) ^ 3 = -8 := by
    unfold weightedFactor modeRate
    push_cast
    rw [zero_add, hc]
    norm_num
  rw [hF] at this
  exact this

end Props
