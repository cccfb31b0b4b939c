import Verif.Lemmas.QuasiLimit
import Mathlib.Algebra.Order.Field.GeomSum
import Mathlib.Topology.Order.MonotoneContinuity

/-! Averages of functions of normal quantiles of point sets. -/

namespace Spec

/-- Points strictly inside the cube of which not too many are close to the boundary: within `δ` at most `C δ N` of them in each coordinate. -/
def FewNearBoundary (s : ℕ) (C : ℝ) (N : ℕ) (x : ℕ → Fin s → ℝ) : Prop :=
  (∀ n, n < N → ∀ c, 0 < x n c ∧ x n c < 1) ∧
  ∀ c δ, 0 < δ → (((Finset.range N).filter fun n => x n c ≤ δ ∨ 1 - δ ≤ x n c).card : ℝ) ≤ C * δ * N

end Spec

namespace Lemmas
open Spec Model MeasureTheory ProbabilityTheory Filter Topology
open Props.RandomOps (quantile)

theorem quantile_strictMonoOn : StrictMonoOn quantile (Set.Ioo 0 1) := by
  intro p hp q hq h
  by_contra hn
  push Not at hn
  have h1 := normalCdf_strictMono.monotone hn
  rw [Props.RandomOps.quantile_cdf hp.1 hp.2, Props.RandomOps.quantile_cdf hq.1 hq.2] at h1
  linarith

theorem quantile_normalCdf (z : ℝ) : quantile (normalCdf z) = z := by
  apply normalCdf_strictMono.injective
  rw [Props.RandomOps.quantile_cdf (normalCdf_pos z) (normalCdf_lt_one z)]

theorem quantile_continuousOn : ContinuousOn quantile (Set.Ioo 0 1) := by
  intro p hp
  refine (quantile_strictMonoOn.continuousAt_of_image_mem_nhds (Ioo_mem_nhds hp.1 hp.2) ?_).continuousWithinAt
  have : quantile '' Set.Ioo 0 1 = Set.univ := by
    refine Set.eq_univ_of_forall fun z => ⟨normalCdf z, ⟨normalCdf_pos z, normalCdf_lt_one z⟩, quantile_normalCdf z⟩
  rw [this]
  exact univ_mem

theorem quantile_pi_continuousOn (s : ℕ) : ContinuousOn (fun (u : Fin s → ℝ) c => quantile (u c)) (openCube s) := by
  refine continuousOn_pi.2 fun c => ?_
  exact quantile_continuousOn.comp (continuous_apply c).continuousOn fun u hu => hu c trivial

/-- The law of the vector of quantiles of a uniform point. -/
theorem quantile_pi_law (s : ℕ) : ((volume : Measure (Fin s → ℝ)).restrict (unitCube s)).map (fun u c => quantile (u c)) = Measure.pi fun _ : Fin s => gaussianReal 0 1 := by
  rw [restrict_unitCube, restrict_openCube]
  have hl : ((volume : Measure ℝ).restrict (Set.Ioo 0 1)).map quantile = gaussianReal 0 1 := Props.C103_quantile_law
  have hm : AEMeasurable quantile ((volume : Measure ℝ).restrict (Set.Ioo 0 1)) := quantile_continuousOn.aemeasurable measurableSet_Ioo
  have hsf : ∀ _ : Fin s, SigmaFinite (((volume : Measure ℝ).restrict (Set.Ioo 0 1)).map quantile) := fun _ => by rw [hl]; infer_instance
  have h := Measure.pi_map_pi (μ := fun _ : Fin s => (volume : Measure ℝ).restrict (Set.Ioo 0 1)) (f := fun _ => quantile) (fun _ => hm)
  simp_rw [hl] at h
  exact h

theorem quantile_pi_aemeasurable (s : ℕ) : AEMeasurable (fun (u : Fin s → ℝ) c => quantile (u c)) ((volume : Measure (Fin s → ℝ)).restrict (unitCube s)) := by
  rw [restrict_unitCube]
  exact (quantile_pi_continuousOn s).aemeasurable (openCube_isOpen s).measurableSet

theorem quantile_pi_integral (s : ℕ) (f : (Fin s → ℝ) → ℝ) (hf : Measurable f) :
    ∫ u in unitCube s, f (fun c => quantile (u c)) = ∫ z, f z ∂(Measure.pi fun _ : Fin s => gaussianReal 0 1) := by
  rw [← quantile_pi_law, integral_map (quantile_pi_aemeasurable s) hf.aestronglyMeasurable]

/-- Bounded continuous functions of normal quantiles. -/
theorem averageLimit_normal (s : ℕ) (P : ℕ → (ℕ → Fin s → ℝ) → Prop)
    (hP : ∀ g : (Fin s → ℝ) → ℝ, ContinuousOn g (Set.Icc 0 1) → AverageLimit s P g (∫ u in unitCube s, g u))
    (f : (Fin s → ℝ) → ℝ) (hf : Continuous f) (B : ℝ) (hB : ∀ z, |f z| ≤ B) :
    AverageLimit s P (fun u => f (fun c => quantile (u c))) (∫ z, f z ∂(Measure.pi fun _ : Fin s => gaussianReal 0 1)) := by
  rw [← quantile_pi_integral s f hf.measurable]
  exact averageLimit_open s P hP _ (hf.comp_continuousOn (quantile_pi_continuousOn s)) B fun u => hB _

/-- Exponentials of quantiles grow slower than the inverse square root of the distance to the ends of the interval. -/
theorem exp_quantile (a p : ℝ) (h0 : 0 < p) (h1 : p < 1) : Real.exp (a * |quantile p|) ≤ Real.exp (a ^ 2) / Real.sqrt (min p (1 - p)) := by
  have key : ∃ y, y ≤ 0 ∧ |quantile p| = -y ∧ normalCdf y = min p (1 - p) := by
    have hq := Props.RandomOps.quantile_cdf h0 h1
    rcases le_total (quantile p) 0 with h | h
    · refine ⟨quantile p, h, abs_of_nonpos h, ?_⟩
      have := normalCdf_strictMono.monotone h
      rw [hq, normalCdf_zero] at this
      rw [hq, min_eq_left (by linarith)]
    · refine ⟨-quantile p, by linarith, by rw [neg_neg, abs_of_nonneg h], ?_⟩
      have := normalCdf_strictMono.monotone h
      rw [hq, normalCdf_zero] at this
      rw [normalCdf_neg, hq, min_eq_right (by linarith)]
  obtain ⟨y, hy, hq, hm⟩ := key
  have hpos := normalCdf_pos y
  have hle := normalCdf_le_exp y hy
  rw [hm] at hpos hle
  rw [hq, le_div_iff₀ (Real.sqrt_pos.2 hpos)]
  have hs : Real.sqrt (min p (1 - p)) ≤ Real.exp (-y ^ 2 / 4) := by
    rw [show Real.exp (-y ^ 2 / 4) = Real.sqrt (Real.exp (-y ^ 2 / 4) ^ 2) by rw [Real.sqrt_sq (Real.exp_pos _).le]]
    refine Real.sqrt_le_sqrt (le_trans hle (le_of_eq ?_))
    rw [← Real.exp_nat_mul]
    congr 1
    push_cast
    ring
  calc Real.exp (a * -y) * Real.sqrt (min p (1 - p)) ≤ Real.exp (a * -y) * Real.exp (-y ^ 2 / 4) := mul_le_mul_of_nonneg_left hs (Real.exp_pos _).le
    _ = Real.exp (a * -y + -y ^ 2 / 4) := (Real.exp_add _ _).symm
    _ ≤ Real.exp (a ^ 2) := Real.exp_le_exp.2 (by nlinarith [sq_nonneg (a + y / 2)])

/-- The inverse square root as a sum over scales. -/
theorem scales_bound (m : ℝ) (J L : ℕ) (hJ : m ≤ (1 / 2) ^ J) (hL : (1 / 2) ^ L < m) :
    1 / Real.sqrt m ≤ ∑ j ∈ Finset.Ico J L, if m ≤ (1 / 2) ^ j then Real.sqrt 2 ^ (j + 1) else 0 := by
  have hm0 : 0 < m := lt_trans (by positivity) hL
  have hm1 : m ≤ 1 := le_trans hJ (pow_le_one₀ (by norm_num) (by norm_num))
  obtain ⟨n, h1, h2⟩ := exists_nat_pow_near_of_lt_one hm0 hm1 (by norm_num : (0 : ℝ) < 1 / 2) (by norm_num)
  have hn1 : J ≤ n := by
    have := lt_of_lt_of_le h1 hJ
    have := (pow_lt_pow_iff_right_of_lt_one₀ (by norm_num : (0 : ℝ) < 1 / 2) (by norm_num)).1 this
    omega
  have hn2 : n < L := by
    have := lt_of_lt_of_le hL h2
    exact (pow_lt_pow_iff_right_of_lt_one₀ (by norm_num : (0 : ℝ) < 1 / 2) (by norm_num)).1 this
  have hs := Finset.single_le_sum (f := fun j => if m ≤ (1 / 2) ^ j then Real.sqrt 2 ^ (j + 1) else 0) (s := Finset.Ico J L)
    (fun j _ => by beta_reduce; split <;> positivity) (Finset.mem_Ico.2 ⟨hn1, hn2⟩)
  beta_reduce at hs
  rw [if_pos h2] at hs
  refine le_trans ?_ hs
  have h3 : Real.sqrt ((1 / 2) ^ (n + 1)) ≤ Real.sqrt m := Real.sqrt_le_sqrt h1.le
  have h4 : Real.sqrt ((1 / 2) ^ (n + 1)) = 1 / Real.sqrt 2 ^ (n + 1) := by
    rw [Real.sqrt_eq_iff_mul_self_eq_of_pos (by positivity), ← sq, div_pow, ← pow_mul, mul_comm (n + 1) 2, pow_mul, Real.sq_sqrt (by norm_num)]
    rw [one_pow, div_pow, one_pow]
  rw [h4] at h3
  rw [div_le_iff₀ (Real.sqrt_pos.2 hm0)]
  rw [div_le_iff₀ (by positivity)] at h3
  linarith

/-- The contribution of points near the boundary. -/
theorem tail_sum (s : ℕ) (C : ℝ) (hC : 0 ≤ C) (N : ℕ) (x : ℕ → Fin s → ℝ) (h : FewNearBoundary s C N x) (a : ℝ) (J : ℕ) (c : Fin s) :
    ∑ n ∈ Finset.range N, (if min (x n c) (1 - x n c) ≤ (1 / 2) ^ J then Real.exp (a * |quantile (x n c)|) else 0) ≤
      Real.exp (a ^ 2) * (C * Real.sqrt 2 * ((Real.sqrt 2 / 2) ^ J / (1 - Real.sqrt 2 / 2))) * N := by
  have hmin : ∀ n, n < N → 0 < min (x n c) (1 - x n c) := fun n hn => lt_min (h.1 n hn c).1 (by linarith [(h.1 n hn c).2])
  obtain ⟨L, hL⟩ : ∃ L : ℕ, ∀ n, n < N → (1 / 2 : ℝ) ^ L < min (x n c) (1 - x n c) := by
    have : ∀ n, ∃ l : ℕ, n < N → (1 / 2 : ℝ) ^ l < min (x n c) (1 - x n c) := by
      intro n
      by_cases hn : n < N
      · obtain ⟨l, hl⟩ := exists_pow_lt_of_lt_one (hmin n hn) (by norm_num : (1 / 2 : ℝ) < 1)
        exact ⟨l, fun _ => hl⟩
      · exact ⟨0, fun h => absurd h hn⟩
    choose l hl using this
    refine ⟨(Finset.range N).sup l, fun n hn => lt_of_le_of_lt ?_ (hl n hn)⟩
    exact pow_le_pow_of_le_one (by norm_num) (by norm_num) (Finset.le_sup (f := l) (Finset.mem_range.2 hn))
  have e1 : ∀ n ∈ Finset.range N, (if min (x n c) (1 - x n c) ≤ (1 / 2) ^ J then Real.exp (a * |quantile (x n c)|) else 0) ≤
      Real.exp (a ^ 2) * ∑ j ∈ Finset.Ico J L, if min (x n c) (1 - x n c) ≤ (1 / 2) ^ j then Real.sqrt 2 ^ (j + 1) else 0 := by
    intro n hn
    have hn := Finset.mem_range.1 hn
    split
    · rename_i hJ
      refine le_trans (exp_quantile a _ (h.1 n hn c).1 (h.1 n hn c).2) ?_
      rw [div_eq_mul_one_div]
      exact mul_le_mul_of_nonneg_left (scales_bound _ J L hJ (hL n hn)) (Real.exp_pos _).le
    · exact mul_nonneg (Real.exp_pos _).le (Finset.sum_nonneg fun j _ => by split <;> positivity)
  refine le_trans (Finset.sum_le_sum e1) ?_
  rw [← Finset.mul_sum, Finset.sum_comm, mul_assoc]
  refine mul_le_mul_of_nonneg_left ?_ (Real.exp_pos _).le
  have e2 : ∀ j ∈ Finset.Ico J L, (∑ n ∈ Finset.range N, if min (x n c) (1 - x n c) ≤ (1 / 2) ^ j then Real.sqrt 2 ^ (j + 1) else 0) ≤
      C * Real.sqrt 2 * N * (Real.sqrt 2 / 2) ^ j := by
    intro j _
    rw [← Finset.sum_filter, Finset.sum_const, nsmul_eq_mul]
    have h1 := h.2 c ((1 / 2) ^ j) (by positivity)
    have h2 : (Finset.range N).filter (fun n => min (x n c) (1 - x n c) ≤ (1 / 2) ^ j) = (Finset.range N).filter (fun n => x n c ≤ (1 / 2) ^ j ∨ 1 - (1 / 2) ^ j ≤ x n c) := by
      refine Finset.filter_congr fun n _ => ?_
      rw [min_le_iff]
      refine or_congr_right ⟨fun h => by linarith, fun h => by linarith⟩
    rw [h2]
    refine le_trans (mul_le_mul_of_nonneg_right h1 (by positivity)) (le_of_eq ?_)
    rw [pow_succ, div_pow, div_pow, one_pow]
    ring
  refine le_trans (Finset.sum_le_sum e2) ?_
  rw [← Finset.mul_sum]
  have hr0 : 0 ≤ Real.sqrt 2 / 2 := by positivity
  have hr1 : Real.sqrt 2 / 2 < 1 := by
    have : Real.sqrt 2 < 2 := by
      rw [Real.sqrt_lt' (by norm_num)]; norm_num
    linarith
  calc C * Real.sqrt 2 * N * ∑ j ∈ Finset.Ico J L, (Real.sqrt 2 / 2) ^ j ≤ C * Real.sqrt 2 * N * ((Real.sqrt 2 / 2) ^ J / (1 - Real.sqrt 2 / 2)) :=
        mul_le_mul_of_nonneg_left (geom_sum_Ico_le_of_lt_one hr0 hr1) (by positivity)
    _ = C * Real.sqrt 2 * ((Real.sqrt 2 / 2) ^ J / (1 - Real.sqrt 2 / 2)) * N := by ring

/-- A number cut off at `-T` and `T`. -/
noncomputable def clipTo (T z : ℝ) : ℝ := max (-T) (min T z)

theorem clipTo_continuous (T : ℝ) : Continuous (clipTo T) := by unfold clipTo; fun_prop

theorem clipTo_eq (T z : ℝ) (h : |z| ≤ T) : clipTo T z = z := by
  obtain ⟨h1, h2⟩ := abs_le.1 h
  unfold clipTo
  rw [min_eq_right h2, max_eq_right h1]

theorem clipTo_abs (T z : ℝ) (hT : 0 ≤ T) : |clipTo T z| ≤ T ∧ |clipTo T z| ≤ |z| := by
  unfold clipTo
  have h1 : -|z| ≤ z := neg_abs_le z
  have h2 : z ≤ |z| := le_abs_self z
  refine ⟨abs_le.2 ⟨le_max_left _ _, max_le (by linarith) (min_le_left _ _)⟩, abs_le.2 ⟨?_, ?_⟩⟩
  · rcases le_total T z with h | h
    · rw [min_eq_left h]; exact le_trans (by linarith [abs_nonneg z]) (le_max_right _ _)
    · rw [min_eq_right h]; exact le_trans h1 (le_max_right _ _)
  · refine max_le (by linarith [abs_nonneg z]) (le_trans (min_le_right _ _) h2)

theorem exp_abs_integrable (s : ℕ) (a : ℝ) (c : Fin s) : Integrable (fun z : Fin s → ℝ => Real.exp (a * |z c|)) (Measure.pi fun _ : Fin s => gaussianReal 0 1) := by
  have h1 : Integrable (fun z : ℝ => Real.exp (a * |z|)) (gaussianReal 0 1) :=
    integrable_exp_mul_abs (X := fun z : ℝ => z) (integrable_exp_mul_gaussianReal a) (integrable_exp_mul_gaussianReal (-a))
  have h2 := measurePreserving_eval (fun _ : Fin s => gaussianReal 0 1) c
  exact h2.integrable_comp_of_integrable h1

/-- Continuous functions of normal quantiles with exponential growth, for points of which not too many are near the boundary. -/
theorem averageLimit_growth (s : ℕ) (P : ℕ → (ℕ → Fin s → ℝ) → Prop)
    (hP : ∀ g : (Fin s → ℝ) → ℝ, ContinuousOn g (Set.Icc 0 1) → AverageLimit s P g (∫ u in unitCube s, g u))
    (C : ℝ) (hC : 0 ≤ C) (hfew : ∀ N x, P N x → FewNearBoundary s C N x)
    (f : (Fin s → ℝ) → ℝ) (hf : Continuous f) (A a : ℝ) (hA : 0 ≤ A) (ha : 0 ≤ a) (hgrow : ∀ z, |f z| ≤ A * ∑ c, Real.exp (a * |z c|)) :
    AverageLimit s P (fun u => f (fun c => quantile (u c))) (∫ z, f z ∂(Measure.pi fun _ : Fin s => gaussianReal 0 1)) := by
  refine averageLimit_approx s P _ _ fun η hη => ?_
  -- the contribution of large values
  set K : ℝ := 2 * A * s * (s * (Real.exp (a ^ 2) * (C * Real.sqrt 2 / (1 - Real.sqrt 2 / 2)))) with hK
  have hr0 : 0 ≤ Real.sqrt 2 / 2 := by positivity
  have hr1 : Real.sqrt 2 / 2 < 1 := by
    have : Real.sqrt 2 < 2 := by
      rw [Real.sqrt_lt' (by norm_num)]; norm_num
    linarith
  have hK0 : 0 ≤ K := by
    have : 0 < 1 - Real.sqrt 2 / 2 := by linarith
    rw [hK]; positivity
  obtain ⟨J, hJ⟩ : ∃ J : ℕ, K * (Real.sqrt 2 / 2) ^ (J + 1) ≤ η := by
    obtain ⟨J, hJ⟩ := exists_pow_lt_of_lt_one (show 0 < η / (K + 1) by positivity) hr1
    refine ⟨J, ?_⟩
    rw [lt_div_iff₀ (by linarith)] at hJ
    have : (Real.sqrt 2 / 2) ^ (J + 1) ≤ (Real.sqrt 2 / 2) ^ J := pow_le_pow_of_le_one hr0 hr1.le (by omega)
    have h0 : 0 ≤ (Real.sqrt 2 / 2) ^ J := by positivity
    nlinarith
  -- the cut
  have hlim : Tendsto (fun n : ℕ => ∫ z, f (fun c => clipTo n (z c)) ∂(Measure.pi fun _ : Fin s => gaussianReal 0 1)) atTop
      (𝓝 (∫ z, f z ∂(Measure.pi fun _ : Fin s => gaussianReal 0 1))) := by
    refine tendsto_integral_of_dominated_convergence (fun z => A * ∑ c, Real.exp (a * |z c|)) (fun n => ?_)
      ((integrable_finset_sum _ fun c _ => exp_abs_integrable s a c).const_mul A) (fun n => Eventually.of_forall fun z => ?_) (Eventually.of_forall fun z => ?_)
    · refine (hf.comp ?_).aestronglyMeasurable
      exact continuous_pi fun c => (clipTo_continuous n).comp (continuous_apply c)
    · rw [Real.norm_eq_abs]
      refine le_trans (hgrow _) (mul_le_mul_of_nonneg_left (Finset.sum_le_sum fun c _ => ?_) hA)
      exact Real.exp_le_exp.2 (mul_le_mul_of_nonneg_left (clipTo_abs _ _ (Nat.cast_nonneg n)).2 ha)
    · refine tendsto_nhds_of_eventually_eq ?_
      obtain ⟨n0, hn0⟩ := exists_nat_ge (∑ c, |z c|)
      filter_upwards [eventually_ge_atTop n0] with n hn
      congr 1
      funext c
      refine clipTo_eq _ _ ?_
      have h1 : |z c| ≤ ∑ c, |z c| := Finset.single_le_sum (f := fun c => |z c|) (fun c _ => abs_nonneg _) (Finset.mem_univ c)
      have h2 : (n0 : ℝ) ≤ n := by exact_mod_cast hn
      linarith
  obtain ⟨n1, hn1⟩ := (Metric.tendsto_atTop.1 hlim) η hη
  obtain ⟨n2, hn2⟩ := exists_nat_ge (-quantile ((1 / 2) ^ (J + 1)))
  set n := max n1 n2 with hn
  have hI := hn1 n (le_max_left _ _)
  rw [Real.dist_eq] at hI
  have hT : -quantile ((1 / 2) ^ (J + 1)) ≤ (n : ℝ) := le_trans hn2 (by exact_mod_cast le_max_right n1 n2)
  have hn0 : (0 : ℝ) ≤ n := Nat.cast_nonneg n
  have hcont : Continuous (fun z : Fin s → ℝ => f (fun c => clipTo n (z c))) := hf.comp (continuous_pi fun c => (clipTo_continuous n).comp (continuous_apply c))
  have hlimg := averageLimit_normal s P hP (fun z => f (fun c => clipTo n (z c))) hcont (A * ∑ _c : Fin s, Real.exp (a * n)) (fun z =>
    le_trans (hgrow _) (mul_le_mul_of_nonneg_left (Finset.sum_le_sum fun c _ => Real.exp_le_exp.2 (mul_le_mul_of_nonneg_left (clipTo_abs _ _ hn0).1 ha)) hA))
  refine ⟨_, _, hlimg, hI.le, 0, fun N _ x hx => ?_⟩
  have hfx := hfew N x hx
  have hhalf : (0 : ℝ) < (1 / 2) ^ (J + 1) ∧ ((1 : ℝ) / 2) ^ (J + 1) < 1 := ⟨by positivity, pow_lt_one₀ (by norm_num) (by norm_num) (by omega)⟩
  -- the difference at one point
  have hdiff : ∀ z : Fin s → ℝ, |f z - f (fun c => clipTo n (z c))| ≤ 2 * A * s * ∑ c, if (n : ℝ) < |z c| then Real.exp (a * |z c|) else 0 := by
    intro z
    by_cases hz : ∀ c, |z c| ≤ n
    · have : (fun c => clipTo n (z c)) = z := funext fun c => clipTo_eq _ _ (hz c)
      rw [this, sub_self, abs_zero]
      refine mul_nonneg (by positivity) (Finset.sum_nonneg fun c _ => by split <;> positivity)
    · push Not at hz
      obtain ⟨c0, hc0⟩ := hz
      obtain ⟨cm, -, hcm⟩ := Finset.exists_max_image Finset.univ (fun c => |z c|) ⟨c0, Finset.mem_univ c0⟩
      have h1 : |f z| ≤ A * (s * Real.exp (a * |z cm|)) := by
        refine le_trans (hgrow z) (mul_le_mul_of_nonneg_left ?_ hA)
        refine le_trans (Finset.sum_le_card_nsmul _ _ (Real.exp (a * |z cm|)) fun c hc => Real.exp_le_exp.2 (mul_le_mul_of_nonneg_left (hcm c hc) ha)) ?_
        rw [Finset.card_univ, Fintype.card_fin, nsmul_eq_mul]
      have h2 : |f (fun c => clipTo n (z c))| ≤ A * (s * Real.exp (a * |z cm|)) := by
        refine le_trans (hgrow _) (mul_le_mul_of_nonneg_left ?_ hA)
        refine le_trans (Finset.sum_le_card_nsmul _ _ (Real.exp (a * |z cm|)) fun c hc =>
          Real.exp_le_exp.2 (mul_le_mul_of_nonneg_left (le_trans (clipTo_abs _ _ hn0).2 (hcm c hc)) ha)) ?_
        rw [Finset.card_univ, Fintype.card_fin, nsmul_eq_mul]
      have h3 : Real.exp (a * |z cm|) ≤ ∑ c, if (n : ℝ) < |z c| then Real.exp (a * |z c|) else 0 := by
        have := Finset.single_le_sum (f := fun c => if (n : ℝ) < |z c| then Real.exp (a * |z c|) else 0) (s := Finset.univ)
          (fun c _ => by beta_reduce; split <;> positivity) (Finset.mem_univ cm)
        beta_reduce at this
        rwa [if_pos (lt_of_lt_of_le hc0 (hcm c0 (Finset.mem_univ _)))] at this
      refine le_trans (abs_sub _ _) ?_
      have h4 : 0 ≤ A * s := by positivity
      nlinarith [mul_le_mul_of_nonneg_left h3 h4]
  -- large quantiles belong to points near the boundary
  have hnear : ∀ m, m < N → ∀ c, (if (n : ℝ) < |quantile (x m c)| then Real.exp (a * |quantile (x m c)|) else 0) ≤
      if min (x m c) (1 - x m c) ≤ (1 / 2) ^ (J + 1) then Real.exp (a * |quantile (x m c)|) else 0 := by
    intro m hm c
    by_cases h : (n : ℝ) < |quantile (x m c)|
    · rw [if_pos h, if_pos]
      have hq := Props.RandomOps.quantile_cdf (hfx.1 m hm c).1 (hfx.1 m hm c).2
      have hq2 := Props.RandomOps.quantile_cdf hhalf.1 hhalf.2
      have h' := lt_of_le_of_lt hT h
      rw [min_le_iff]
      rcases le_total (quantile (x m c)) 0 with hs | hs
      · left
        rw [abs_of_nonpos hs] at h'
        rw [← hq, ← hq2]
        exact normalCdf_strictMono.monotone (by linarith)
      · right
        rw [abs_of_nonneg hs] at h'
        rw [← hq2, ← hq, ← normalCdf_neg]
        exact normalCdf_strictMono.monotone (by linarith)
    · rw [if_neg h]
      split <;> positivity
  rcases Nat.eq_zero_or_pos N with hN | hN
  · rw [hN]; simp [hη.le]
  have hN0 : (0 : ℝ) < N := by exact_mod_cast hN
  rw [div_le_iff₀ hN0]
  calc ∑ m ∈ Finset.range N, |f (fun c => quantile (x m c)) - f (fun c => clipTo n (quantile (x m c)))|
      ≤ ∑ m ∈ Finset.range N, 2 * A * s * ∑ c, if min (x m c) (1 - x m c) ≤ (1 / 2) ^ (J + 1) then Real.exp (a * |quantile (x m c)|) else 0 := by
        refine Finset.sum_le_sum fun m hm => le_trans (hdiff _) (mul_le_mul_of_nonneg_left (Finset.sum_le_sum fun c _ => hnear m (Finset.mem_range.1 hm) c) (by positivity))
    _ = 2 * A * s * ∑ c, ∑ m ∈ Finset.range N, if min (x m c) (1 - x m c) ≤ (1 / 2) ^ (J + 1) then Real.exp (a * |quantile (x m c)|) else 0 := by
        rw [← Finset.mul_sum, Finset.sum_comm]
    _ ≤ 2 * A * s * ∑ _c : Fin s, Real.exp (a ^ 2) * (C * Real.sqrt 2 * ((Real.sqrt 2 / 2) ^ (J + 1) / (1 - Real.sqrt 2 / 2))) * N :=
        mul_le_mul_of_nonneg_left (Finset.sum_le_sum fun c _ => tail_sum s C hC N x hfx a (J + 1) c) (by positivity)
    _ = K * (Real.sqrt 2 / 2) ^ (J + 1) * N := by
        rw [Finset.sum_const, Finset.card_univ, Fintype.card_fin, nsmul_eq_mul, hK]
        ring
    _ ≤ η * N := mul_le_mul_of_nonneg_right hJ hN0.le

end Lemmas
