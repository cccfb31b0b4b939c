import Verif.Lemmas.NetIntegral
import Verif.Props.RandomOpsQuasi
import Mathlib.MeasureTheory.Integral.DominatedConvergence
import Mathlib.MeasureTheory.Integral.Pi
import Mathlib.Probability.Moments.IntegrableExpMul
import Mathlib.Topology.Algebra.Order.LiminfLimsup

/-! Averages over point sets of functions that are not continuous at the boundary of the cube. -/

namespace Spec

/-- The averages of the function over configurations of `N` points tend to the number, uniformly in the configurations. -/
def AverageLimit (s : ℕ) (P : ℕ → (ℕ → Fin s → ℝ) → Prop) (f : (Fin s → ℝ) → ℝ) (I : ℝ) : Prop :=
  ∀ ε, 0 < ε → ∃ N0, ∀ N, N0 ≤ N → ∀ x, P N x → |(∑ n ∈ Finset.range N, f (x n)) / N - I| ≤ ε

end Spec

namespace Lemmas
open Spec MeasureTheory ProbabilityTheory Filter Topology

/-- A function that can be approximated in the mean over the points by functions with limits has a limit. -/
theorem averageLimit_approx (s : ℕ) (P : ℕ → (ℕ → Fin s → ℝ) → Prop) (f : (Fin s → ℝ) → ℝ) (I : ℝ)
    (h : ∀ η, 0 < η → ∃ g Ig, AverageLimit s P g Ig ∧ |Ig - I| ≤ η ∧
      ∃ N1, ∀ N, N1 ≤ N → ∀ x, P N x → (∑ n ∈ Finset.range N, |f (x n) - g (x n)|) / N ≤ η) : AverageLimit s P f I := by
  intro ε hε
  obtain ⟨g, Ig, hg, hI, N1, h1⟩ := h (ε / 3) (by linarith)
  obtain ⟨N0, h0⟩ := hg (ε / 3) (by linarith)
  refine ⟨max N0 N1, fun N hN x hx => ?_⟩
  have e0 := h0 N (le_trans (le_max_left _ _) hN) x hx
  have e1 := h1 N (le_trans (le_max_right _ _) hN) x hx
  have e2 : |(∑ n ∈ Finset.range N, f (x n)) / N - (∑ n ∈ Finset.range N, g (x n)) / N| ≤ ε / 3 := by
    rw [← sub_div, ← Finset.sum_sub_distrib, abs_div, Nat.abs_cast]
    exact le_trans (div_le_div_of_nonneg_right (Finset.abs_sum_le_sum_abs _ _) (Nat.cast_nonneg _)) e1
  have e3 : (∑ n ∈ Finset.range N, f (x n)) / N - I = ((∑ n ∈ Finset.range N, f (x n)) / N - (∑ n ∈ Finset.range N, g (x n)) / N) +
      ((∑ n ∈ Finset.range N, g (x n)) / N - Ig) + (Ig - I) := by ring
  rw [e3]
  refine le_trans (abs_add_le _ _) (le_trans (add_le_add (abs_add_le _ _) (le_refl _)) ?_)
  linarith

/-- The open unit cube. -/
def openCube (s : ℕ) : Set (Fin s → ℝ) := Set.pi Set.univ (fun _ => Set.Ioo 0 1)

theorem openCube_isOpen (s : ℕ) : IsOpen (openCube s) := isOpen_set_pi Set.finite_univ fun _ _ => isOpen_Ioo

theorem restrict_openCube (s : ℕ) : (volume : Measure (Fin s → ℝ)).restrict (openCube s) = Measure.pi (fun _ => (volume : Measure ℝ).restrict (Set.Ioo 0 1)) := by
  unfold openCube
  rw [volume_pi, Measure.restrict_pi_pi]

theorem restrict_unitCube (s : ℕ) : (volume : Measure (Fin s → ℝ)).restrict (unitCube s) = (volume : Measure (Fin s → ℝ)).restrict (openCube s) := by
  have e : unitCube s = Set.pi Set.univ (fun _ => Set.Ico 0 1) := by
    ext u
    simp [unitCube, Set.mem_pi]
  rw [restrict_openCube, e, volume_pi, Measure.restrict_pi_pi]
  congr 1
  funext c
  exact Measure.restrict_congr_set Ioo_ae_eq_Ico.symm

/-- A cut-off near the ends of the unit interval. -/
noncomputable def cutOff (k t : ℝ) : ℝ := max 0 (min 1 (k * min t (1 - t) - 1))

theorem cutOff_continuous (k : ℝ) : Continuous (cutOff k) := by unfold cutOff; fun_prop

theorem cutOff_mem (k t : ℝ) : 0 ≤ cutOff k t ∧ cutOff k t ≤ 1 := by
  unfold cutOff
  exact ⟨le_max_left _ _, max_le zero_le_one (min_le_left _ _)⟩

/-- The cut-off of the cube. -/
noncomputable def cubeCut (s : ℕ) (k : ℝ) (u : Fin s → ℝ) : ℝ := ∏ c, cutOff k (u c)

theorem cubeCut_continuous (s : ℕ) (k : ℝ) : Continuous (cubeCut s k) :=
  continuous_finset_prod _ fun c _ => (cutOff_continuous k).comp (continuous_apply c)

theorem cubeCut_mem (s : ℕ) (k : ℝ) (u : Fin s → ℝ) : 0 ≤ cubeCut s k u ∧ cubeCut s k u ≤ 1 :=
  ⟨Finset.prod_nonneg fun c _ => (cutOff_mem k (u c)).1, Finset.prod_le_one (fun c _ => (cutOff_mem k (u c)).1) fun c _ => (cutOff_mem k (u c)).2⟩

theorem cubeCut_mul_continuous (s : ℕ) (k : ℝ) (f : (Fin s → ℝ) → ℝ) (hf : ContinuousOn f (openCube s)) :
    ContinuousOn (fun u => cubeCut s k u * f u) (Set.Icc 0 1) := by
  intro u hu
  refine ContinuousAt.continuousWithinAt ?_
  by_cases h : u ∈ openCube s
  · exact (cubeCut_continuous s k).continuousAt.mul (hf.continuousAt ((openCube_isOpen s).mem_nhds h))
  · have hc : ∃ c, min (u c) (1 - u c) ≤ 0 := by
      by_contra hn
      push Not at hn
      refine h fun c _ => ⟨?_, ?_⟩
      · exact lt_of_lt_of_le (hn c) (min_le_left _ _)
      · have := lt_of_lt_of_le (hn c) (min_le_right _ _); linarith
    obtain ⟨c, hc⟩ := hc
    have hev : ∀ᶠ v in 𝓝 u, cubeCut s k v * f v = 0 := by
      have hcont : Continuous (fun v : Fin s → ℝ => k * min (v c) (1 - v c) - 1) := by fun_prop
      have hcc : Tendsto (fun v : Fin s → ℝ => |k| * |min (v c) (1 - v c)|) (𝓝 u) (𝓝 (|k| * |min (u c) (1 - u c)|)) := by
        have : Continuous (fun v : Fin s → ℝ => |k| * |min (v c) (1 - v c)|) := by fun_prop
        exact this.continuousAt
      have h0 : min (u c) (1 - u c) = 0 := by
        refine le_antisymm hc (le_min ?_ ?_)
        · exact hu.1 c
        · have := hu.2 c; simp only [Pi.one_apply] at this; linarith
      rw [h0, abs_zero, mul_zero] at hcc
      filter_upwards [hcc.eventually_lt_const (zero_lt_one)] with v hv
      have : cutOff k (v c) = 0 := by
        unfold cutOff
        refine max_eq_left (le_trans (min_le_right _ _) ?_)
        have := le_abs_self (k * min (v c) (1 - v c))
        rw [abs_mul] at this
        linarith
      unfold cubeCut
      rw [Finset.prod_eq_zero (Finset.mem_univ c) this, zero_mul]
    exact (continuousAt_const (y := (0 : ℝ))).congr (hev.mono fun v hv => hv.symm)

theorem cutOff_tendsto (t : ℝ) (h0 : 0 < t) (h1 : t < 1) : ∀ᶠ k : ℕ in atTop, cutOff (k : ℝ) t = 1 := by
  have hm : 0 < min t (1 - t) := lt_min h0 (by linarith)
  obtain ⟨K, hK⟩ := exists_nat_gt (2 / min t (1 - t))
  filter_upwards [eventually_ge_atTop K] with k hk
  have : (2 : ℝ) ≤ k * min t (1 - t) := by
    rw [div_lt_iff₀ hm] at hK
    have hk' : (K : ℝ) ≤ k := by exact_mod_cast hk
    nlinarith
  unfold cutOff
  rw [min_eq_left (by linarith), max_eq_right zero_le_one]

theorem cubeCut_tendsto (s : ℕ) (u : Fin s → ℝ) (hu : u ∈ openCube s) : ∀ᶠ k : ℕ in atTop, cubeCut s (k : ℝ) u = 1 := by
  have : ∀ᶠ k : ℕ in atTop, ∀ c, cutOff (k : ℝ) (u c) = 1 := by
    rw [eventually_all]
    exact fun c => cutOff_tendsto (u c) (hu c trivial).1 (hu c trivial).2
  filter_upwards [this] with k hk
  unfold cubeCut
  simp [hk]

theorem openCube_prob (s : ℕ) : IsProbabilityMeasure ((volume : Measure (Fin s → ℝ)).restrict (openCube s)) := by
  rw [restrict_openCube]
  have : IsProbabilityMeasure ((volume : Measure ℝ).restrict (Set.Ioo 0 1)) := ⟨by simp⟩
  infer_instance

/-- If averages converge for functions that are continuous on the closed cube then they converge for bounded functions that are continuous inside. -/
theorem averageLimit_open (s : ℕ) (P : ℕ → (ℕ → Fin s → ℝ) → Prop)
    (hP : ∀ g : (Fin s → ℝ) → ℝ, ContinuousOn g (Set.Icc 0 1) → AverageLimit s P g (∫ u in unitCube s, g u))
    (f : (Fin s → ℝ) → ℝ) (hf : ContinuousOn f (openCube s)) (B : ℝ) (hB : ∀ u, |f u| ≤ B) : AverageLimit s P f (∫ u in unitCube s, f u) := by
  have hprob := openCube_prob s
  have hB0 : 0 ≤ B := le_trans (abs_nonneg _) (hB 0)
  have hmeas : AEStronglyMeasurable f ((volume : Measure (Fin s → ℝ)).restrict (openCube s)) :=
    hf.aestronglyMeasurable (openCube_isOpen s).measurableSet
  have l1 : Tendsto (fun k : ℕ => ∫ u in openCube s, cubeCut s (k : ℝ) u * f u) atTop (𝓝 (∫ u in openCube s, f u)) := by
    refine tendsto_integral_of_dominated_convergence (fun _ => B) (fun k => (cubeCut_continuous s k).aestronglyMeasurable.mul hmeas) (integrable_const _)
      (fun k => Eventually.of_forall fun u => ?_) ?_
    · rw [norm_mul, Real.norm_eq_abs, Real.norm_eq_abs, abs_of_nonneg (cubeCut_mem s k u).1]
      calc cubeCut s k u * |f u| ≤ 1 * |f u| := mul_le_mul_of_nonneg_right (cubeCut_mem s k u).2 (abs_nonneg _)
        _ ≤ B := by rw [one_mul]; exact hB u
    · filter_upwards [ae_restrict_mem (openCube_isOpen s).measurableSet] with u hu
      exact tendsto_nhds_of_eventually_eq ((cubeCut_tendsto s u hu).mono fun k hk => by rw [hk, one_mul])
  have l2 : Tendsto (fun k : ℕ => ∫ u in openCube s, cubeCut s (k : ℝ) u) atTop (𝓝 1) := by
    have : (1 : ℝ) = ∫ _u in openCube s, (1 : ℝ) := by simp [measureReal_def, ← Measure.restrict_apply_univ (openCube s)]
    rw [this]
    refine tendsto_integral_of_dominated_convergence (fun _ => 1) (fun k => (cubeCut_continuous s k).aestronglyMeasurable) (integrable_const _)
      (fun k => Eventually.of_forall fun u => ?_) ?_
    · rw [Real.norm_eq_abs, abs_of_nonneg (cubeCut_mem s k u).1]
      exact (cubeCut_mem s k u).2
    · filter_upwards [ae_restrict_mem (openCube_isOpen s).measurableSet] with u hu
      exact tendsto_nhds_of_eventually_eq (cubeCut_tendsto s u hu)
  refine averageLimit_approx s P f _ fun η hη => ?_
  rw [restrict_unitCube]
  have ev1 := (Metric.tendsto_atTop.1 l1) η hη
  have ev2 := (Metric.tendsto_atTop.1 l2) (η / (2 * (B + 1))) (by positivity)
  obtain ⟨k1, h1⟩ := ev1
  obtain ⟨k2, h2⟩ := ev2
  set k := max k1 k2 with hk
  have e1 := h1 k (le_max_left _ _)
  have e2 := h2 k (le_max_right _ _)
  rw [Real.dist_eq] at e1 e2
  have hlim1 := hP (fun u => cubeCut s k u * f u) (cubeCut_mul_continuous s k f hf)
  have hlim2 := hP (cubeCut s k) (cubeCut_continuous s k).continuousOn
  rw [restrict_unitCube] at hlim1 hlim2
  obtain ⟨N1, hN1⟩ := hlim2 (η / (2 * (B + 1))) (by positivity)
  refine ⟨_, _, hlim1, e1.le, max N1 1, fun N hN x hx => ?_⟩
  have hN0 : (0 : ℝ) < N := by exact_mod_cast (lt_of_lt_of_le zero_lt_one (le_trans (le_max_right _ _) hN))
  have e3 := hN1 N (le_trans (le_max_left _ _) hN) x hx
  have e4 : ∑ n ∈ Finset.range N, |f (x n) - cubeCut s k (x n) * f (x n)| ≤ ∑ n ∈ Finset.range N, B * (1 - cubeCut s k (x n)) := by
    refine Finset.sum_le_sum fun n _ => ?_
    have : f (x n) - cubeCut s k (x n) * f (x n) = (1 - cubeCut s k (x n)) * f (x n) := by ring
    rw [this, abs_mul, abs_of_nonneg (by linarith [(cubeCut_mem s k (x n)).2]), mul_comm]
    exact mul_le_mul_of_nonneg_right (hB _) (by linarith [(cubeCut_mem s k (x n)).2])
  have e5 : (∑ n ∈ Finset.range N, B * (1 - cubeCut s k (x n))) / N = B * (1 - (∑ n ∈ Finset.range N, cubeCut s k (x n)) / N) := by
    rw [← Finset.mul_sum, Finset.sum_sub_distrib]
    simp only [Finset.sum_const, Finset.card_range, nsmul_eq_mul, mul_one]
    field_simp
  refine le_trans (div_le_div_of_nonneg_right e4 hN0.le) ?_
  rw [e5]
  have e6 : 1 - (∑ n ∈ Finset.range N, cubeCut s k (x n)) / N ≤ η / (B + 1) := by
    have a1 := (abs_le.1 e3).1
    have a2 := (abs_lt.1 e2).1
    have : η / (B + 1) = 2 * (η / (2 * (B + 1))) := by field_simp
    rw [this]
    linarith
  calc B * (1 - (∑ n ∈ Finset.range N, cubeCut s k (x n)) / N) ≤ B * (η / (B + 1)) := mul_le_mul_of_nonneg_left e6 hB0
    _ ≤ η := by
      rw [mul_div_assoc', div_le_iff₀ (by linarith)]
      nlinarith

end Lemmas
