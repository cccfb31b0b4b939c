import Verif.Spec.CmsSwap
import Mathlib.MeasureTheory.Integral.IntervalIntegral.FundThmCalculus
import Mathlib.MeasureTheory.Integral.Prod
import Mathlib.Analysis.Calculus.Deriv.Mul
import Mathlib.Topology.Order.Compact
import Mathlib.Tactic.Linarith

/-! # Static replication of a payoff by options -/

namespace Lemmas
open MeasureTheory Set

theorem tangent_ftc (g g' g'' : ℝ → ℝ) (L U s a b : ℝ) (hab : a ≤ b) (ha : L ≤ a) (hb : b ≤ U) (h1 : ∀ u ∈ Icc L U, HasDerivAt g (g' u) u)
    (h2 : ∀ u ∈ Icc L U, HasDerivAt g' (g'' u) u) (hc : ContinuousOn g'' (Icc L U)) :
    ∫ u in a..b, g'' u * (s - u) = (s - b) * g' b + g b - ((s - a) * g' a + g a) := by
  have hsub : uIcc a b ⊆ Icc L U := by
    rw [uIcc_of_le hab]
    exact Icc_subset_Icc ha hb
  refine intervalIntegral.integral_eq_sub_of_hasDerivAt (f := fun u => (s - u) * g' u + g u) (fun u hu => ?_) ?_
  · have h3 : HasDerivAt (fun u : ℝ => s - u) (-1) u := by simpa using (hasDerivAt_id u).const_sub s
    refine ((h3.mul (h2 u (hsub hu))).add (h1 u (hsub hu))).congr_deriv ?_
    ring
  · exact ((hc.mono hsub).mul (by fun_prop)).intervalIntegrable

theorem option_zero (g'' p : ℝ → ℝ) (a b : ℝ) (hab : a ≤ b) (h : ∀ u ∈ Icc a b, p u = 0) : ∫ u in a..b, g'' u * p u = 0 := by
  have : ∫ u in a..b, g'' u * p u = ∫ _ in a..b, (0 : ℝ) := by
    refine intervalIntegral.integral_congr fun u hu => ?_
    rw [uIcc_of_le hab] at hu
    beta_reduce
    rw [h u hu, mul_zero]
  rw [this, intervalIntegral.integral_zero]

theorem option_congr (g'' p q : ℝ → ℝ) (a b : ℝ) (hab : a ≤ b) (h : ∀ u ∈ Icc a b, p u = q u) : ∫ u in a..b, g'' u * p u = ∫ u in a..b, g'' u * q u := by
  refine intervalIntegral.integral_congr fun u hu => ?_
  rw [uIcc_of_le hab] at hu
  beta_reduce
  rw [h u hu]

/-- Calls with strikes between `R` and `U` and weights `g''` pay `g` and its tangent at `U`. -/
theorem call_replication (g g' g'' : ℝ → ℝ) (R U s : ℝ) (hRU : R ≤ U) (h1 : ∀ u ∈ Icc R U, HasDerivAt g (g' u) u) (h2 : ∀ u ∈ Icc R U, HasDerivAt g' (g'' u) u)
    (hc : ContinuousOn g'' (Icc R U)) (hg : g R = 0) (hg' : g' R = 0) :
    ∫ u in R..U, g'' u * max (s - u) 0 = Spec.tangentExtension g g' R U s := by
  unfold Spec.tangentExtension
  rcases le_total s R with h | h
  · rw [option_zero g'' _ R U hRU fun u hu => max_eq_right (by linarith [hu.1]), min_eq_right (h.trans hRU), max_eq_left h, hg, hg']
    ring
  rcases le_total U s with h' | h'
  · rw [option_congr g'' _ (fun u => s - u) R U hRU fun u hu => max_eq_left (by linarith [hu.2]), min_eq_left h', max_eq_right hRU,
      tangent_ftc g g' g'' R U s R U hRU le_rfl le_rfl h1 h2 hc, hg, hg']
    ring
  · have hcont : ContinuousOn (fun u => g'' u * max (s - u) 0) (Icc R U) := hc.mul (by fun_prop)
    have i1 : IntervalIntegrable (fun u => g'' u * max (s - u) 0) volume R s :=
      (hcont.mono (by rw [uIcc_of_le h]; exact Icc_subset_Icc_right h')).intervalIntegrable
    have i2 : IntervalIntegrable (fun u => g'' u * max (s - u) 0) volume s U :=
      (hcont.mono (by rw [uIcc_of_le h']; exact Icc_subset_Icc_left h)).intervalIntegrable
    rw [← intervalIntegral.integral_add_adjacent_intervals i1 i2, option_zero g'' _ s U h' fun u hu => max_eq_right (by linarith [hu.1]),
      option_congr g'' _ (fun u => s - u) R s h fun u hu => max_eq_left (by linarith [hu.2]), min_eq_right h', max_eq_right h,
      tangent_ftc g g' g'' R U s R s h le_rfl h' h1 h2 hc, hg, hg']
    ring

/-- Puts with strikes between `L` and `R` and weights `g''` pay `g` and its tangent at `L`. -/
theorem put_replication (g g' g'' : ℝ → ℝ) (L R s : ℝ) (hLR : L ≤ R) (h1 : ∀ u ∈ Icc L R, HasDerivAt g (g' u) u) (h2 : ∀ u ∈ Icc L R, HasDerivAt g' (g'' u) u)
    (hc : ContinuousOn g'' (Icc L R)) (hg : g R = 0) (hg' : g' R = 0) :
    ∫ u in L..R, g'' u * max (u - s) 0 = Spec.tangentExtension g g' L R s := by
  have hneg : ∀ a b, a ≤ b → (∀ u ∈ Icc a b, s ≤ u) → ∫ u in a..b, g'' u * max (u - s) 0 = -∫ u in a..b, g'' u * (s - u) := by
    intro a b hab hs
    rw [option_congr g'' _ (fun u => u - s) a b hab fun u hu => max_eq_left (by linarith [hs u hu]), ← intervalIntegral.integral_neg]
    refine intervalIntegral.integral_congr fun u _ => ?_
    beta_reduce
    ring
  unfold Spec.tangentExtension
  rcases le_total R s with h | h
  · rw [option_zero g'' _ L R hLR fun u hu => max_eq_right (by linarith [hu.2]), min_eq_left h, max_eq_right hLR, hg, hg']
    ring
  rcases le_total s L with h' | h'
  · rw [hneg L R hLR fun u hu => h'.trans hu.1, min_eq_right h, max_eq_left h', tangent_ftc g g' g'' L R s L R hLR le_rfl le_rfl h1 h2 hc, hg, hg']
    ring
  · have hcont : ContinuousOn (fun u => g'' u * max (u - s) 0) (Icc L R) := hc.mul (by fun_prop)
    have i1 : IntervalIntegrable (fun u => g'' u * max (u - s) 0) volume L s :=
      (hcont.mono (by rw [uIcc_of_le h']; exact Icc_subset_Icc_right h)).intervalIntegrable
    have i2 : IntervalIntegrable (fun u => g'' u * max (u - s) 0) volume s R :=
      (hcont.mono (by rw [uIcc_of_le h]; exact Icc_subset_Icc_left h')).intervalIntegrable
    rw [← intervalIntegral.integral_add_adjacent_intervals i1 i2, option_zero g'' _ L s h' fun u hu => max_eq_right (by linarith [hu.2]),
      hneg s R h fun u hu => hu.1, min_eq_right h, max_eq_right h', tangent_ftc g g' g'' L R s s R h h' le_rfl h1 h2 hc, hg, hg']
    ring

/-- Both together. -/
theorem option_replication (g g' g'' : ℝ → ℝ) (L R U s : ℝ) (hLR : L ≤ R) (hRU : R ≤ U) (h1 : ∀ u ∈ Icc L U, HasDerivAt g (g' u) u)
    (h2 : ∀ u ∈ Icc L U, HasDerivAt g' (g'' u) u) (hc : ContinuousOn g'' (Icc L U)) (hg : g R = 0) (hg' : g' R = 0) :
    (∫ u in R..U, g'' u * max (s - u) 0) + ∫ u in L..R, g'' u * max (u - s) 0 = Spec.tangentExtension g g' L U s := by
  have s1 : Icc R U ⊆ Icc L U := Icc_subset_Icc_left hLR
  have s2 : Icc L R ⊆ Icc L U := Icc_subset_Icc_right hRU
  rw [call_replication g g' g'' R U s hRU (fun u hu => h1 u (s1 hu)) (fun u hu => h2 u (s1 hu)) (hc.mono s1) hg hg',
    put_replication g g' g'' L R s hLR (fun u hu => h1 u (s2 hu)) (fun u hu => h2 u (s2 hu)) (hc.mono s2) hg hg']
  unfold Spec.tangentExtension
  rcases le_total s R with h | h
  · rw [min_eq_right (h.trans hRU), max_eq_left h, min_eq_right h, hg, hg']
    ring
  · rw [min_eq_left h, max_eq_right hLR, hg, hg', max_eq_right (le_min hRU h), max_eq_right (hLR.trans (le_min hRU h))]
    ring

/-- Exchange of the expectation and the integral over the strikes. -/
theorem replication_swap (mu : Measure ℝ) [IsProbabilityMeasure mu] (hint : Integrable (fun s : ℝ => s) mu) (g'' : ℝ → ℝ) (p : ℝ → ℝ → ℝ) (a b : ℝ) (hab : a ≤ b)
    (hc : ContinuousOn g'' (Icc a b)) (hp : Continuous (fun x : ℝ × ℝ => p x.1 x.2)) (hb : ∀ s u, |p s u| ≤ |s| + |u|) :
    Integrable (fun s => ∫ u in a..b, g'' u * p s u) mu ∧ ∫ u in a..b, g'' u * ∫ s, p s u ∂mu = ∫ s, (∫ u in a..b, g'' u * p s u) ∂mu := by
  obtain ⟨M, hM⟩ := isCompact_Icc.exists_bound_of_continuousOn hc
  have hmeas : AEStronglyMeasurable g'' (volume.restrict (Ioc a b)) :=
    (hc.aestronglyMeasurable measurableSet_Icc).mono_measure (Measure.restrict_mono Ioc_subset_Icc_self le_rfl)
  have hI : Integrable (Function.uncurry fun s u => g'' u * p s u) (mu.prod (volume.restrict (Ioc a b))) := by
    refine Integrable.mono' (g := fun x : ℝ × ℝ => max M 0 * (|x.1| + (|a| + |b|))) ?_ ?_ ?_
    · exact ((hint.abs.comp_fst _).add (integrable_const _)).const_mul _
    · exact (hmeas.comp_snd).mul hp.aestronglyMeasurable
    · have : ∀ᵐ x ∂(mu.prod (volume.restrict (Ioc a b))), x.2 ∈ Ioc a b := by
        have h := ae_restrict_mem (μ := (volume : Measure ℝ)) (measurableSet_Ioc (a := a) (b := b))
        exact (Measure.quasiMeasurePreserving_snd (μ := mu)).ae h
      filter_upwards [this] with x hx
      have hx' : x.2 ∈ Icc a b := Ioc_subset_Icc_self hx
      have h3 : |x.2| ≤ |a| + |b| := by
        rw [abs_le]
        constructor
        · linarith [neg_abs_le a, abs_nonneg b, hx'.1]
        · linarith [le_abs_self b, abs_nonneg a, hx'.2]
      simp only [Function.uncurry, Real.norm_eq_abs, abs_mul]
      have h4 := hM x.2 hx'
      rw [Real.norm_eq_abs] at h4
      refine mul_le_mul (h4.trans (le_max_left _ _)) ((hb _ _).trans (by linarith)) (abs_nonneg _) (le_max_right _ _)
  simp only [intervalIntegral.integral_of_le hab]
  refine ⟨hI.integral_prod_left, ?_⟩
  rw [integral_integral_swap hI]
  refine integral_congr_ae (Filter.Eventually.of_forall fun u => ?_)
  beta_reduce
  rw [integral_const_mul]

end Lemmas
