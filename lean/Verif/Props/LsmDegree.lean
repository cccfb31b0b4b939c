import Verif.Props.LsmPut
import Verif.Lemmas.LsmDegree
import Mathlib.MeasureTheory.Function.ContinuousMapDense
import Mathlib.Topology.ContinuousMap.Weierstrass

/-! # C140: regression Monte Carlo prices of puts tend to the value of the put as the degree grows -/

namespace Spec
open Model MeasureTheory ProbabilityTheory
open scoped BigOperators

variable {E : Type} {mE : MeasurableSpace E}

/-- The spot at an exercise time is known then, and the spot at the next exercise time is a function of it and of something independent of all that is known. -/
structure MarkovSpots (ν : Measure E) (ℱ : Filtration ℕ mE) (times : List ℕ) (spot : ℕ → E → ℝ) : Prop where
  known : ∀ j, Measurable[ℱ j] (spot (times.getD j 0))
  step : ∀ j, j + 1 < times.length → ∃ (Φ : ℝ → ℝ → ℝ) (R : E → ℝ), (Measurable fun y : ℝ × ℝ => Φ y.1 y.2) ∧ Measurable R ∧
    Indep (ℱ j) (MeasurableSpace.comap R inferInstance) ν ∧ ∀ x, spot (times.getD (j + 1) 0) x = Φ (spot (times.getD j 0) x) (R x)

/-- The expected discounted payoffs of a put over all exercise times that use only the information at hand. -/
def putWorths (ν : Measure E) (ℱ : Filtration ℕ mE) (strike : ℝ) (times : List ℕ) (spot : ℕ → E → ℝ) (discounts : List ℝ) : Set ℝ :=
  {w | ∃ τ, IsExerciseTime ℱ (times.length - 1) τ ∧ w = ∫ x, discounts.getD (τ x) 0 * max (strike - spot (times.getD (τ x) 0) x) 0 ∂ν}

/-- The last draw used up to an exercise time. -/
def drawCut (times : List ℕ) (j : ℕ) : ℕ := (Finset.range (j + 1)).sup fun i => times.getD i 0

/-- The draws up to an exercise time. -/
def drawsUntil (n : ℕ) (times : List ℕ) (j : ℕ) : Finset (Fin n) := Finset.univ.filter fun i => i.val ≤ drawCut times j

/-- What is known at the exercise times of paths from independent draws: the draws so far. -/
def drawFiltration (n : ℕ) (times : List ℕ) : Filtration ℕ (MeasurableSpace.pi : MeasurableSpace (Fin n → ℝ)) where
  seq j := MeasurableSpace.comap (fun (z : Fin n → ℝ) (i : drawsUntil n times j) => z i) MeasurableSpace.pi
  mono' := by
    intro j j' hjj
    have hi : ∀ i : drawsUntil n times j, i.1 ∈ drawsUntil n times j' := by
      intro i
      have h := i.2
      simp only [drawsUntil, Finset.mem_filter, Finset.mem_univ, true_and] at h ⊢
      exact h.trans (Finset.sup_mono (Finset.range_mono (by omega)))
    have e : (fun (z : Fin n → ℝ) (i : drawsUntil n times j) => z i) =
        (fun (y : drawsUntil n times j' → ℝ) (i : drawsUntil n times j) => y ⟨i.1, hi i⟩) ∘ fun (z : Fin n → ℝ) (i : drawsUntil n times j') => z i := rfl
    beta_reduce
    rw [e, ← MeasurableSpace.comap_comp]
    exact MeasurableSpace.comap_mono (Measurable.comap_le (measurable_pi_iff.2 fun i => measurable_pi_apply _))
  le' := by
    intro j
    exact Measurable.comap_le (measurable_pi_iff.2 fun i => measurable_pi_apply _)

end Spec

namespace Lemmas
open Model Spec MeasureTheory ProbabilityTheory Filter Topology Polynomial
open scoped BigOperators

theorem coordinate_known {n : ℕ} (S : Finset (Fin n)) (l : Fin n) (hl : l ∈ S) :
    Measurable[MeasurableSpace.comap (fun (z : Fin n → ℝ) (i : S) => z i) MeasurableSpace.pi] fun z => z l :=
  (measurable_pi_apply (X := fun _ : S => ℝ) (⟨l, hl⟩ : S)).comp (comap_measurable fun (z : Fin n → ℝ) (i : S) => z i)

/-- Polynomials approximate a bounded function in the mean square over an interval. -/
theorem polynomial_dense (μ : Measure ℝ) [IsProbabilityMeasure μ] (K B : ℝ) (h : ℝ → ℝ) (hm : Measurable h) (hB : ∀ s, |h s| ≤ B) (ε : ℝ) (hε : 0 < ε) :
    ∃ Q : ℝ[X], ∫ s in Set.Ioo 0 K, (Q.eval s - h s) ^ 2 ∂μ ≤ ε := by
  set ρ := μ.restrict (Set.Ioo 0 K) with hρ
  have hfin : IsFiniteMeasure ρ := inferInstance
  have hh : MemLp h (ENNReal.ofReal 2) ρ := MemLp.of_bound hm.aestronglyMeasurable B (Eventually.of_forall hB)
  obtain ⟨g, hg, hg2⟩ := hh.exists_boundedContinuous_integral_rpow_sub_le (p := 2) (by norm_num) (show 0 < ε / 4 by positivity)
  obtain ⟨Q, hQ⟩ := exists_polynomial_near_of_continuousOn 0 K g g.continuous.continuousOn (Real.sqrt (ε / 4)) (Real.sqrt_pos.2 (by positivity))
  have hofReal : ENNReal.ofReal 2 = 2 := by norm_num
  rw [hofReal] at hh hg2
  refine ⟨Q, ?_⟩
  have hmem : ∀ᵐ s ∂ρ, s ∈ Set.Ioo 0 K := ae_restrict_mem measurableSet_Ioo
  have hd : MemLp (fun s => h s - g s) 2 ρ := hh.sub hg2
  have hi : Integrable (fun s => 2 * (ε / 4) + 2 * (h s - g s) ^ 2) ρ := (integrable_const _).add (hd.integrable_sq.const_mul 2)
  have h1 : ∫ s, (Q.eval s - h s) ^ 2 ∂ρ ≤ ∫ s, (2 * (ε / 4) + 2 * (h s - g s) ^ 2) ∂ρ := by
    refine integral_mono_of_nonneg (Eventually.of_forall fun s => sq_nonneg _) hi ?_
    filter_upwards [hmem] with s hs
    have h2 : |Q.eval s - g s| < Real.sqrt (ε / 4) := hQ s ⟨hs.1.le, hs.2.le⟩
    have h3 : (Q.eval s - g s) ^ 2 ≤ ε / 4 := by
      rw [← sq_abs, ← Real.sq_sqrt (show 0 ≤ ε / 4 by positivity)]
      exact pow_le_pow_left₀ (abs_nonneg _) h2.le 2
    nlinarith [sq_nonneg ((Q.eval s - g s) + (h s - g s))]
  refine h1.trans ?_
  have h2 : ∫ s, 2 * (h s - g s) ^ 2 ∂ρ = 2 * ∫ s, (h s - g s) ^ 2 ∂ρ := integral_const_mul _ _
  rw [integral_add (integrable_const _) (hd.integrable_sq.const_mul 2), h2, integral_const]
  have h4 : ∫ s, (h s - g s) ^ 2 ∂ρ ≤ ε / 4 := by
    refine le_trans (le_of_eq (integral_congr_ae (Eventually.of_forall fun s => ?_))) hg
    simp only [Real.norm_eq_abs]
    rw [← sq_abs]
    norm_cast
  have h5 : ρ.real Set.univ ≤ 1 := by
    rw [hρ, measureReal_restrict_apply_univ]
    exact measureReal_le_one
  rw [smul_eq_mul]
  nlinarith

/-- A polynomial is a combination of the regressors if its degree is not above theirs. -/
theorem putPower_sum (degree : ℕ) (Q : ℝ[X]) (hQ : Q.natDegree ≤ degree) (a : ℝ) : ∑ k, a ^ putPower degree k * Q.coeff (putPower degree k) = Q.eval a := by
  rw [eval_eq_sum_range' (show Q.natDegree < degree + 1 by omega)]
  have himg : Finset.univ.image (putPower degree) = Finset.range (degree + 1) := by
    ext i
    simp only [Finset.mem_image, Finset.mem_univ, true_and, Finset.mem_range]
    constructor
    · rintro ⟨k, rfl⟩
      have h := (((Props.C57_basis_powers degree 1).2 _).1 (List.getElem_mem k.2)).2
      rw [putPower_eq] at h
      have := h (putPower degree k) (by simp)
      omega
    · intro hi
      have h : [i] ∈ basisPowers degree 1 := ((Props.C57_basis_powers degree 1).2 _).2 ⟨rfl, by simp; omega⟩
      obtain ⟨n, hn, he⟩ := List.getElem_of_mem h
      refine ⟨⟨n, hn⟩, ?_⟩
      have := putPower_eq degree ⟨n, hn⟩
      simp only [he] at this
      simpa using this.symm
  rw [← himg, Finset.sum_image fun k _ l _ h => putPower_injective degree h]
  exact Finset.sum_congr rfl fun k _ => mul_comm _ _

variable {E : Type} {mE : MeasurableSpace E} {ν : Measure E} [IsProbabilityMeasure ν] {ℱ : Filtration ℕ mE} {strike : ℝ} {times : List ℕ} {spot : ℕ → E → ℝ} {discounts : List ℝ}

/-- One step back for a value that is a function of the spot. -/
theorem going_on_function (hmk : MarkovSpots ν ℱ times spot) (j : ℕ) (hj : j + 1 < times.length) (u : ℝ → ℝ) (hu : Measurable u) (B : ℝ) (hB : ∀ s, |u s| ≤ B) (U : E → ℝ)
    (hU : U =ᵐ[ν] fun x => u (spot (times.getD (j + 1) 0) x)) :
    ∃ g : ℝ → ℝ, Measurable g ∧ (∀ s, |g s| ≤ B) ∧ ν[U | ℱ j] =ᵐ[ν] fun x => g (spot (times.getD j 0) x) := by
  obtain ⟨Φ, R, hΦ, hR, hind, hstep⟩ := hmk.step j hj
  have hprob : IsProbabilityMeasure (ν.map R) := Measure.isProbabilityMeasure_map hR.aemeasurable
  have hm : Measurable fun y : ℝ × ℝ => u (Φ y.1 y.2) := hu.comp hΦ
  refine ⟨fun s => ∫ r, u (Φ s r) ∂(ν.map R), (StronglyMeasurable.integral_prod_right' (f := fun y : ℝ × ℝ => u (Φ y.1 y.2)) hm.stronglyMeasurable).measurable, fun s => ?_, ?_⟩
  · have := norm_integral_le_of_norm_le_const (μ := ν.map R) (f := fun r => u (Φ s r)) (C := B) (Eventually.of_forall fun r => hB _)
    simpa using this
  · refine (condExp_congr_ae hU).trans ?_
    simp only [hstep]
    exact condExp_freeze (ℱ.le j) (spot (times.getD j 0)) R (hmk.known j) hR hind (fun s r => u (Φ s r)) hm fun s r => hB _

/-- The value of a put is a function of the spot. -/
theorem put_value_function (hs : PutSpots ν strike times spot) (hK : 0 < strike) (hmk : MarkovSpots ν ℱ times spot) (δ : ℕ → ℝ) (hδ : ∀ j < times.length, 0 < δ j) (B : ℝ) (hB : ∀ j < times.length, δ j * strike ≤ B)
    (d : ℕ) (hd : d < times.length) : ∃ u : ℝ → ℝ, Measurable u ∧ (∀ s, |u s| ≤ B) ∧
      snell ν ℱ (times.length - 1) (fun j x => δ j * max (strike - spot (times.getD j 0) x) 0) d =ᵐ[ν] fun x => u (spot (times.getD (times.length - 1 - d) 0) x) := by
  have hw : ∀ j < times.length, ∀ s, |δ j * max (strike - max s 0) 0| ≤ B := by
    intro j hj s
    rw [abs_of_nonneg (mul_nonneg (hδ j hj).le (le_max_right _ _))]
    refine le_trans (mul_le_mul_of_nonneg_left ?_ (hδ j hj).le) (hB j hj)
    exact max_le (by linarith [le_max_right s 0]) hK.le
  have hwm : ∀ j, Measurable fun s : ℝ => δ j * max (strike - max s 0) 0 := fun j => by fun_prop
  have hgain : ∀ j < times.length, ∀ x, δ j * max (strike - spot (times.getD j 0) x) 0 = δ j * max (strike - max (spot (times.getD j 0) x) 0) 0 := by
    intro j hj x
    rw [max_eq_left (a := spot (times.getD j 0) x) (hs.positive _ (exercise_index_mem j hj) x).le]
  induction d with
  | zero =>
    refine ⟨fun s => δ (times.length - 1) * max (strike - max s 0) 0, hwm _, hw _ (by omega), Eventually.of_forall fun x => ?_⟩
    exact hgain _ (by omega) x
  | succ d ih =>
    obtain ⟨u, hu, hub, hue⟩ := ih (by omega)
    have hidx : times.length - 1 - d = times.length - 1 - (d + 1) + 1 := by omega
    rw [hidx] at hue
    obtain ⟨g, hg, hgb, hge⟩ := going_on_function hmk (times.length - 1 - (d + 1)) (by omega) u hu B hub _ hue
    refine ⟨fun s => max (δ (times.length - 1 - (d + 1)) * max (strike - max s 0) 0) (g s), (hwm _).max hg, fun s => ?_, ?_⟩
    · exact abs_max_le_max_abs_abs.trans (max_le (hw _ (by omega) s) (hgb s))
    · filter_upwards [hge] with x hx
      simp only [snell]
      rw [hx, hgain _ (by omega) x]

omit [IsProbabilityMeasure ν] in
theorem put_tame (hs : PutSpots ν strike times spot) (hK : 0 < strike) (hmk : MarkovSpots ν ℱ times spot) [IsProbabilityMeasure ν] (ht : 0 < times.length)
    (hδ : ∀ j < times.length, 0 < discounts.getD j 0) (B : ℝ) (hB : ∀ j < times.length, discounts.getD j 0 * strike ≤ B) (degree pathTimes : ℕ) :
    (putContract degree strike times spot discounts pathTimes).problem.Tame ν ℱ (fun j => discounts.getD j 0) B := by
  have hl : ∀ j, j ≤ (putContract degree strike times spot discounts pathTimes).problem.last → j < times.length := by
    intro j hj
    have : (putContract degree strike times spot discounts pathTimes).problem.last = times.length - 1 := rfl
    omega
  refine ⟨⟨fun j => ?_, fun j => ?_, fun j k => ?_, fun j x => ?_, fun j hj x => ?_⟩, fun j x => put_factor j x, fun j hj x => ?_, fun j hj k l => ?_⟩
  · exact (measurable_const.sub (hmk.known j)).max measurable_const
  · have e : (putContract degree strike times spot discounts pathTimes).problem.factor j = fun _ => discounts.getD j 0 := funext fun x => put_factor j x
    rw [e]
    exact measurable_const
  · have e : (putContract degree strike times spot discounts pathTimes).problem.basis j k = fun x => spot (times.getD j 0) x ^ putPower degree k := funext fun x => put_basis j k x
    rw [e]
    exact (hmk.known j).pow_const _
  · exact le_max_right _ _
  · rw [put_factor]
    exact hδ j (hl j hj)
  · rw [put_factor, put_payoff]
    refine le_trans (mul_le_mul_of_nonneg_left ?_ (hδ j (hl j hj)).le) (hB j (hl j hj))
    exact max_le (by linarith [hs.positive _ (exercise_index_mem j (hl j hj)) x]) hK.le
  · exact put_gram_integrable hs j (hl j hj.le) k l

open Classical in
/-- The conditional expectation of going on can be fitted ever better by powers of the spot below the strike. -/
theorem put_fit (hs : PutSpots ν strike times spot) (j : ℕ) (hj : j < times.length) (c : E → ℝ) (g : ℝ → ℝ) (hg : Measurable g) (B : ℝ) (hB : ∀ s, |g s| ≤ B)
    (hc : c =ᵐ[ν] fun x => g (spot (times.getD j 0) x)) (pathTimes : ℕ) (ε : ℝ) (hε : 0 < ε) :
    ∀ᶠ degree : ℕ in atTop, ∃ γ : Fin (basisPowers degree 1).length → ℝ, ∫ x, (∑ k, (putContract degree strike times spot discounts pathTimes).problem.masked j k x * γ k -
      if max (strike - spot (times.getD j 0) x) 0 > 0 then c x else 0) ^ 2 ∂ν ≤ ε := by
  set S := spot (times.getD j 0) with hS
  have hSm : Measurable S := hs.measurable _
  have hSpos : ∀ x, 0 < S x := hs.positive _ (exercise_index_mem j hj)
  have hprob : IsProbabilityMeasure (ν.map S) := Measure.isProbabilityMeasure_map hSm.aemeasurable
  obtain ⟨Q, hQ⟩ := polynomial_dense (ν.map S) strike B g hg hB ε hε
  filter_upwards [eventually_ge_atTop Q.natDegree] with degree hdeg
  refine ⟨fun k => Q.coeff (putPower degree k), le_trans (le_of_eq ?_) hQ⟩
  have hfm : Measurable fun s => (Q.eval s - g s) ^ 2 := (Q.continuous.measurable.sub hg).pow_const 2
  rw [setIntegral_map measurableSet_Ioo hfm.aestronglyMeasurable hSm.aemeasurable, ← integral_indicator (hSm measurableSet_Ioo)]
  refine integral_congr_ae ?_
  filter_upwards [hc] with x hx
  have hmoney : max (strike - S x) 0 > 0 ↔ S x < strike := put_money (degree := degree) (discounts := discounts) (pathTimes := pathTimes) j x
  by_cases hlt : S x < strike
  · rw [Set.indicator_of_mem (show x ∈ S ⁻¹' Set.Ioo 0 strike from ⟨hSpos x, hlt⟩), if_pos (hmoney.2 hlt), hx, ← putPower_sum degree Q hdeg]
    congr 2
    refine Finset.sum_congr rfl fun k _ => ?_
    simp only [ExerciseProblem.masked]
    rw [if_pos ((put_money j x).2 hlt), put_basis]
  · rw [Set.indicator_of_notMem (fun h => hlt h.2), if_neg fun h => hlt (hmoney.1 h)]
    have h0 : ∑ k, (putContract degree strike times spot discounts pathTimes).problem.masked j k x * Q.coeff (putPower degree k) = 0 := by
      refine Finset.sum_eq_zero fun k _ => ?_
      simp only [ExerciseProblem.masked]
      rw [if_neg fun h => hlt ((put_money j x).1 h), zero_mul]
    rw [h0]
    norm_num

end Lemmas

namespace Props
open Model Spec Lemmas MeasureTheory ProbabilityTheory Filter Topology
open scoped BigOperators

/-- C140: with the degree of the polynomial basis the limits of the regression Monte Carlo prices of a put tend to the largest expected discounted payoff over all exercise
times. -/
theorem C140_degree {E : Type} {mE : MeasurableSpace E} (ν : Measure E) [IsProbabilityMeasure ν] (ℱ : Filtration ℕ mE) (strike : ℝ) (hK : 0 < strike) (times : List ℕ)
    (spot : ℕ → E → ℝ) (hs : PutSpots ν strike times spot) (hmk : MarkovSpots ν ℱ times spot) (discounts : List ℝ) (pathTimes : ℕ) (ht : 0 < times.length)
    (hlen : discounts.length = times.length) (hdf : ∀ r ∈ discounts, 0 < r) (β : ∀ degree, ℕ → Fin (basisPowers degree 1).length → ℝ)
    (hβ : ∀ degree, (putContract degree strike times spot discounts pathTimes).problem.IsLimitRule ν (β degree)) :
    ∃ V, IsLUB (putWorths ν ℱ strike times spot discounts) V ∧
      Tendsto (fun degree => ∫ x, (putContract degree strike times spot discounts pathTimes).problem.value (β degree) (times.length - 1) x ∂ν) atTop (𝓝 V) := by
  have hδ : ∀ j < times.length, 0 < discounts.getD j 0 := by
    intro j hj
    rw [List.getD_eq_getElem _ _ (by omega)]
    exact hdf _ (List.getElem_mem _)
  obtain ⟨B, hB0, hB⟩ : ∃ B : ℝ, 0 ≤ B ∧ ∀ j < times.length, discounts.getD j 0 * strike ≤ B := by
    refine ⟨∑ j ∈ Finset.range times.length, discounts.getD j 0 * strike, Finset.sum_nonneg fun j hj => (mul_pos (hδ j (Finset.mem_range.1 hj)) hK).le, fun j hj => ?_⟩
    exact Finset.single_le_sum (f := fun j => discounts.getD j 0 * strike) (fun i hi => (mul_pos (hδ i (Finset.mem_range.1 hi)) hK).le) (Finset.mem_range.2 hj)
  have h := degree_limit (ν := ν) (ℱ := ℱ) (last := times.length - 1) (δ := fun j => discounts.getD j 0) hB0 (fun degree => (basisPowers degree 1).length)
    (fun degree => (putContract degree strike times spot discounts pathTimes).problem) β (fun j x => max (strike - spot (times.getD j 0) x) 0) (fun _ => rfl) (fun _ => rfl)
    (fun degree => put_tame hs hK hmk ht hδ B hB degree pathTimes) hβ (fun d hd ε hε => ?_)
  · exact ⟨_, h.2, h.1⟩
  · obtain ⟨u, hu, hub, hue⟩ := put_value_function (ν := ν) (ℱ := ℱ) hs hK hmk (fun j => discounts.getD j 0) hδ B hB d (by omega)
    have hidx : times.length - 1 - d = times.length - 1 - (d + 1) + 1 := by omega
    rw [hidx] at hue
    obtain ⟨g, hg, hgb, hge⟩ := going_on_function hmk (times.length - 1 - (d + 1)) (by omega) u hu B hub _ hue
    exact put_fit hs (times.length - 1 - (d + 1)) (by omega) _ g hg B hgb hge pathTimes ε hε

/-- C140: prices of `least_square_mc` with `make_polynomial_basis` of high degree and many paths are close to the value of the put. -/
theorem C140_price {E Ω : Type} {mE : MeasurableSpace E} [MeasurableSpace Ω] (P : Measure Ω) (ν : Measure E) [IsProbabilityMeasure ν] (D : ℕ → Ω → E) (hD : PathDraws P ν D)
    (ℱ : Filtration ℕ mE) (strike : ℝ) (hK : 0 < strike) (times : List ℕ) (spot : ℕ → E → ℝ) (hs : PutSpots ν strike times spot) (hmk : MarkovSpots ν ℱ times spot)
    (discounts : List ℝ) (pathTimes : ℕ) (ht : 0 < times.length) (hfuel : times.length ≤ pathTimes + 1) (hlen : discounts.length = times.length) (hdf : ∀ r ∈ discounts, 0 < r)
    (pinv : ∀ degree, Matrix (Fin (basisPowers degree 1).length) (Fin (basisPowers degree 1).length) ℝ →
      Matrix (Fin (basisPowers degree 1).length) (Fin (basisPowers degree 1).length) ℝ) (hp : ∀ degree A, A * pinv degree A * A = A) :
    ∃ (V : ℝ) (β : ∀ degree, ℕ → Fin (basisPowers degree 1).length → ℝ), IsLUB (putWorths ν ℱ strike times spot discounts) V ∧
      (∀ degree, (putContract degree strike times spot discounts pathTimes).problem.IsLimitRule ν (β degree)) ∧
      ∀ ε > 0, ∀ᶠ degree : ℕ in atTop, (∀ j < times.length - 1, ∃ a : ℝ, ∑ k, a ^ putPower degree k * β degree j k ≠ strike - a) →
        ∀ᵐ ω ∂P, ∀ᶠ n : ℕ in atTop, |(polynomialInput degree 1 times (fun i x => max (strike - spot i x) 0) (fun i x => [spot i x]) (discounts.map fun r _ => r) pathTimes
          (pinv degree) none n (fun s => D s ω)).leastSquareMc - V| < ε := by
  have h1 := fun degree => C139_put P ν D hD degree strike times spot hs discounts pathTimes ht hfuel hlen (fun r hr => (hdf r hr).ne') (pinv degree) (hp degree)
  choose β hβ hprice using h1
  obtain ⟨V, hV, hlim⟩ := C140_degree ν ℱ strike hK times spot hs hmk discounts pathTimes ht hlen hdf β hβ
  refine ⟨V, β, hV, hβ, fun ε hε => ?_⟩
  filter_upwards [(Metric.tendsto_nhds.1 hlim) (ε / 2) (by positivity)] with degree hdeg hne
  filter_upwards [hprice degree hne] with ω hω
  filter_upwards [(Metric.tendsto_nhds.1 hω) (ε / 2) (by positivity)] with n hn
  rw [Real.dist_eq] at hdeg hn
  calc _ ≤ _ := abs_sub_le _ (∫ x, (putContract degree strike times spot discounts pathTimes).problem.value (β degree) (times.length - 1) x ∂ν) V
    _ < ε := by linarith

/-- C140: paths of geometric Brownian motion have such spots. -/
theorem C140_gbm_markov (mean vol : TimeParam) (hm : TimeParamOk mean) (hv : TimeParamOk vol) (grid : List ℝ) (hs : grid.Pairwise (· ≤ ·)) (h0 : ∀ t ∈ grid, 0 ≤ t) (x0 : ℝ)
    (times : List ℕ) (hsorted : times.Pairwise (· ≤ ·)) (ht : ∀ i ∈ times, i < grid.length) :
    MarkovSpots (Measure.pi fun _ : Fin grid.length => gaussianReal 0 1) (drawFiltration grid.length times) times
      (fun i z => (gbmPath mean vol x0 grid (List.ofFn z)).getD i 0) := by
  obtain ⟨w, hw⟩ := C60_paths mean vol hm hv grid hs h0
  set c : ℕ → ℝ := fun i => (∫ t in (0 : ℝ)..(grid.getD i 0), mean.eval t) - (∫ t in (0 : ℝ)..(grid.getD i 0), vol.eval t ^ 2) / 2 with hc
  have hval : ∀ i, i < grid.length → ∀ z : Fin grid.length → ℝ, (gbmPath mean vol x0 grid (List.ofFn z)).getD i 0 =
      x0 * Real.exp (c i + ∑ l : Fin grid.length, if l.1 ≤ i then w l.1 * z l else 0) := by
    intro i hi z
    rw [List.getD_eq_getElem?_getD, (hw i hi).2 x0 (List.ofFn z) (by simp), Option.getD_some]
    congr 3
    have e : ∀ l : Fin grid.length, (if l.1 ≤ i then w l.1 * z l else 0) = (fun k => if k ≤ i then w k * (List.ofFn z).getD k 0 else 0) l.1 := by
      intro l
      beta_reduce
      rw [List.getD_eq_getElem _ _ (by simp), List.getElem_ofFn]
    simp only [e]
    rw [Fin.sum_univ_eq_sum_range (fun k => if k ≤ i then w k * (List.ofFn z).getD k 0 else 0) grid.length, ← Finset.sum_filter]
    congr 1
    ext k
    simp only [Finset.mem_filter, Finset.mem_range]
    omega
  have hlong : ∀ i, grid.length ≤ i → ∀ z : Fin grid.length → ℝ, (gbmPath mean vol x0 grid (List.ofFn z)).getD i 0 = 0 := by
    intro i hi z
    refine List.getD_eq_default _ _ ?_
    simp only [gbmPath, List.length_map]
    rw [(C56_cumsum _).1]
    simp
    omega
  have hle : ∀ j, times.getD j 0 ≤ drawCut times j := fun j => Finset.le_sup (f := fun i => times.getD i 0) (Finset.mem_range.2 (Nat.lt_succ_self j))
  refine ⟨fun j => ?_, fun j hj => ?_⟩
  · by_cases hi : times.getD j 0 < grid.length
    · have e : (fun z : Fin grid.length → ℝ => (gbmPath mean vol x0 grid (List.ofFn z)).getD (times.getD j 0) 0) =
          fun z => x0 * Real.exp (c (times.getD j 0) + ∑ l : Fin grid.length, if l.1 ≤ times.getD j 0 then w l.1 * z l else 0) := funext fun z => hval _ hi z
      rw [e]
      refine measurable_const.mul (Real.measurable_exp.comp (measurable_const.add (Finset.measurable_sum _ fun l _ => ?_)))
      by_cases hl : l.1 ≤ times.getD j 0
      · simp only [if_pos hl]
        have hmem : l ∈ drawsUntil grid.length times j := by
          simp only [drawsUntil, Finset.mem_filter, Finset.mem_univ, true_and]
          exact hl.trans (hle j)
        exact measurable_const.mul (coordinate_known _ l hmem)
      · simp only [if_neg hl]
        exact measurable_const
    · have e : (fun z : Fin grid.length → ℝ => (gbmPath mean vol x0 grid (List.ofFn z)).getD (times.getD j 0) 0) = fun _ => 0 := funext fun z => hlong _ (not_lt.1 hi) z
      rw [e]
      exact measurable_const
  · set a := times.getD j 0 with ha
    set b := times.getD (j + 1) 0 with hb
    have ha' : a < grid.length := ht _ (exercise_index_mem j (by omega))
    have hb' : b < grid.length := ht _ (exercise_index_mem (j + 1) hj)
    have hmono : ∀ i k, i ≤ k → k < times.length → times.getD i 0 ≤ times.getD k 0 := by
      intro i k hik hk
      rw [List.getD_eq_getElem _ _ (by omega), List.getD_eq_getElem _ _ hk]
      rcases hik.eq_or_lt with rfl | h
      · exact le_rfl
      · exact List.pairwise_iff_getElem.1 hsorted i k (by omega) hk h
    have hcut : drawCut times j ≤ a := Finset.sup_le fun i hi => hmono i j (by have := Finset.mem_range.1 hi; omega) (by omega)
    have hab : a ≤ b := hmono j (j + 1) (by omega) hj
    set T : Finset (Fin grid.length) := Finset.univ.filter fun l => a < l.1 with hT
    have hind : iIndepFun (fun (i : Fin grid.length) (z : Fin grid.length → ℝ) => z i) (Measure.pi fun _ : Fin grid.length => gaussianReal 0 1) :=
      iIndepFun_pi (X := fun _ => id) fun _ => aemeasurable_id
    have hdisj : Disjoint (drawsUntil grid.length times j) T := by
      rw [Finset.disjoint_left]
      intro l h1 h2
      simp only [drawsUntil, hT, Finset.mem_filter, Finset.mem_univ, true_and] at h1 h2
      omega
    have hI := hind.indepFun_finset _ T hdisj fun i => measurable_pi_apply i
    have hRm : Measurable fun z : Fin grid.length → ℝ => ∑ l : Fin grid.length, if a < l.1 ∧ l.1 ≤ b then w l.1 * z l else 0 := by
      refine Finset.measurable_sum _ fun l _ => ?_
      by_cases hl : a < l.1 ∧ l.1 ≤ b
      · simp only [if_pos hl]
        exact measurable_const.mul (measurable_pi_apply l)
      · simp only [if_neg hl]
        exact measurable_const
    refine ⟨fun s r => s * Real.exp (c b - c a + r), fun z => ∑ l : Fin grid.length, if a < l.1 ∧ l.1 ≤ b then w l.1 * z l else 0, by fun_prop, hRm, ?_, fun z => ?_⟩
    · rw [IndepFun_iff_Indep] at hI
      refine indep_of_indep_of_le_right hI (Measurable.comap_le (Finset.measurable_sum _ fun l _ => ?_))
      by_cases hl : a < l.1 ∧ l.1 ≤ b
      · simp only [if_pos hl]
        have hmem : l ∈ T := by
          simp only [hT, Finset.mem_filter, Finset.mem_univ, true_and]
          exact hl.1
        exact measurable_const.mul (coordinate_known T l hmem)
      · simp only [if_neg hl]
        exact measurable_const
    · beta_reduce
      rw [hval b hb', hval a ha', mul_assoc, ← Real.exp_add]
      congr 2
      have e : ∑ l : Fin grid.length, (if l.1 ≤ b then w l.1 * z l else 0) =
          ∑ l : Fin grid.length, (if l.1 ≤ a then w l.1 * z l else 0) + ∑ l : Fin grid.length, (if a < l.1 ∧ l.1 ≤ b then w l.1 * z l else 0) := by
        rw [← Finset.sum_add_distrib]
        refine Finset.sum_congr rfl fun l _ => ?_
        by_cases h1 : l.1 ≤ a
        · rw [if_pos h1, if_pos (h1.trans hab), if_neg (by omega), add_zero]
        · rw [if_neg h1, zero_add]
          exact if_congr ⟨fun h => ⟨by omega, h⟩, fun h => h.2⟩ rfl rfl
      rw [e]
      ring

/-- C140: prices of puts on geometric Brownian motion from `least_square_mc` with high degree and many paths are close to the largest expected discounted payoff over all ways to
exercise that use only the draws so far. -/
theorem C140_gbm {Ω : Type} [MeasurableSpace Ω] (P : Measure Ω) (mean vol : TimeParam) (hm : TimeParamOk mean) (hv : TimeParamOk vol) (grid : List ℝ) (hs : grid.Pairwise (· ≤ ·))
    (h0 : ∀ t ∈ grid, 0 ≤ t) (x0 : ℝ) (hx : 0 < x0) (strike : ℝ) (hK : 0 < strike) (times : List ℕ) (hsorted : times.Pairwise (· ≤ ·)) (ht : ∀ i ∈ times, i < grid.length)
    (htimes : 0 < times.length) (hfuel : times.length ≤ grid.length + 1) (hvar : ∀ i ∈ times, 0 < ∫ t in (0 : ℝ)..(grid.getD i 0), vol.eval t ^ 2)
    (D : ℕ → Ω → Fin grid.length → ℝ) (hD : NormalDraws P grid.length D) (discounts : List ℝ) (hlen : discounts.length = times.length) (hdf : ∀ r ∈ discounts, 0 < r)
    (pinv : ∀ degree, Matrix (Fin (basisPowers degree 1).length) (Fin (basisPowers degree 1).length) ℝ →
      Matrix (Fin (basisPowers degree 1).length) (Fin (basisPowers degree 1).length) ℝ) (hp : ∀ degree A, A * pinv degree A * A = A) :
    let ν : Measure (Fin grid.length → ℝ) := Measure.pi fun _ => gaussianReal 0 1
    let spot : ℕ → (Fin grid.length → ℝ) → ℝ := fun i z => (gbmPath mean vol x0 grid (List.ofFn z)).getD i 0
    ∃ (V : ℝ) (β : ∀ degree, ℕ → Fin (basisPowers degree 1).length → ℝ), IsLUB (putWorths ν (drawFiltration grid.length times) strike times spot discounts) V ∧
      (∀ degree, (putContract degree strike times spot discounts grid.length).problem.IsLimitRule ν (β degree)) ∧
      ∀ ε > 0, ∀ᶠ degree : ℕ in atTop, (∀ j < times.length - 1, ∃ a : ℝ, ∑ k, a ^ putPower degree k * β degree j k ≠ strike - a) →
        ∀ᵐ ω ∂P, ∀ᶠ n : ℕ in atTop, |(polynomialInput degree 1 times (fun i x => max (strike - spot i x) 0) (fun i x => [spot i x]) (discounts.map fun r _ => r) grid.length
          (pinv degree) none n (fun s => D s ω)).leastSquareMc - V| < ε :=
  C140_price P _ D ⟨hD.measurable, hD.law, hD.independent⟩ _ strike hK times _ (C139_gbm_spots mean vol hm hv grid hs h0 x0 hx strike hK times ht hvar)
    (C140_gbm_markov mean vol hm hv grid hs h0 x0 times hsorted ht) discounts grid.length htimes hfuel hlen hdf pinv hp

/-- Exercise after the second and the fourth step: the draws 0 and 1 are known at the first exercise time, all four at the second. -/
example : drawsUntil 4 [1, 3] 0 = {0, 1} ∧ drawsUntil 4 [1, 3] 1 = {0, 1, 2, 3} := by decide +kernel

/-- Two exercise times one year apart, volatility one fifth: the limits for growing degree of the expected payoffs of the rules tend to the value of the put. -/
example (β : ∀ degree, ℕ → Fin (basisPowers degree 1).length → ℝ)
    (hβ : ∀ degree, (putContract degree 100 [0, 1] (fun i (z : Fin 2 → ℝ) => (gbmPath (.constant (1 / 20)) (.constant (1 / 5)) 90 [1, 2] (List.ofFn z)).getD i 0) [1 / 2, 1 / 4]
      2).problem.IsLimitRule (Measure.pi fun _ => gaussianReal 0 1) (β degree)) :
    ∃ V, Tendsto (fun degree => ∫ x, (putContract degree 100 [0, 1] (fun i (z : Fin 2 → ℝ) => (gbmPath (.constant (1 / 20)) (.constant (1 / 5)) 90 [1, 2] (List.ofFn z)).getD i 0)
      [1 / 2, 1 / 4] 2).problem.value (β degree) 1 x ∂(Measure.pi fun _ => gaussianReal 0 1)) atTop (𝓝 V) := by
  have h1 : PutSpots (Measure.pi fun _ : Fin 2 => gaussianReal 0 1) 100 [0, 1] (fun i z => (gbmPath (.constant (1 / 20)) (.constant (1 / 5)) 90 [1, 2] (List.ofFn z)).getD i 0) := by
    refine C139_gbm_spots (.constant (1 / 20)) (.constant (1 / 5)) trivial trivial [1, 2] (by simp) (by simp) 90 (by norm_num) 100 (by norm_num) [0, 1] (by simp) ?_
    intro i hi
    simp only [List.mem_cons, List.not_mem_nil, or_false] at hi
    rcases hi with rfl | rfl <;> simp [TimeParam.eval]
  obtain ⟨V, -, hV⟩ := C140_degree _ (drawFiltration 2 [0, 1]) 100 (by norm_num) [0, 1] _ h1
    (C140_gbm_markov (.constant (1 / 20)) (.constant (1 / 5)) trivial trivial [1, 2] (by simp) (by simp) 90 [0, 1] (by simp) (by simp)) [1 / 2, 1 / 4] 2 (by simp) (by simp)
    (by simp) β hβ
  exact ⟨V, hV⟩

/-- The value of going on is the larger of exercising and waiting: with one exercise time it is the payoff itself. -/
example {E : Type} {mE : MeasurableSpace E} (ν : Measure E) (ℱ : Filtration ℕ mE) (gain : ℕ → E → ℝ) : snell ν ℱ 0 gain 0 = gain 0 := rfl

end Props
