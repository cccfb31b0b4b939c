import Verif.Lemmas.TreeAmerican
import Verif.Props.LsmDegree

/-! # C141: prices of American puts in the binomial tree converge to the value of the put -/

namespace Spec
open Model MeasureTheory ProbabilityTheory

/-- The times that divide the time to expiry evenly. -/
noncomputable def evenGrid (T : ℝ) (k : ℕ) : List ℝ := (List.range k).map fun j : ℕ => ((j : ℝ) + 1) * (T / k)

/-- The discount factors at these times. -/
noncomputable def evenDiscounts (r T : ℝ) (k : ℕ) : List ℝ := (List.range k).map fun j : ℕ => Real.exp (-r * (((j : ℝ) + 1) * (T / k)))

/-- The spot at these times as a function of independent standard normal draws, under Black-Scholes dynamics. -/
noncomputable def evenSpot (S r q σ T : ℝ) (k : ℕ) (i : ℕ) (z : Fin (evenGrid T k).length → ℝ) : ℝ :=
  (gbmPath (.constant (r - q)) (.constant σ) S (evenGrid T k) (List.ofFn z)).getD i 0

/-- The expected discounted payoffs of a put under Black-Scholes dynamics over all ways to exercise it at finitely many evenly spaced times that use only the draws so far. -/
def blackScholesPutWorths (S K r q σ T : ℝ) : Set ℝ :=
  {w | ∃ k, 0 < k ∧ w ∈ putWorths (Measure.pi fun _ : Fin (evenGrid T k).length => gaussianReal 0 1) (drawFiltration (evenGrid T k).length (List.range k)) K (List.range k)
    (evenSpot S r q σ T k) (evenDiscounts r T k)}

end Spec

namespace Lemmas
open Model Spec MeasureTheory ProbabilityTheory Filter Topology
open scoped BigOperators

theorem evenGrid_length (T : ℝ) (k : ℕ) : (evenGrid T k).length = k := by simp [evenGrid]

theorem evenGrid_getD (T : ℝ) {k j : ℕ} (hj : j < k) : (evenGrid T k).getD j 0 = ((j : ℝ) + 1) * (T / k) := by
  rw [List.getD_eq_getElem _ _ (by rw [evenGrid_length]; exact hj)]
  simp [evenGrid]

theorem evenDiscounts_getD (r T : ℝ) {k j : ℕ} (hj : j < k) : (evenDiscounts r T k).getD j 0 = Real.exp (-r * (((j : ℝ) + 1) * (T / k))) := by
  rw [List.getD_eq_getElem _ _ (by simp [evenDiscounts]; exact hj)]
  simp [evenDiscounts]

theorem range_getD {k j : ℕ} (hj : j < k) : (List.range k).getD j 0 = j := by
  rw [List.getD_eq_getElem _ _ (by simpa using hj)]
  simp

theorem evenGrid_sorted {T : ℝ} (hT : 0 < T) (k : ℕ) : (evenGrid T k).Pairwise (· ≤ ·) := by
  unfold evenGrid
  rw [List.pairwise_map]
  refine List.pairwise_lt_range.imp fun {a b} h => ?_
  refine mul_le_mul_of_nonneg_right ?_ (by positivity)
  have : (a : ℝ) ≤ b := by exact_mod_cast h.le
  linarith

theorem evenGrid_nonneg {T : ℝ} (hT : 0 < T) (k : ℕ) : ∀ t ∈ evenGrid T k, 0 ≤ t := by
  intro t ht
  obtain ⟨j, -, rfl⟩ := List.mem_map.1 ht
  positivity

variable {K r q σ Δ : ℝ}

theorem bermudanPut_regular (hK : 0 ≤ K) (hσ : 0 < σ) (hΔ : 0 < Δ) (j : ℕ) :
    Measurable (bermudanPut K r q σ Δ j) ∧ ∀ x, |bermudanPut K r q σ Δ j x| ≤ K * Real.exp (|r| * (Δ * (j + 1))) := by
  have hk : (0 : ℝ) < ((j + 1 : ℕ) : ℝ) := by positivity
  have hT : 0 < Δ * ((j + 1 : ℕ) : ℝ) := mul_pos hΔ hk
  have hlim := fun x => partValue_dates (r := r) (q := q) hK hσ hT (Nat.succ_pos j) j (Nat.lt_succ_self j) x
  have e : Δ * ((j + 1 : ℕ) : ℝ) / ((j + 1 : ℕ) : ℝ) = Δ := by field_simp
  have hgood := (moveProb_mem (r := r) (q := q) hσ hT).and (eventually_gt_atTop 0)
  have hle : ∀ n, j * n / (j + 1) ≤ n := fun n => by
    have := partDates_mono (k := j + 1) (n := n) (Nat.le_succ j)
    rwa [Nat.mul_div_cancel_left _ (Nat.succ_pos j)] at this
  simp only [Nat.succ_eq_add_one] at hlim
  rw [e] at hlim
  constructor
  · refine (lipschitz_exp_continuous (L := Real.exp (|q| * (Δ * ((j + 1 : ℕ) : ℝ)))) fun x y => ?_).measurable
    refine le_of_tendsto ((hlim x).sub (hlim y)).abs ?_
    filter_upwards [hgood] with n hn
    exact partValue_lipschitz hσ hT hn.2 hn.1 (hle n) x y
  · intro x
    refine le_of_tendsto (hlim x).abs ?_
    filter_upwards [hgood] with n hn
    have := partValue_bound (K := K) (k := j + 1) hK hT hn.1 (hle n) x
    push_cast at this ⊢
    exact this

/-- The backward induction of Black-Scholes values is the value of the put when the spot moves by independent lognormal factors. -/
theorem snell_bermudan {E : Type} {mE : MeasurableSpace E} {ν : Measure E} [IsProbabilityMeasure ν] {ℱ : Filtration ℕ mE} {k : ℕ} {spot : ℕ → E → ℝ}
    (hK : 0 ≤ K) (hσ : 0 < σ) (hΔ : 0 < Δ) (hpos : ∀ j < k, ∀ x, 0 < spot j x) (hknown : ∀ j < k, Measurable[ℱ j] (spot j))
    (hstep : ∀ j, j + 1 < k → ∃ R : E → ℝ, Measurable R ∧ Indep (ℱ j) (MeasurableSpace.comap R inferInstance) ν ∧
      ν.map R = gaussianReal ((r - q - σ ^ 2 / 2) * Δ) (Real.toNNReal (σ ^ 2 * Δ)) ∧ ∀ x, spot (j + 1) x = spot j x * Real.exp (R x))
    (gain : ℕ → E → ℝ) (hgain : ∀ j < k, ∀ x, gain j x = Real.exp (-r * (((j : ℝ) + 1) * Δ)) * max (K - spot j x) 0) (d : ℕ) (hd : d < k) :
    snell ν ℱ (k - 1) gain d =ᵐ[ν] fun x => Real.exp (-r * (((k - 1 - d : ℕ) + 1 : ℝ) * Δ)) * bermudanPut K r q σ Δ d (Real.log (spot (k - 1 - d) x)) := by
  have hpay : ∀ j < k, ∀ x, max (K - spot j x) 0 = putLog K (Real.log (spot j x)) := by
    intro j hj x
    rw [putLog, Real.exp_log (hpos j hj x)]
  induction d with
  | zero =>
    refine Eventually.of_forall fun x => ?_
    change gain (k - 1) x = _
    rw [hgain _ (by omega), hpay _ (by omega)]
    rfl
  | succ d ih =>
    obtain ⟨j, hj⟩ : ∃ j, j = k - 1 - (d + 1) := ⟨_, rfl⟩
    have hj1 : k - 1 - d = j + 1 := by omega
    obtain ⟨hum, hub⟩ := bermudanPut_regular (r := r) (q := q) hK hσ hΔ d
    obtain ⟨R, hRm, hind, hlaw, hnext⟩ := hstep j (by omega)
    have ih' := ih (by omega)
    rw [hj1] at ih'
    have hS : Measurable[ℱ j] fun x => Real.log (spot j x) := Real.measurable_log.comp (hknown j (by omega))
    have hfr := condExp_freeze (ν := ν) (ℱ.le j) (fun x => Real.log (spot j x)) R hS hRm hind
      (fun s y => Real.exp (-r * (((j + 1 : ℕ) + 1 : ℝ) * Δ)) * bermudanPut K r q σ Δ d (s + y))
      (measurable_const.mul (hum.comp (measurable_fst.add measurable_snd)))
      (B := Real.exp (-r * (((j + 1 : ℕ) + 1 : ℝ) * Δ)) * (K * Real.exp (|r| * (Δ * (d + 1))))) (fun s y => by
        rw [abs_mul, abs_of_pos (Real.exp_pos _)]
        exact mul_le_mul_of_nonneg_left (hub _) (Real.exp_pos _).le)
    have hce : ν[snell ν ℱ (k - 1) gain d | ℱ j] =ᵐ[ν] ν[fun x => Real.exp (-r * (((j + 1 : ℕ) + 1 : ℝ) * Δ)) * bermudanPut K r q σ Δ d (Real.log (spot j x) + R x) | ℱ j] := by
      refine condExp_congr_ae (ih'.trans (Eventually.of_forall fun x => ?_))
      beta_reduce
      rw [hnext x, Real.log_mul (hpos j (by omega) x).ne' (Real.exp_pos _).ne', Real.log_exp]
    filter_upwards [hce.trans hfr] with x hx
    simp only [snell]
    rw [← hj, hx, hgain j (by omega), hpay j (by omega), hlaw, integral_const_mul]
    have hshift : ∫ y, bermudanPut K r q σ Δ d (Real.log (spot j x) + y) ∂gaussianReal ((r - q - σ ^ 2 / 2) * Δ) (Real.toNNReal (σ ^ 2 * Δ)) =
        ∫ y, bermudanPut K r q σ Δ d y ∂gaussianReal (Real.log (spot j x) + (r - q - σ ^ 2 / 2) * Δ) (Real.toNNReal (σ ^ 2 * Δ)) := by
      rw [add_comm (Real.log (spot j x)) ((r - q - σ ^ 2 / 2) * Δ), ← gaussianReal_map_const_add (Real.log (spot j x)), integral_map (by fun_prop) hum.aestronglyMeasurable]
    rw [hshift]
    have hexp : Real.exp (-r * (((j + 1 : ℕ) + 1 : ℝ) * Δ)) = Real.exp (-r * (((j : ℝ) + 1) * Δ)) * Real.exp (-r * Δ) := by
      rw [← Real.exp_add]
      congr 1
      push_cast
      ring
    rw [hexp, mul_assoc, ← mul_max_of_nonneg _ _ (Real.exp_pos _).le]
    rfl

/-- Without regressions: the value of a put by backward induction is the least upper bound of what can be attained. -/
theorem put_snell_lub {E : Type} {mE : MeasurableSpace E} {ν : Measure E} [IsProbabilityMeasure ν] {ℱ : Filtration ℕ mE} {strike : ℝ} (hK : 0 < strike) {times : List ℕ}
    {spot : ℕ → E → ℝ} (hs : PutSpots ν strike times spot) (hmk : MarkovSpots ν ℱ times spot) (discounts : List ℝ) (ht : 0 < times.length)
    (hlen : discounts.length = times.length) (hdf : ∀ r ∈ discounts, 0 < r) :
    IsLUB (putWorths ν ℱ strike times spot discounts)
      (∫ x, snell ν ℱ (times.length - 1) (fun j x => discounts.getD j 0 * max (strike - spot (times.getD j 0) x) 0) (times.length - 1) x ∂ν) := by
  have hδ : ∀ j < times.length, 0 < discounts.getD j 0 := by
    intro j hj
    rw [List.getD_eq_getElem _ _ (by omega)]
    exact hdf _ (List.getElem_mem _)
  obtain ⟨B, hB0, hB⟩ : ∃ B : ℝ, 0 ≤ B ∧ ∀ j < times.length, discounts.getD j 0 * strike ≤ B := by
    refine ⟨∑ j ∈ Finset.range times.length, discounts.getD j 0 * strike, Finset.sum_nonneg fun j hj => (mul_pos (hδ j (Finset.mem_range.1 hj)) hK).le, fun j hj => ?_⟩
    exact Finset.single_le_sum (f := fun j => discounts.getD j 0 * strike) (fun i hi => (mul_pos (hδ i (Finset.mem_range.1 hi)) hK).le) (Finset.mem_range.2 hj)
  have hβ : ∀ degree, ∃ β, (putContract degree strike times spot discounts 0).problem.IsLimitRule ν β := fun degree =>
    limit_rule_exists _ ν fun j hj => put_gram_det hs j (show j < times.length by have : j < times.length - 1 := hj; omega)
  choose β hβ using hβ
  have h := degree_limit (ν := ν) (ℱ := ℱ) (last := times.length - 1) (δ := fun j => discounts.getD j 0) hB0 (fun degree => (basisPowers degree 1).length)
    (fun degree => (putContract degree strike times spot discounts 0).problem) β (fun j x => max (strike - spot (times.getD j 0) x) 0) (fun _ => rfl) (fun _ => rfl)
    (fun degree => put_tame hs hK hmk ht hδ B hB degree 0) hβ (fun d hd ε hε => ?_)
  · exact h.2
  · obtain ⟨u, hu, hub, hue⟩ := put_value_function (ν := ν) (ℱ := ℱ) hs hK hmk (fun j => discounts.getD j 0) hδ B hB d (by omega)
    have hidx : times.length - 1 - d = times.length - 1 - (d + 1) + 1 := by omega
    rw [hidx] at hue
    obtain ⟨g, hg, hgb, hge⟩ := going_on_function hmk (times.length - 1 - (d + 1)) (by omega) u hu B hub _ hue
    exact put_fit hs (times.length - 1 - (d + 1)) (by omega) _ g hg B hgb hge 0 ε hε

/-! ## Geometric Brownian motion on the even grid -/

theorem even_spot {S r q σ T : ℝ} (hT : 0 < T) (hσ : 0 < σ) (k : ℕ) : ∃ w : ℕ → ℝ, (∀ j < k, w j ^ 2 = σ ^ 2 * (T / k)) ∧
    ∀ j < k, ∀ z, evenSpot S r q σ T k j z = S * Real.exp ((r - q - σ ^ 2 / 2) * (((j : ℝ) + 1) * (T / k)) + ∑ l : Fin (evenGrid T k).length, if l.1 ≤ j then w l.1 * z l else 0) := by
  obtain ⟨w, hw⟩ := Props.C60_paths (.constant (r - q)) (.constant σ) trivial trivial (evenGrid T k) (evenGrid_sorted hT k) (evenGrid_nonneg hT k)
  have hvar : ∀ j < k, ∑ i ∈ Finset.range (j + 1), w i ^ 2 = σ ^ 2 * (((j : ℝ) + 1) * (T / k)) := by
    intro j hj
    have := (hw j (by rw [evenGrid_length]; exact hj)).1
    rw [this, evenGrid_getD T hj]
    simp [TimeParam.eval, mul_comm]
  refine ⟨w, fun j hj => ?_, fun j hj z => ?_⟩
  · have h1 := hvar j hj
    rw [Finset.sum_range_succ] at h1
    rcases Nat.eq_zero_or_pos j with rfl | h0
    · simpa using h1
    · have h2 := hvar (j - 1) (by omega)
      rw [Nat.sub_add_cancel h0, Nat.cast_sub h0] at h2
      push_cast at h2
      rw [h2] at h1
      linear_combination h1
  · have hj' : j < (evenGrid T k).length := by rw [evenGrid_length]; exact hj
    unfold evenSpot
    rw [List.getD_eq_getElem?_getD, (hw j hj').2 S (List.ofFn z) (by simp), Option.getD_some, evenGrid_getD T hj]
    have e0 : (∫ t in (0 : ℝ)..(((j : ℝ) + 1) * (T / k)), (TimeParam.constant (r - q)).eval t) -
        (∫ t in (0 : ℝ)..(((j : ℝ) + 1) * (T / k)), (TimeParam.constant σ).eval t ^ 2) / 2 = (r - q - σ ^ 2 / 2) * (((j : ℝ) + 1) * (T / k)) := by
      simp only [TimeParam.eval, intervalIntegral.integral_const, smul_eq_mul, sub_zero]
      ring
    rw [e0]
    congr 3
    have e : ∀ l : Fin (evenGrid T k).length, (if l.1 ≤ j then w l.1 * z l else 0) = (fun k => if k ≤ j then w k * (List.ofFn z).getD k 0 else 0) l.1 := by
      intro l
      beta_reduce
      rw [List.getD_eq_getElem _ _ (by simp), List.getElem_ofFn]
    simp only [e]
    rw [Fin.sum_univ_eq_sum_range (fun k => if k ≤ j then w k * (List.ofFn z).getD k 0 else 0) (evenGrid T k).length, ← Finset.sum_filter]
    congr 1
    ext i
    simp only [Finset.mem_filter, Finset.mem_range]
    omega

theorem drawCut_range (k j : ℕ) : drawCut (List.range k) j ≤ j := by
  refine Finset.sup_le fun i hi => ?_
  have := Finset.mem_range.1 hi
  rcases Nat.lt_or_ge i k with h | h
  · rw [range_getD h]; omega
  · rw [List.getD_eq_default _ _ (by simpa using h)]; omega

theorem even_step {S r q σ T : ℝ} (hT : 0 < T) (hσ : 0 < σ) (k j : ℕ) (hj : j + 1 < k) :
    ∃ R : (Fin (evenGrid T k).length → ℝ) → ℝ, Measurable R ∧
      Indep (drawFiltration (evenGrid T k).length (List.range k) j) (MeasurableSpace.comap R inferInstance) (Measure.pi fun _ => gaussianReal 0 1) ∧
      (Measure.pi fun _ : Fin (evenGrid T k).length => gaussianReal 0 1).map R = gaussianReal ((r - q - σ ^ 2 / 2) * (T / k)) (Real.toNNReal (σ ^ 2 * (T / k))) ∧
      ∀ z, evenSpot S r q σ T k (j + 1) z = evenSpot S r q σ T k j z * Real.exp (R z) := by
  obtain ⟨w, hw1, hw2⟩ := even_spot (S := S) (r := r) (q := q) hT hσ k
  set n := (evenGrid T k).length with hn
  have hnk : n = k := evenGrid_length T k
  set i : Fin n := ⟨j + 1, by omega⟩ with hi
  set W : Fin n → ℝ := fun l => if l = i then w (j + 1) else 0 with hW
  set R : (Fin n → ℝ) → ℝ := fun z => (r - q - σ ^ 2 / 2) * (T / k) + ∑ l, W l * z l with hR
  have hRe : ∀ z, R z = (r - q - σ ^ 2 / 2) * (T / k) + w (j + 1) * z i := by
    intro z
    simp only [hR, hW, ite_mul, zero_mul, Finset.sum_ite_eq', Finset.mem_univ, if_true]
  have hRm : Measurable R := by fun_prop
  refine ⟨R, hRm, ?_, ?_, fun z => ?_⟩
  · set T' : Finset (Fin n) := {i} with hT'
    have hind : iIndepFun (fun (i : Fin n) (z : Fin n → ℝ) => z i) (Measure.pi fun _ : Fin n => gaussianReal 0 1) :=
      iIndepFun_pi (X := fun _ => id) fun _ => aemeasurable_id
    have hdisj : Disjoint (drawsUntil n (List.range k) j) T' := by
      rw [Finset.disjoint_left]
      intro l h1 h2
      simp only [drawsUntil, hT', Finset.mem_filter, Finset.mem_univ, true_and, Finset.mem_singleton] at h1 h2
      have := drawCut_range k j
      rw [h2] at h1
      simp only [hi] at h1
      omega
    have hI := hind.indepFun_finset _ T' hdisj fun i => measurable_pi_apply i
    rw [IndepFun_iff_Indep] at hI
    refine indep_of_indep_of_le_right hI (Measurable.comap_le ?_)
    rw [funext hRe]
    exact measurable_const.add (measurable_const.mul (coordinate_known T' i (by simp [hT'])))
  · rw [hR, pi_linear_law]
    congr 2
    simp only [hW, ite_pow, zero_pow two_ne_zero, Finset.sum_ite_eq', Finset.mem_univ, if_true]
    exact hw1 (j + 1) hj
  · rw [hw2 (j + 1) hj, hw2 j (by omega), mul_assoc, ← Real.exp_add, hRe]
    congr 2
    have e : ∑ l : Fin n, (if l.1 ≤ j + 1 then w l.1 * z l else 0) = ∑ l : Fin n, (if l.1 ≤ j then w l.1 * z l else 0) + w (j + 1) * z i := by
      have e2 : w (j + 1) * z i = ∑ l : Fin n, if l = i then w l.1 * z l else 0 := by
        simp only [Finset.sum_ite_eq', Finset.mem_univ, if_true, hi]
      rw [e2, ← Finset.sum_add_distrib]
      refine Finset.sum_congr rfl fun l _ => ?_
      by_cases h1 : l.1 ≤ j
      · rw [if_pos h1, if_pos (by omega), if_neg (fun h => by rw [h] at h1; simp only [hi] at h1; omega), add_zero]
      · rw [if_neg h1, zero_add]
        refine if_congr ⟨fun h => Fin.ext (by simp only [hi]; omega), fun h => by rw [h]⟩ rfl rfl
    rw [e]
    push_cast
    ring

/-- The value of a put that can be exercised at `k` even times is the least upper bound of what can be attained. -/
theorem even_value {S K r q σ T : ℝ} (hS : 0 < S) (hK : 0 < K) (hT : 0 < T) (hσ : 0 < σ) (k : ℕ) (hk : 0 < k) :
    PutSpots (Measure.pi fun _ : Fin (evenGrid T k).length => gaussianReal 0 1) K (List.range k) (evenSpot S r q σ T k) ∧
    IsLUB (putWorths (Measure.pi fun _ : Fin (evenGrid T k).length => gaussianReal 0 1) (drawFiltration (evenGrid T k).length (List.range k)) K (List.range k)
      (evenSpot S r q σ T k) (evenDiscounts r T k)) (bsLater r q σ (T / k) (bermudanPut K r q σ (T / k) (k - 1)) (Real.log S)) := by
  have hk' : (0 : ℝ) < k := by exact_mod_cast hk
  have hΔ : 0 < T / k := div_pos hT hk'
  have hin : ∀ i ∈ List.range k, i < (evenGrid T k).length := fun i hi => by rw [evenGrid_length]; exact List.mem_range.1 hi
  have hvar : ∀ i ∈ List.range k, 0 < ∫ t in (0 : ℝ)..((evenGrid T k).getD i 0), (TimeParam.constant σ).eval t ^ 2 := by
    intro i hi
    rw [evenGrid_getD T (List.mem_range.1 hi)]
    simp only [TimeParam.eval, intervalIntegral.integral_const, smul_eq_mul, sub_zero]
    positivity
  have hs := Props.C139_gbm_spots (.constant (r - q)) (.constant σ) trivial trivial (evenGrid T k) (evenGrid_sorted hT k) (evenGrid_nonneg hT k) S hS K hK (List.range k) hin hvar
  have hmk := Props.C140_gbm_markov (.constant (r - q)) (.constant σ) trivial trivial (evenGrid T k) (evenGrid_sorted hT k) (evenGrid_nonneg hT k) S (List.range k)
    (List.pairwise_lt_range.imp fun h => h.le) hin
  refine ⟨hs, ?_⟩
  have hlub := put_snell_lub hK hs hmk (evenDiscounts r T k) (by simpa using hk) (by simp [evenDiscounts]) (fun d hd => by
    obtain ⟨j, -, rfl⟩ := List.mem_map.1 hd
    exact Real.exp_pos _)
  simp only [List.length_range] at hlub
  suffices hval : (∫ x, snell (Measure.pi fun _ : Fin (evenGrid T k).length => gaussianReal 0 1) (drawFiltration (evenGrid T k).length (List.range k)) (k - 1)
      (fun j x => (evenDiscounts r T k).getD j 0 * max (K - evenSpot S r q σ T k ((List.range k).getD j 0) x) 0) (k - 1) x ∂(Measure.pi fun _ => gaussianReal 0 1)) =
      bsLater r q σ (T / k) (bermudanPut K r q σ (T / k) (k - 1)) (Real.log S) by
    rw [← hval]
    exact hlub
  have hpos : ∀ j < k, ∀ z, 0 < evenSpot S r q σ T k j z := by
    intro j hj z
    obtain ⟨w, -, hw⟩ := even_spot (S := S) (r := r) (q := q) hT hσ k
    rw [hw j hj z]
    positivity
  have hval := snell_bermudan (ν := Measure.pi fun _ : Fin (evenGrid T k).length => gaussianReal 0 1) (ℱ := drawFiltration (evenGrid T k).length (List.range k)) (k := k)
    (spot := evenSpot S r q σ T k) (K := K) (r := r) (q := q) hK.le hσ hΔ hpos (fun j hj => by
      have := hmk.known j
      rw [range_getD hj] at this
      exact this) (fun j hj => even_step hT hσ k j hj)
    (fun j z => (evenDiscounts r T k).getD j 0 * max (K - evenSpot S r q σ T k ((List.range k).getD j 0) z) 0) (fun j hj z => by
      rw [evenDiscounts_getD r T hj, range_getD hj]) (k - 1) (by omega)
  refine (integral_congr_ae hval).trans ?_
  rw [show k - 1 - (k - 1) = 0 by omega]
  rw [integral_const_mul]
  unfold bsLater
  congr 1
  · congr 1
    push_cast
    ring
  · obtain ⟨w, hw1, hw2⟩ := even_spot (S := S) (r := r) (q := q) hT hσ k
    obtain ⟨hum, -⟩ := bermudanPut_regular (r := r) (q := q) hK.le hσ hΔ (k - 1)
    have hi : 0 < (evenGrid T k).length := by rw [evenGrid_length]; exact hk
    have hlog : ∀ z, Real.log (evenSpot S r q σ T k 0 z) = (Real.log S + (r - q - σ ^ 2 / 2) * (T / k)) +
        ∑ l : Fin (evenGrid T k).length, (if l = ⟨0, hi⟩ then w 0 else 0) * z l := by
      intro z
      rw [hw2 0 hk, Real.log_mul hS.ne' (Real.exp_pos _).ne', Real.log_exp]
      have e : ∀ l : Fin (evenGrid T k).length, (if l.1 ≤ 0 then w l.1 * z l else 0) = (if l = ⟨0, hi⟩ then w 0 else 0) * z l := by
        intro l
        by_cases h : l.1 = 0
        · rw [if_pos (by omega), if_pos (Fin.ext h), h]
        · rw [if_neg (by omega), if_neg (fun h' => h (by rw [h'])), zero_mul]
      simp only [e]
      push_cast
      ring
    simp only [hlog]
    rw [← integral_map (μ := Measure.pi fun _ : Fin (evenGrid T k).length => gaussianReal 0 1) (φ := fun z => (Real.log S + (r - q - σ ^ 2 / 2) * (T / k)) +
        ∑ l : Fin (evenGrid T k).length, (if l = ⟨0, hi⟩ then w 0 else 0) * z l)
        (measurable_const.add (Finset.measurable_sum _ fun l _ => measurable_const.mul (measurable_pi_apply l))).aemeasurable hum.aestronglyMeasurable, pi_linear_law]
    congr 3
    simp only [ite_pow, zero_pow two_ne_zero, Finset.sum_ite_eq', Finset.mem_univ, if_true]
    exact hw1 0 hk

theorem even_lub {S K r q σ T V : ℝ} (hS : 0 < S) (hK : 0 < K) (hT : 0 < T) (hσ : 0 < σ)
    (hV : IsLUB {w | ∃ k : ℕ, 0 < k ∧ w = bsLater r q σ (T / k) (bermudanPut K r q σ (T / k) (k - 1)) (Real.log S)} V) : IsLUB (blackScholesPutWorths S K r q σ T) V := by
  constructor
  · rintro w ⟨k, hk, hw⟩
    exact ((even_value hS hK hT hσ k hk).2.1 hw).trans (hV.1 ⟨k, hk, rfl⟩)
  · intro b hb
    refine hV.2 ?_
    rintro w ⟨k, hk, rfl⟩
    exact (even_value hS hK hT hσ k hk).2.2 fun w hw => hb ⟨k, hk, hw⟩

end Lemmas

namespace Props
open Model Spec Lemmas MeasureTheory ProbabilityTheory Filter Topology

/-- C141: the price of an American put in the binomial tree converges, and the limit is the least upper bound of the expected discounted payoffs under Black-Scholes dynamics over
all ways to exercise at finitely many times. -/
theorem C141_put (o : CrrOption) (hT : 0 < o.expiry) (hS : 0 < o.spot) (hK : 0 < o.strike) (hv : 0 < o.volatility) (hA : o.isAmerican = true) (hP : o.isCall = false) :
    ∃ V, IsLUB (blackScholesPutWorths o.spot o.strike o.discountRate o.dividendRate o.volatility o.expiry) V ∧
      Tendsto (fun n : ℕ => optionPriceBinomial { o with numSteps := n }) atTop (𝓝 V) := by
  obtain ⟨V, hV, -, hlub⟩ := american_limit_sup (r := o.discountRate) (q := o.dividendRate) hK.le hv hT (fun n => moveDisc o.discountRate o.expiry n) (moveDisc_one _ _) (Real.log o.spot)
  refine ⟨V, even_lub hS hK hT hv hlub, hV.congr' ?_⟩
  filter_upwards [eventually_gt_atTop 0] with n hn
  exact (optionPriceBinomial_american_put { o with numSteps := n } hT hv hn hA hP).symm

/-- C141: the values with evenly spaced exercise times tend to the same limit, from below and with an error of the order of the time between exercises. -/
theorem C141_dates (o : CrrOption) (hT : 0 < o.expiry) (hS : 0 < o.spot) (hK : 0 < o.strike) (hv : 0 < o.volatility) (hA : o.isAmerican = true) (hP : o.isCall = false)
    (V : ℝ) (hV : Tendsto (fun n : ℕ => optionPriceBinomial { o with numSteps := n }) atTop (𝓝 V)) (k : ℕ) (hk : 0 < k) :
    ∃ W, IsLUB (putWorths (Measure.pi fun _ : Fin (evenGrid o.expiry k).length => gaussianReal 0 1) (drawFiltration (evenGrid o.expiry k).length (List.range k)) o.strike (List.range k)
        (evenSpot o.spot o.discountRate o.dividendRate o.volatility o.expiry k) (evenDiscounts o.discountRate o.expiry k)) W ∧ W ≤ V ∧
      V ≤ W + o.strike * ((Real.exp (|o.discountRate| * (o.expiry / k)) - 1) + (Real.exp (|o.dividendRate| * (o.expiry / k)) - 1)) * Real.exp (|o.discountRate| * o.expiry) := by
  obtain ⟨V', hV', hb⟩ := american_limit (r := o.discountRate) (q := o.dividendRate) hK.le hv hT (fun n => moveDisc o.discountRate o.expiry n) (moveDisc_one _ _) (Real.log o.spot)
  have he : V = V' := by
    refine tendsto_nhds_unique hV (hV'.congr' ?_)
    filter_upwards [eventually_gt_atTop 0] with n hn
    exact (optionPriceBinomial_american_put { o with numSteps := n } hT hv hn hA hP).symm
  rw [he]
  exact ⟨_, (even_value hS hK hT hv k hk).2, (hb k hk).1, (hb k hk).2⟩

/-- C141: the limit is at least the payoff of immediate exercise and at least the Black-Scholes price of the European put. -/
theorem C141_bounds (o : CrrOption) (hT : 0 < o.expiry) (hS : 0 < o.spot) (hK : 0 < o.strike) (hv : 0 < o.volatility) (hA : o.isAmerican = true) (hP : o.isCall = false)
    (V : ℝ) (hV : Tendsto (fun n : ℕ => optionPriceBinomial { o with numSteps := n }) atTop (𝓝 V)) :
    max (o.strike - o.spot) 0 ≤ V ∧ ∃ v, optionPrice (treeArgs o) = .ok v ∧ v ≤ V := by
  constructor
  · have h1 : Tendsto (fun n : ℕ => moveDisc o.discountRate o.expiry n * max (o.strike - o.spot) 0) atTop (𝓝 (max (o.strike - o.spot) 0)) := by
      have := (moveDisc_one o.discountRate o.expiry).mul_const (max (o.strike - o.spot) 0)
      rwa [one_mul] at this
    refine le_of_tendsto_of_tendsto h1 hV ?_
    filter_upwards [eventually_gt_atTop 0] with n hn
    rw [optionPriceBinomial_american_put { o with numSteps := n } hT hv hn hA hP]
    obtain ⟨m, rfl⟩ : ∃ m, n = m + 1 := ⟨n - 1, by omega⟩
    unfold americanValue
    simp only [treeValue, if_true, putLog]
    rw [Real.exp_log hS]
    exact le_max_left _ _
  · have h := fun ε hε => C117_american_ge o hT hS hK hv ε hε
    obtain ⟨v, hv1, -⟩ := h 1 one_pos
    refine ⟨v, hv1, le_of_forall_pos_le_add fun ε hε => ?_⟩
    obtain ⟨v', hv2, hev⟩ := h ε hε
    rw [hv1] at hv2
    injection hv2 with hv2
    have := ge_of_tendsto hV (hev.mono fun n hn => by
      have e : ({ o with isAmerican := true, numSteps := n } : CrrOption) = { o with numSteps := n } := by rw [← hA]
      rw [e] at hn
      exact hn)
    linarith

/-- C141: regression Monte Carlo prices with many exercise times, a high degree and many paths are close to the limit of the prices of the tree. -/
theorem C141_regression (o : CrrOption) (hT : 0 < o.expiry) (hS : 0 < o.spot) (hK : 0 < o.strike) (hv : 0 < o.volatility) (hA : o.isAmerican = true) (hP : o.isCall = false)
    (V : ℝ) (hV : Tendsto (fun n : ℕ => optionPriceBinomial { o with numSteps := n }) atTop (𝓝 V)) (ε : ℝ) (hε : 0 < ε) :
    ∀ᶠ k : ℕ in atTop, ∀ {Ω : Type} [MeasurableSpace Ω] (P : Measure Ω) (D : ℕ → Ω → Fin (evenGrid o.expiry k).length → ℝ), NormalDraws P (evenGrid o.expiry k).length D →
      ∀ (pinv : ∀ degree, Matrix (Fin (basisPowers degree 1).length) (Fin (basisPowers degree 1).length) ℝ → Matrix (Fin (basisPowers degree 1).length) (Fin (basisPowers degree 1).length) ℝ),
      (∀ degree A, A * pinv degree A * A = A) →
      let spot := evenSpot o.spot o.discountRate o.dividendRate o.volatility o.expiry k
      let discounts := evenDiscounts o.discountRate o.expiry k
      ∃ β : ∀ degree, ℕ → Fin (basisPowers degree 1).length → ℝ,
        (∀ degree, (putContract degree o.strike (List.range k) spot discounts (evenGrid o.expiry k).length).problem.IsLimitRule (Measure.pi fun _ => gaussianReal 0 1) (β degree)) ∧
        ∀ᶠ degree : ℕ in atTop, (∀ j < k - 1, ∃ a : ℝ, ∑ l, a ^ putPower degree l * β degree j l ≠ o.strike - a) →
          ∀ᵐ ω ∂P, ∀ᶠ n : ℕ in atTop, |(polynomialInput degree 1 (List.range k) (fun i x => max (o.strike - spot i x) 0) (fun i x => [spot i x]) (discounts.map fun r _ => r)
            (evenGrid o.expiry k).length (pinv degree) none n (fun s => D s ω)).leastSquareMc - V| < ε := by
  have hgap0 : Tendsto (fun k : ℕ => gapBound o.strike o.discountRate o.dividendRate (o.expiry / k) * Real.exp (|o.discountRate| * o.expiry)) atTop (𝓝 0) := by
    have := (gapBound_tendsto (K := o.strike) (r := o.discountRate) (q := o.dividendRate) (tendsto_const_div_atTop_nhds_zero_nat o.expiry)).mul_const (Real.exp (|o.discountRate| * o.expiry))
    simpa [gapBound] using this
  filter_upwards [eventually_gt_atTop 0, hgap0.eventually_lt_const (show (0 : ℝ) < ε / 2 by positivity)] with k hk hgap
  intro Ω _ P D hD pinv hp spot discounts
  obtain ⟨W, hW, hWV, hVW⟩ := C141_dates o hT hS hK hv hA hP V hV k hk
  have hin : ∀ i ∈ List.range k, i < (evenGrid o.expiry k).length := fun i hi => by rw [evenGrid_length]; exact List.mem_range.1 hi
  have hk' : (0 : ℝ) < k := by exact_mod_cast hk
  have hvar : ∀ i ∈ List.range k, 0 < ∫ t in (0 : ℝ)..((evenGrid o.expiry k).getD i 0), (TimeParam.constant o.volatility).eval t ^ 2 := by
    intro i hi
    rw [evenGrid_getD _ (List.mem_range.1 hi)]
    simp only [TimeParam.eval, intervalIntegral.integral_const, smul_eq_mul, sub_zero]
    positivity
  obtain ⟨W', β, hW', hβ, hlim⟩ := C140_gbm P (.constant (o.discountRate - o.dividendRate)) (.constant o.volatility) trivial trivial (evenGrid o.expiry k) (evenGrid_sorted hT k)
    (evenGrid_nonneg hT k) o.spot hS o.strike hK (List.range k) (List.pairwise_lt_range.imp fun h => h.le) hin (by simpa using hk) (by rw [evenGrid_length]; simp) hvar D hD
    discounts (by simp [discounts, evenDiscounts]) (fun d hd => by
      obtain ⟨j, -, rfl⟩ := List.mem_map.1 hd
      exact Real.exp_pos _) pinv hp
  have hWW : W' = W := hW'.unique hW
  refine ⟨β, hβ, ?_⟩
  filter_upwards [hlim (ε / 2) (by positivity)] with degree hdeg hne
  filter_upwards [hdeg (by simpa using hne)] with ω hω
  filter_upwards [hω] with n hn
  rw [hWW] at hn
  have h1 : |W - V| < ε / 2 := by
    have : V ≤ W + gapBound o.strike o.discountRate o.dividendRate (o.expiry / k) * Real.exp (|o.discountRate| * o.expiry) := hVW
    rw [abs_lt]
    constructor <;> linarith
  calc _ ≤ _ := abs_sub_le _ W V
    _ < ε := by
      have : ε = ε / 2 + ε / 2 := by ring
      rw [this]
      exact add_lt_add hn h1

/-- An American put without interest and dividends: the limit of the tree is what can be attained by exercising at expiry only. -/
example : ∃ V, Tendsto (fun n : ℕ => optionPriceBinomial ⟨1 / 5, 100, 1, 100, 0, 0, false, true, n⟩) atTop (𝓝 V) ∧
    IsLUB (putWorths (Measure.pi fun _ : Fin (evenGrid 1 1).length => gaussianReal 0 1) (drawFiltration (evenGrid 1 1).length [0]) 100 [0]
      (evenSpot 100 0 0 (1 / 5) 1 1) (evenDiscounts 0 1 1)) V := by
  obtain ⟨V, -, hV⟩ := C141_put ⟨1 / 5, 100, 1, 100, 0, 0, false, true, 1⟩ (by norm_num) (by norm_num) (by norm_num) (by norm_num) rfl rfl
  obtain ⟨W, hW, h1, h2⟩ := C141_dates ⟨1 / 5, 100, 1, 100, 0, 0, false, true, 1⟩ (by norm_num) (by norm_num) (by norm_num) (by norm_num) rfl rfl V hV 1 one_pos
  have : V = W := le_antisymm (by simpa using h2) h1
  exact ⟨V, hV, this ▸ hW⟩

/-- Deep in the money: the spot is 50, the strike 100; the limit is at least 50 whatever the rates. -/
example (r q : ℝ) : ∃ V, Tendsto (fun n : ℕ => optionPriceBinomial ⟨1 / 5, 100, 1, 50, r, q, false, true, n⟩) atTop (𝓝 V) ∧ 50 ≤ V := by
  obtain ⟨V, -, hV⟩ := C141_put ⟨1 / 5, 100, 1, 50, r, q, false, true, 1⟩ (by norm_num) (by norm_num) (by norm_num) (by norm_num) rfl rfl
  have := (C141_bounds ⟨1 / 5, 100, 1, 50, r, q, false, true, 1⟩ (by norm_num) (by norm_num) (by norm_num) (by norm_num) rfl rfl V hV).1
  refine ⟨V, hV, le_trans ?_ this⟩
  norm_num

end Props
