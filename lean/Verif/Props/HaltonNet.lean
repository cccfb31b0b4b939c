import Verif.Lemmas.HaltonBoxes

/-! # C121 Halton points in several dimensions -/

namespace Spec
open Model

/-- No randomisation, or the one of the code: digit permutations `shuffle` for at least as many digits as used and uniform numbers
in `[0, 1)` for the correction beyond the last digit. -/
def HaltonRandomization {K : Type} [Field K] [LinearOrder K] (radixes sizes : List Nat) (r : Option (List Nat × List K)) : Prop :=
  r = none ∨ ∃ numCoeffs shuffle uniform, (∀ s ∈ sizes, s ≤ numCoeffs) ∧
    (∀ i c, c < radixes.length → (shuffle i c).Perm (List.range (radixes.getD c 0))) ∧
    (∀ c, c < radixes.length → (0 : K) ≤ uniform.getD c 0 ∧ uniform.getD c 0 < 1) ∧
    r = some (haltonPermutations numCoeffs radixes shuffle, haltonZeroCorrection radixes sizes uniform)

/-- Bases larger than one, any two of them coprime (as distinct primes are), with a number of digits each. -/
structure HaltonBases (radixes sizes : List Nat) : Prop where
  length : sizes.length = radixes.length
  base : ∀ c, c < radixes.length → 1 < radixes.getD c 0
  coprime : ∀ c c', c < radixes.length → c' < radixes.length → c ≠ c' → Nat.Coprime (radixes.getD c 0) (radixes.getD c' 0)

end Spec

namespace Lemmas
open Model Spec MeasureTheory

/-- The value of a coordinate: reversed digits and a part below the last digit. -/
theorem halton_form {K : Type} [Field K] [LinearOrder K] [IsStrictOrderedRing K] (radixes sizes : List Nat) (h : HaltonBases radixes sizes)
    (r : Option (List Nat × List K)) (hr : HaltonRandomization radixes sizes r) (c : Nat) (hc : c < radixes.length) :
    ∃ (π : Nat → Nat → Nat) (u : K), DigitPerms (radixes.getD c 0) (sizes.getD c 0) π ∧ 0 ≤ u ∧ u < 1 ∧
      ∀ n, haltonValue radixes sizes r n c = (((rev (radixes.getD c 0) π n (sizes.getD c 0) : Nat) : K) + u) /
        ((radixes.getD c 0 : Nat) : K) ^ sizes.getD c 0 := by
  have hb := h.base c hc
  have hcs : c < sizes.length := by rw [h.length]; exact hc
  rcases hr with rfl | ⟨numCoeffs, shuffle, uniform, h1, h2, h3, rfl⟩
  · refine ⟨fun _ d => d, 0, fun e _ => ⟨fun d hd => hd, fun d d' _ _ h => h⟩, le_refl _, zero_lt_one, fun n => ?_⟩
    rw [value_plain radixes sizes c n (by omega) hcs, add_zero]
  · refine ⟨fun e d => (shuffle e c).getD d 0, uniform.getD c 0,
      digitPerms_of_perm _ _ (fun e => shuffle e c) (fun e _ => h2 e c hc), (h3 c hc).1, (h3 c hc).2, fun n => ?_⟩
    have hz : (haltonZeroCorrection radixes sizes uniform).getD c 0 =
        uniform.getD c 0 / ((radixes.getD c 0 : Nat) : K) ^ sizes.getD c 0 := by
      unfold haltonZeroCorrection
      simp [List.getD_eq_getElem?_getD, hc]
    rw [value_random radixes sizes numCoeffs c n shuffle
      (fun i c hc => by rw [(h2 i c hc).length_eq, List.length_range]) _ (by omega) hcs hc h1, hz, add_div]

theorem cube_volume (s : ℕ) : volume (unitCube s) < ⊤ ∧ volume.real (unitCube s) = 1 := by
  have e : unitCube s = Set.pi Set.univ (fun _ => Set.Ico 0 1) := by
    ext u
    simp [unitCube, Set.mem_pi]
  rw [e, Measure.real, Real.volume_pi_Ico]
  constructor
  · exact ENNReal.prod_lt_top fun c _ => ENNReal.ofReal_lt_top
  · simp

end Lemmas

namespace Props
open Model Spec Lemmas MeasureTheory Filter

/-- C121 (`random_ops/halton/halton_impl.py`): for coprime bases every run of `Π b_c^(d_c)` consecutive points has exactly one point in
each box with sides `b_c^(-d_c)`, plain or randomised, as long as the `d_c` digits are among those used. -/
theorem C121_boxes {K : Type} [Field K] [LinearOrder K] [IsStrictOrderedRing K] (radixes sizes : List Nat) (h : HaltonBases radixes sizes)
    (r : Option (List Nat × List K)) (hr : HaltonRandomization radixes sizes r) (N : Nat) (d : Fin radixes.length → Nat)
    (hd : ∀ c, d c ≤ sizes.getD c 0) (k : Fin radixes.length → Nat) (hk : ∀ c, k c < radixes.getD c 0 ^ d c) (a : Nat)
    (ha : a + ∏ c : Fin radixes.length, radixes.getD c 0 ^ d c ≤ N) :
    ∃! n, (a ≤ n ∧ n < a + ∏ c : Fin radixes.length, radixes.getD c 0 ^ d c) ∧
      ∀ c : Fin radixes.length, InCell (radixes.getD c 0) (d c) (k c) (((haltonSample radixes sizes N none r).getD n []).getD c 0) := by
  choose π u hπ hu0 hu1 hval using fun c : Fin radixes.length => halton_form radixes sizes h r hr c c.isLt
  have hb : ∀ c : Fin radixes.length, 0 < radixes.getD c 0 := fun c => by have := h.base c c.isLt; omega
  obtain ⟨m, ⟨⟨h1, h2⟩, h3⟩, h4⟩ := rev_boxes radixes.length (fun c => radixes.getD c 0) d (fun c => sizes.getD c 0) π hb hd hπ
    (fun c c' hne => h.coprime c c' c.isLt c'.isLt (fun e => hne (Fin.ext e))) (a + 1) k hk
  have hcell : ∀ n, n < N → ∀ c : Fin radixes.length, (InCell (radixes.getD c 0) (d c) (k c)
      (((haltonSample radixes sizes N none r).getD n []).getD c 0) ↔ rev (radixes.getD c 0) (π c) (n + 1) (d c) = k c) := by
    intro n hn c
    rw [sample_entry radixes sizes N none r n n c (by simp [hn]) c.isLt, hval c, inCell_add_iff _ _ _ _ _ _ (hu0 c) (hu1 c) (hb c) (hd c)]
    have := rev_div _ _ (π c) (hb c) (hπ c) (n + 1) (d c) (sizes.getD c 0 - d c) (by have := hd c; omega)
    rw [show d c + (sizes.getD c 0 - d c) = sizes.getD c 0 by have := hd c; omega] at this
    rw [this]
  refine ⟨m - 1, ⟨⟨by omega, by omega⟩, fun c => (hcell (m - 1) (by omega) c).2 (by rw [show m - 1 + 1 = m by omega]; exact h3 c)⟩, ?_⟩
  rintro n ⟨⟨h5, h6⟩, h7⟩
  have := h4 (n + 1) ⟨⟨by omega, by omega⟩, fun c => (hcell n (by omega) c).1 (h7 c)⟩
  omega

/-- The points lie in the unit cube. -/
theorem halton_unit (radixes sizes : List Nat) (h : HaltonBases radixes sizes) (r : Option (List Nat × List ℝ))
    (hr : HaltonRandomization radixes sizes r) (N n : Nat) (hn : n < N) :
    (fun c : Fin radixes.length => ((haltonSample radixes sizes N none r).getD n []).getD c 0) ∈ unitCube radixes.length := by
  intro c
  obtain ⟨π, u, hπ, hu0, hu1, hval⟩ := halton_form radixes sizes h r hr c c.isLt
  simp only []
  rw [sample_entry radixes sizes N none r n n c (by simp [hn]) c.isLt, hval]
  exact rev_range _ _ (h.base c c.isLt) π hπ u hu0 hu1 _

/-- C121: the average of a bounded function over the first `N` points differs from its integral by at most its oscillation over boxes with
sides `b_c^(-d_c)` plus `2 B Π b_c^(d_c) / N`. -/
theorem C121_error (radixes sizes : List Nat) (h : HaltonBases radixes sizes) (r : Option (List Nat × List ℝ))
    (hr : HaltonRandomization radixes sizes r) (N : Nat) (hN : 0 < N) (d : Fin radixes.length → Nat) (hd : ∀ c, d c ≤ sizes.getD c 0)
    (f : (Fin radixes.length → ℝ) → ℝ) (ω B : ℝ) (hω : 0 ≤ ω)
    (hf : ∀ u v, u ∈ unitCube radixes.length → v ∈ unitCube radixes.length →
      (∀ c, |u c - v c| ≤ 1 / (radixes.getD c 0 : ℝ) ^ d c) → |f u - f v| ≤ ω)
    (hB : ∀ u, u ∈ unitCube radixes.length → |f u| ≤ B) (hint : IntegrableOn f (unitCube radixes.length)) :
    |(∑ n ∈ Finset.range N, f (fun c => ((haltonSample radixes sizes N none r).getD n []).getD c 0)) / N -
      ∫ u in unitCube radixes.length, f u| ≤ ω + 2 * B * (∏ c : Fin radixes.length, (radixes.getD c 0 : ℝ) ^ d c) / N := by
  have hb : ∀ c : Fin radixes.length, 0 < radixes.getD c 0 := fun c => by have := h.base c c.isLt; omega
  have hI : |∫ u in unitCube radixes.length, f u| ≤ B := by
    have := norm_setIntegral_le_of_norm_le_const (μ := volume) (s := unitCube radixes.length) (f := f) (C := B) (cube_volume _).1 (fun u hu => hB u hu)
    rw [(cube_volume _).2, mul_one] at this
    exact this
  have key := runs_sum radixes.length (fun c => radixes.getD c 0) d hb N
    (fun n c => ((haltonSample radixes sizes N none r).getD n []).getD c 0) (fun n hn => halton_unit radixes sizes h r hr N n hn)
    (fun a ha k => C121_boxes radixes sizes h r hr N d hd (fun c => k c) (fun c => (k c).isLt) a ha) f ω B hω hf hB hI hint
  have hNr : (0 : ℝ) < N := by exact_mod_cast hN
  have e : (∑ n ∈ Finset.range N, f (fun c => ((haltonSample radixes sizes N none r).getD n []).getD c 0)) / N -
      ∫ u in unitCube radixes.length, f u = ((∑ n ∈ Finset.range N, f (fun c => ((haltonSample radixes sizes N none r).getD n []).getD c 0)) -
      N * ∫ u in unitCube radixes.length, f u) / N := by
    field_simp
  rw [e, abs_div, abs_of_pos hNr, div_le_iff₀ hNr]
  refine le_trans key (le_of_eq ?_)
  field_simp

/-- C121: averages of a function that is continuous on the closed cube over the first `N` Halton points tend to its integral, when the
numbers of digits suffice for the indices; the randomisation may differ for every `N`. -/
theorem C121_convergence (radixes : List Nat) (sizes : Nat → List Nat) (h : ∀ N, HaltonBases radixes (sizes N))
    (hsize : ∀ N c, c < radixes.length → N + 1 ≤ radixes.getD c 0 ^ (sizes N).getD c 0) (r : Nat → Option (List Nat × List ℝ))
    (hr : ∀ N, HaltonRandomization radixes (sizes N) (r N)) (f : (Fin radixes.length → ℝ) → ℝ) (hf : ContinuousOn f (Set.Icc 0 1)) :
    Tendsto (fun N : ℕ => (∑ n ∈ Finset.range N, f (fun c => ((haltonSample radixes (sizes N) N none (r N)).getD n []).getD c 0)) / N)
      atTop (nhds (∫ u in unitCube radixes.length, f u)) := by
  have hb : ∀ c : Fin radixes.length, 1 < radixes.getD c 0 := fun c => (h 0).base c c.isLt
  obtain ⟨B, hB⟩ := isCompact_Icc.exists_bound_of_continuousOn hf
  have hsub : ∀ u, u ∈ unitCube radixes.length → u ∈ Set.Icc (0 : Fin radixes.length → ℝ) 1 := fun u hu => ⟨fun c => (hu c).1, fun c => (hu c).2.le⟩
  rw [Metric.tendsto_atTop]
  intro ε hε
  obtain ⟨δ, hδ, hu⟩ := Metric.uniformContinuousOn_iff.1 (isCompact_Icc.uniformContinuousOn_of_continuous hf) (ε / 2) (by linarith)
  obtain ⟨K, hK⟩ := exists_pow_lt_of_lt_one hδ (by norm_num : (1 / 2 : ℝ) < 1)
  set M : ℕ := ∏ c : Fin radixes.length, radixes.getD c 0 ^ K with hM
  have hMr : (∏ c : Fin radixes.length, (radixes.getD c 0 : ℝ) ^ K) = (M : ℝ) := by rw [hM]; push_cast; rfl
  have hdM : ∀ c : Fin radixes.length, radixes.getD c 0 ^ K ≤ M := by
    intro c
    exact Nat.le_of_dvd (Finset.prod_pos fun c _ => Nat.pow_pos (by have := hb c; omega)) (Finset.dvd_prod_of_mem _ (Finset.mem_univ c))
  obtain ⟨N1, hN1⟩ := exists_nat_gt (2 * |B| * M / (ε / 2))
  refine ⟨max (max M N1) 1, fun N hN => ?_⟩
  have h1 : M ≤ N := le_trans (le_trans (le_max_left _ _) (le_max_left _ _)) hN
  have h2 : N1 ≤ N := le_trans (le_trans (le_max_right _ _) (le_max_left _ _)) hN
  have h3 : 1 ≤ N := le_trans (le_max_right _ _) hN
  have hd : ∀ c : Fin radixes.length, K ≤ (sizes N).getD c 0 := by
    intro c
    have hs := hsize N c c.isLt
    have : radixes.getD c 0 ^ K ≤ radixes.getD c 0 ^ (sizes N).getD c 0 := le_trans (hdM c) (by omega)
    exact (Nat.pow_le_pow_iff_right (hb c)).1 this
  have key := C121_error radixes (sizes N) (h N) (r N) (hr N) N (by omega) (fun _ => K) hd f (ε / 2) |B| (by linarith)
    (fun u v hu' hv' hc => by
      have := hu u (hsub u hu') v (hsub v hv') (by
        rw [dist_pi_lt_iff hδ]
        intro c
        rw [Real.dist_eq]
        refine lt_of_le_of_lt (hc c) (lt_of_le_of_lt ?_ hK)
        rw [one_div_pow]
        refine one_div_le_one_div_of_le (by positivity) (pow_le_pow_left₀ (by norm_num) ?_ _)
        exact_mod_cast hb c)
      rw [Real.dist_eq] at this
      exact this.le)
    (fun u hu' => le_trans (hB u (hsub u hu')) (le_abs_self B)) (cube_integrable _ f hf)
  rw [Real.dist_eq]
  refine lt_of_le_of_lt key ?_
  rw [hMr]
  have hNr : (0 : ℝ) < N := by exact_mod_cast h3
  have : 2 * |B| * M / N < ε / 2 := by
    rw [div_lt_iff₀ hNr]
    rw [div_lt_iff₀ (by linarith)] at hN1
    have : (N1 : ℝ) ≤ N := by exact_mod_cast h2
    nlinarith
  linarith

/-- The bases 2 and 3 with 4 and 3 digits; the box `[1/2, 1) × [1/3, 2/3)` has one of the points 2, ..., 7, the point 6 `(7/8, 5/9)`. -/
example : HaltonBases [2, 3] [4, 3] ∧ HaltonRandomization (K := Rat) [2, 3] [4, 3] none ∧
    (haltonSample [2, 3] [4, 3] 8 none none : List (List Rat)).getD 0 [] = [1/2, 1/3] ∧
    (∃! n, (2 ≤ n ∧ n < 2 + 6) ∧ InCell 2 1 1 (((haltonSample [2, 3] [4, 3] 8 none none : List (List Rat)).getD n []).getD 0 0) ∧
      InCell 3 1 1 (((haltonSample [2, 3] [4, 3] 8 none none : List (List Rat)).getD n []).getD 1 0)) := by
  have hB : HaltonBases [2, 3] [4, 3] := by
    refine ⟨rfl, ?_, ?_⟩
    · intro c hc; have h1 : c < 2 := hc; interval_cases c <;> decide
    · intro c c' hc hc' hne
      have h1 : c < 2 := hc
      have h2 : c' < 2 := hc'
      interval_cases c <;> interval_cases c' <;> first | exact absurd rfl hne | decide
  refine ⟨hB, Or.inl rfl, by decide +kernel, ?_⟩
  have := C121_boxes (K := Rat) [2, 3] [4, 3] hB none (Or.inl rfl) 8 (fun _ => 1) (by decide) (fun _ => 1) (by decide) 2 (by decide)
  obtain ⟨n, ⟨h1, h2⟩, h3⟩ := this
  refine ⟨n, ⟨h1, h2 0, h2 1⟩, fun m hm => h3 m ⟨hm.1, fun c => ?_⟩⟩
  match c with
  | ⟨0, _⟩ => exact hm.2.1
  | ⟨1, _⟩ => exact hm.2.2

end Props
