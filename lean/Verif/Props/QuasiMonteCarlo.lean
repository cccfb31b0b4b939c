import Verif.Lemmas.QuasiPoints
import Verif.Props.McDraws
import Verif.Props.MonteCarloLimit

/-! # C125 Averages over paths drawn from low discrepancy sequences converge -/

namespace Spec
open MeasureTheory

/-- The averages over the point sets of every function that is continuous on the closed cube tend to its integral. -/
def Equidistributed (s : ℕ) (P : ℕ → (ℕ → Fin s → ℝ) → Prop) : Prop :=
  ∀ g : (Fin s → ℝ) → ℝ, ContinuousOn g (Set.Icc 0 1) → AverageLimit s P g (∫ u in unitCube s, g u)

/-- There is one constant for which not too many points of any of the point sets are near the boundary. -/
def AwayFromBoundary (s : ℕ) (P : ℕ → (ℕ → Fin s → ℝ) → Prop) : Prop := ∃ C, 0 ≤ C ∧ ∀ N x, P N x → FewNearBoundary s C N x

end Spec

namespace Props
open Model Spec Lemmas MeasureTheory ProbabilityTheory Filter

/-- C125: runs of points of the Sobol sequence are equidistributed, wherever they start. -/
theorem C125_sobol (table : List (Nat × List Nat)) (hT : ∀ q ∈ table, ValidEntry q) (dim : ℕ) (hdim : 0 < dim) (hd : dim ≤ table.length + 1)
    (hcop : CoprimeCodes table dim) : Equidistributed dim (fun N x => ∃ skip, SobolRun table dim skip N x) :=
  fun g hg => sobolRun_limit table hT dim hdim hd hcop g hg

/-- C125: the points lie strictly inside the cube and not too many of them are near the boundary, if not too many are skipped. -/
theorem C125_sobol_boundary (table : List (Nat × List Nat)) (hT : ∀ q ∈ table, ValidEntry q) (dim : ℕ) (hd : dim ≤ table.length + 1) (κ : ℕ) :
    AwayFromBoundary dim (fun N x => ∃ skip, skip ≤ κ * N ∧ SobolRun table dim skip N x) :=
  ⟨_, by positivity, fun N x ⟨skip, h1, h2⟩ => sobolRun_few table hT dim hd κ skip N h1 x h2⟩

/-- C125: the points that `random_ops/sobol/sobol_impl.py` returns are such a run, as long as their indices have at most 32 binary digits. -/
theorem C125_sobol_impl (table : List (Nat × List Nat)) (hT : ∀ q ∈ table, ValidEntry q) (h32 : ∀ q ∈ table, Nat.log 2 q.1 ≤ 32) (dim N skip : ℕ)
    (hd : dim ≤ table.length + 1) (hN : Nat.clog 2 (skip + N + 1) ≤ 32) :
    SobolRun table dim skip N (fun n c => ((sobolImplSample table dim N skip : List (List ℝ)).getD n []).getD c 0) := by
  intro n hn c
  have hpow : skip + N + 1 ≤ 2 ^ Nat.clog 2 (skip + N + 1) := Nat.le_pow_clog (by omega) _
  exact C25_implementations_agree table hT h32 dim N skip _ c n c.isLt hd hN hn (by omega)

/-- C125: runs of points of the Halton sequence are equidistributed, wherever they start, without or with randomization. -/
theorem C125_halton (radixes : List Nat) (plain : Bool) : Equidistributed radixes.length (fun N x => ∃ skip, HaltonRun radixes plain skip N x) :=
  fun g hg => haltonRun_limit radixes plain g hg

/-- C125: without randomization the points lie strictly inside the cube and not too many of them are near the boundary, if not too many are skipped. -/
theorem C125_halton_boundary (radixes : List Nat) (κ : ℕ) :
    AwayFromBoundary radixes.length (fun N x => ∃ skip, skip ≤ κ * N ∧ HaltonRun radixes true skip N x) :=
  ⟨_, by positivity, fun N x ⟨skip, h1, h2⟩ => haltonRun_few radixes κ skip N h1 x h2⟩

/-- Fewer point sets. -/
theorem equidistributed_mono {s : ℕ} {P P' : ℕ → (ℕ → Fin s → ℝ) → Prop} (h : Equidistributed s P) (hP : ∀ N x, P' N x → P N x) : Equidistributed s P' := by
  intro g hg ε hε
  obtain ⟨N0, h0⟩ := h g hg ε hε
  exact ⟨N0, fun N hN x hx => h0 N hN x (hP N x hx)⟩

/-- C125 (`_mvnormal_quasi`): the averages of a bounded continuous function of the normal quantiles of equidistributed points tend to its expectation under the law of
independent standard normal numbers. -/
theorem C125_normal_bounded (s : ℕ) (P : ℕ → (ℕ → Fin s → ℝ) → Prop) (hP : Equidistributed s P) (f : (Fin s → ℝ) → ℝ) (hf : Continuous f) (B : ℝ) (hB : ∀ z, |f z| ≤ B) :
    AverageLimit s P (fun u => f (fun c => erfinv ((u c - 0.5) * 2) * Real.sqrt 2)) (∫ z, f z ∂(Measure.pi fun _ : Fin s => gaussianReal 0 1)) :=
  averageLimit_normal s P hP f hf B hB

/-- C125: the same for functions with exponential growth, if not too many points are near the boundary. -/
theorem C125_normal (s : ℕ) (P : ℕ → (ℕ → Fin s → ℝ) → Prop) (hP : Equidistributed s P) (hA : AwayFromBoundary s P) (f : (Fin s → ℝ) → ℝ) (hf : Continuous f)
    (A a : ℝ) (hA0 : 0 ≤ A) (ha : 0 ≤ a) (hgrow : ∀ z, |f z| ≤ A * ∑ c, Real.exp (a * |z c|)) :
    AverageLimit s P (fun u => f (fun c => erfinv ((u c - 0.5) * 2) * Real.sqrt 2)) (∫ z, f z ∂(Measure.pi fun _ : Fin s => gaussianReal 0 1)) := by
  obtain ⟨C, hC, hfew⟩ := hA
  exact averageLimit_growth s P hP C hC hfew f hf A a hA0 ha hgrow

/-- C125 (`generate_mc_normal_draws`): for the Sobol type the averages over the paths of a function of all draws of a path tend to the expectation for independent standard
normal draws. The hypothesis on the source says that its points are those of the Sobol sequence. -/
theorem C125_draws (table : List (Nat × List Nat)) (hT : ∀ q ∈ table, ValidEntry q) (steps draws κ : ℕ) (hpos : 0 < steps * draws) (hd : steps * draws ≤ table.length + 1)
    (hcop : CoprimeCodes table (steps * draws)) (f : (Fin (steps * draws) → ℝ) → ℝ) (hf : Continuous f) (A a : ℝ) (hA0 : 0 ≤ A) (ha : 0 ≤ a)
    (hgrow : ∀ z, |f z| ≤ A * ∑ c, Real.exp (a * |z c|)) (ε : ℝ) (hε : 0 < ε) :
    ∃ N0, ∀ paths, N0 ≤ paths → ∀ (src : RandomSource) (chol : Model.NdArray ℝ → Model.NdArray ℝ) (call : ℕ) (skip : ℕ) (seed : Option Seed), src.Valid → skip ≤ κ * paths →
      SobolRun table (steps * draws) skip paths (fun n c => (src.sobol (steps * draws) paths skip).get [n, c]) →
      ∃ r, mcNormalDraws src chol call draws steps paths (some .sobol) [] (some skip) seed = .ok r ∧ r.shape = [steps, paths, draws] ∧
        |(∑ p ∈ Finset.range paths, f (fun i => r.get [i / draws, p, i % draws])) / paths - ∫ z, f z ∂(Measure.pi fun _ => gaussianReal 0 1)| ≤ ε := by
  have hlim := C125_normal (steps * draws) (fun N x => ∃ skip, skip ≤ κ * N ∧ SobolRun table (steps * draws) skip N x)
    (equidistributed_mono (C125_sobol table hT _ hpos hd hcop) fun N x ⟨skip, _, h⟩ => ⟨skip, h⟩) (C125_sobol_boundary table hT _ hd κ) f hf A a hA0 ha hgrow
  obtain ⟨N0, hN0⟩ := hlim ε hε
  refine ⟨N0, fun paths hN src chol call skip seed hsrc hskip hrun => ?_⟩
  obtain ⟨r, h1, h2, h3⟩ := C113_quasi src hsrc chol call draws steps paths [] hpos (some skip) seed .sobol _ (Or.inl ⟨rfl, rfl⟩)
  refine ⟨r, h1, h2, ?_⟩
  have h4 := hN0 paths hN _ ⟨skip, hskip, hrun⟩
  have hdr : 0 < draws := Nat.pos_of_ne_zero fun h => by rw [h] at hpos; simp at hpos
  have e : ∀ p ∈ Finset.range paths, f (fun i : Fin (steps * draws) => r.get [i / draws, p, i % draws]) =
      f (fun i => erfinv (((src.sobol (steps * draws) paths skip).get [p, i] - 0.5) * 2) * Real.sqrt 2) := by
    intro p hp
    congr 1
    funext i
    have h5 := h3 (i / draws) [] p (i % draws) (by rw [Nat.div_lt_iff_lt_mul hdr]; exact i.isLt) List.Forall₂.nil (Finset.mem_range.1 hp) (Nat.mod_lt _ hdr)
    rw [show (i : ℕ) / draws * draws + i % draws = i by rw [Nat.mul_comm]; exact Nat.div_add_mod _ _] at h5
    simpa [flatIndex] using h5
  rw [Finset.sum_congr rfl e]
  exact h4

/-- C125: averages over the paths of geometric Brownian motion computed from equidistributed points of a continuous function of the value at a time, with polynomial growth,
tend to its expectation under the lognormal law. -/
theorem C125_gbm (mean vol : TimeParam) (hm : TimeParamOk mean) (hv : TimeParamOk vol) (times : List ℝ) (hs : times.Pairwise (· ≤ ·)) (h0 : ∀ t ∈ times, 0 ≤ t)
    (x0 : ℝ) (hx : 0 < x0) (j : ℕ) (hj : j < times.length) (P : ℕ → (ℕ → Fin times.length → ℝ) → Prop) (hP : Equidistributed times.length P)
    (hA : AwayFromBoundary times.length P) (f : ℝ → ℝ) (hf : Continuous f) (A : ℝ) (hA0 : 0 ≤ A) (n : ℕ) (hgrow : ∀ s, 0 ≤ s → |f s| ≤ A * (1 + s ^ n)) :
    AverageLimit times.length P (fun u => f ((gbmPath mean vol x0 times (List.ofFn fun c => erfinv ((u c - 0.5) * 2) * Real.sqrt 2)).getD j 0))
      (lognormalExpectation (x0 * Real.exp (∫ t in (0 : ℝ)..(times.getD j 0), mean.eval t)) (Real.sqrt (∫ t in (0 : ℝ)..(times.getD j 0), vol.eval t ^ 2)) f) := by
  obtain ⟨h1, -, -⟩ := C118_expectation mean vol hm hv times hs h0 x0 hx j hj f hf.measurable
  rw [← h1]
  obtain ⟨w, -, hw⟩ := gbm_value mean vol hm hv times hs h0 x0 j hj
  set m := (∫ t in (0 : ℝ)..(times.getD j 0), mean.eval t) - (∫ t in (0 : ℝ)..(times.getD j 0), vol.eval t ^ 2) / 2 with hmdef
  set W := ∑ i, |w i| with hW
  have hW0 : 0 ≤ W := Finset.sum_nonneg fun i _ => abs_nonneg _
  have hcont : Continuous (fun z : Fin times.length → ℝ => f ((gbmPath mean vol x0 times (List.ofFn z)).getD j 0)) := by
    simp_rw [hw]
    exact hf.comp (by fun_prop)
  refine C125_normal times.length P hP hA (fun z => f ((gbmPath mean vol x0 times (List.ofFn z)).getD j 0)) hcont (A * (1 + (x0 * Real.exp m) ^ n)) (n * W) (by positivity) (by positivity) fun z => ?_
  rw [hw z]
  have hpos : 0 ≤ x0 * Real.exp (m + ∑ i, w i * z i) := by positivity
  refine le_trans (hgrow _ hpos) ?_
  rw [mul_assoc]
  refine mul_le_mul_of_nonneg_left ?_ hA0
  obtain ⟨cm, -, hcm⟩ := Finset.exists_max_image Finset.univ (fun c => |z c|) ⟨⟨j, hj⟩, Finset.mem_univ _⟩
  have hsum : ∑ i, w i * z i ≤ W * |z cm| := by
    rw [hW, Finset.sum_mul]
    refine Finset.sum_le_sum fun i hi => le_trans (le_abs_self _) ?_
    rw [abs_mul]
    exact mul_le_mul_of_nonneg_left (hcm i hi) (abs_nonneg _)
  have hE : Real.exp (n * W * |z cm|) ≤ ∑ c, Real.exp (n * W * |z c|) :=
    Finset.single_le_sum (f := fun c => Real.exp (n * W * |z c|)) (fun c _ => (Real.exp_pos _).le) (Finset.mem_univ cm)
  have h1E : 1 ≤ Real.exp (n * W * |z cm|) := Real.one_le_exp (by positivity)
  have hpow : (x0 * Real.exp (m + ∑ i, w i * z i)) ^ n ≤ (x0 * Real.exp m) ^ n * Real.exp (n * W * |z cm|) := by
    rw [Real.exp_add, ← mul_assoc, mul_pow]
    refine mul_le_mul_of_nonneg_left ?_ (by positivity)
    rw [← Real.exp_nat_mul]
    refine Real.exp_le_exp.2 ?_
    rw [mul_assoc]
    exact mul_le_mul_of_nonneg_left hsum (Nat.cast_nonneg n)
  calc 1 + (x0 * Real.exp (m + ∑ i, w i * z i)) ^ n ≤ Real.exp (n * W * |z cm|) + (x0 * Real.exp m) ^ n * Real.exp (n * W * |z cm|) := add_le_add h1E hpow
    _ = (1 + (x0 * Real.exp m) ^ n) * Real.exp (n * W * |z cm|) := by ring
    _ ≤ (1 + (x0 * Real.exp m) ^ n) * ∑ c, Real.exp (n * W * |z c|) := mul_le_mul_of_nonneg_left hE (by positivity)

/-- C125: the average of the discounted payoffs of a European option over paths from equidistributed points tends to the price that `option_price` returns for the forward
price and the root mean square volatility. -/
theorem C125_european (mean vol : TimeParam) (hm : TimeParamOk mean) (hv : TimeParamOk vol) (times : List ℝ) (hs : times.Pairwise (· ≤ ·)) (h0 : ∀ t ∈ times, 0 ≤ t)
    (x0 : ℝ) (hx : 0 < x0) (j : ℕ) (hj : j < times.length) (P : ℕ → (ℕ → Fin times.length → ℝ) → Prop) (hP : Equidistributed times.length P)
    (hA : AwayFromBoundary times.length P) (strike discountFactor : ℝ) (hK : 0 < strike) (hdf : 0 < discountFactor) (isCall : Bool) (hT : 0 < times.getD j 0) :
    let T := times.getD j 0
    ∃ v, optionPrice { volatility := Real.sqrt ((∫ t in (0 : ℝ)..T, vol.eval t ^ 2) / T), strike := strike, expiry := T, forward := some (x0 * Real.exp (∫ t in (0 : ℝ)..T, mean.eval t)), discountFactor := some discountFactor, isCall := some isCall } = .ok v ∧
      AverageLimit times.length P (fun u => discountFactor *
        vanillaPayoff isCall strike ((gbmPath mean vol x0 times (List.ofFn fun c => erfinv ((u c - 0.5) * 2) * Real.sqrt 2)).getD j 0)) v := by
  intro T
  have hF : 0 < x0 * Real.exp (∫ t in (0 : ℝ)..T, mean.eval t) := mul_pos hx (Real.exp_pos _)
  have hV : 0 ≤ ∫ t in (0 : ℝ)..T, vol.eval t ^ 2 := intervalIntegral.integral_nonneg hT.le fun t _ => sq_nonneg _
  refine ⟨_, C31_expectation _ ⟨by simp, by simp, Real.sqrt_nonneg _, hT.le, by simp [hdf]⟩ (fun _ => ⟨hF, hK⟩), ?_⟩
  have hcont : Continuous (vanillaPayoff isCall strike) := by
    unfold vanillaPayoff
    cases isCall
    · simp only [Bool.false_eq_true, if_false]; fun_prop
    · simp only [if_true]; fun_prop
  have hlim := C125_gbm mean vol hm hv times hs h0 x0 hx j hj P hP hA (vanillaPayoff isCall strike) hcont (1 + strike) (by linarith) 1 (fun s hs => by
    rw [abs_of_nonneg (vanillaPayoff_nonneg _ _ _), pow_one]
    unfold vanillaPayoff
    have hpos : 0 ≤ (1 + strike) * (1 + s) := by positivity
    split <;> refine max_le ?_ ?_ <;> nlinarith)
  simp only [discount, expectation, forward, stdDev, Bool.false_eq_true, if_false, Option.getD_some]
  rw [← Real.sqrt_mul (div_nonneg hV hT.le), div_mul_cancel₀ _ hT.ne']
  intro ε hε
  obtain ⟨N0, hN0⟩ := hlim (ε / discountFactor) (by positivity)
  refine ⟨N0, fun N hN x hx => ?_⟩
  have := hN0 N hN x hx
  rw [← Finset.mul_sum, mul_div_assoc, ← mul_sub, abs_mul, abs_of_pos hdf]
  rw [le_div_iff₀ hdf] at this
  linarith

/-- C125: with constant parameters the limit is the price that `option_price` returns for the spot, the rates and the volatility. -/
theorem C125_black_scholes (rate dividend volatility expiry : ℝ) (hT : 0 < expiry) (hvol : 0 ≤ volatility) (spot strike : ℝ) (hx : 0 < spot) (hK : 0 < strike) (isCall : Bool)
    (P : ℕ → (ℕ → Fin 1 → ℝ) → Prop) (hP : Equidistributed 1 P) (hA : AwayFromBoundary 1 P) :
    ∃ v, optionPrice { volatility := volatility, strike := strike, expiry := expiry, spot := some spot, discountRate := some rate, dividendRate := some dividend, isCall := some isCall } = .ok v ∧
      AverageLimit 1 P (fun u => Real.exp (-(rate * expiry)) * vanillaPayoff isCall strike ((gbmPath (.constant (rate - dividend)) (.constant volatility) spot [expiry]
        (List.ofFn fun c => erfinv ((u c - 0.5) * 2) * Real.sqrt 2)).getD 0 0)) v := by
  obtain ⟨v, hv, hlim⟩ := C125_european (.constant (rate - dividend)) (.constant volatility) trivial trivial [expiry] (by simp) (by simpa using hT.le) spot hx 0 (by simp)
    P hP hA strike (Real.exp (-(rate * expiry))) hK (Real.exp_pos _) isCall (by simpa using hT)
  refine ⟨v, ?_, hlim⟩
  rw [← hv, C31_expectation _ ⟨by simp, by simp, hvol, hT.le, by simp⟩ (fun _ => ⟨?_, hK⟩), C31_expectation _ ⟨by simp, by simp, Real.sqrt_nonneg _, by simpa using hT.le, by simp [Real.exp_pos]⟩ (fun _ => ⟨?_, hK⟩)]
  · have e1 : spot * Real.exp (-(dividend * expiry)) / Real.exp (-(rate * expiry)) = spot * Real.exp ((rate - dividend) * expiry) := by
      rw [mul_div_assoc, ← Real.exp_sub]
      congr 2
      ring
    have e2 : Real.sqrt (volatility ^ 2 * expiry / expiry) = volatility := by
      rw [mul_div_cancel_right₀ _ hT.ne', Real.sqrt_sq hvol]
    simp only [discount, expectation, forward, stdDev, Bool.false_eq_true, if_false, Option.getD_some, TimeParam.eval, intervalIntegral.integral_const,
      List.getD_cons_zero, sub_zero, smul_eq_mul]
    rw [e1, mul_comm expiry (volatility ^ 2), e2, mul_comm expiry (rate - dividend)]
  · simp only [forward]
    positivity
  · simp only [forward, discount, Option.getD_some]
    positivity

/-- C125: a run of the Halton sequence that includes the first point of a randomization may touch the boundary: with the shuffle that exchanges the digits 0 and 1 and no
correction the first point is zero, for which there is no normal quantile. -/
theorem C125_randomized_deviates : ∃ (sizes : List Nat) (r : Option (List Nat × List ℝ)), HaltonBases [2] sizes ∧ HaltonRandomization [2] sizes r ∧
    ((haltonSample [2] sizes 0 (some ((List.range 1).map (0 + ·))) r).getD 0 []).getD 0 0 = 0 := by
  have hB : HaltonBases [2] [1] := by
    refine ⟨rfl, fun c hc => ?_, fun c c' hc hc' hne => ?_⟩
    · have h1 : c < 1 := hc
      interval_cases c
      decide
    · have h1 : c < 1 := hc
      have h2 : c' < 1 := hc'
      omega
  refine ⟨[1], some (haltonPermutations 1 [2] (fun _ _ => [1, 0]), haltonZeroCorrection [2] [1] [0]), hB, Or.inr ⟨1, fun _ _ => [1, 0], [0], by simp, ?_, ?_, rfl⟩, ?_⟩
  · intro i c hc
    have h1 : c < 1 := hc
    interval_cases c
    exact List.Perm.swap 0 1 []
  · intro c hc
    have h1 : c < 1 := hc
    interval_cases c
    simp
  · simp [haltonSample, haltonIndices, haltonValue, haltonPermutations, haltonPermuted, haltonCoeff, haltonWeight, haltonZeroCorrection]

/-- The first thirty-one coordinates of the data file, and the Halton sequence in the bases 2, 3 and 5, satisfy the hypotheses. -/
example : Equidistributed 31 (fun N x => ∃ skip, skip ≤ 1 * N ∧ SobolRun (loadSobolTable joeKuoLines) 31 skip N x) ∧
    AwayFromBoundary 31 (fun N x => ∃ skip, skip ≤ 1 * N ∧ SobolRun (loadSobolTable joeKuoLines) 31 skip N x) ∧
    Equidistributed 3 (fun N x => ∃ skip, skip ≤ 1 * N ∧ HaltonRun [2, 3, 5] true skip N x) ∧
    AwayFromBoundary 3 (fun N x => ∃ skip, skip ≤ 1 * N ∧ HaltonRun [2, 3, 5] true skip N x) := by
  have hT := (C120_load joeKuoLines joeKuo_valid).1
  refine ⟨equidistributed_mono (C125_sobol _ hT 31 (by omega) (by decide +kernel) C120_first_coordinates) fun N x ⟨skip, _, h⟩ => ⟨skip, h⟩,
    C125_sobol_boundary _ hT 31 (by decide +kernel) 1,
    equidistributed_mono (C125_halton [2, 3, 5] true) fun N x ⟨skip, _, h⟩ => ⟨skip, h⟩, C125_halton_boundary [2, 3, 5] 1⟩

/-- There are such runs: the first `N` points, with `N + 1` digits in each base. -/
example (N : ℕ) : ∃ x, HaltonRun [2, 3, 5] true 0 N x := by
  refine ⟨_, [N + 1, N + 1, N + 1], none, ⟨rfl, ?_, ?_⟩, ?_, Or.inl rfl, fun _ => rfl, fun n _ c => rfl⟩
  · intro c hc
    have h1 : c < 3 := hc
    interval_cases c <;> decide
  · intro c c' hc hc' hne
    have h1 : c < 3 := hc
    have h2 : c' < 3 := hc'
    interval_cases c <;> interval_cases c' <;> first | exact absurd rfl hne | decide
  · intro c hc
    have h1 : c < 3 := hc
    have h2 : N < 2 ^ (N + 1) := lt_trans N.lt_succ_self (Nat.lt_two_pow_self)
    rw [Nat.zero_add]
    interval_cases c
    · exact h2
    · exact lt_of_lt_of_le h2 (Nat.pow_le_pow_left (by decide) _)
    · exact lt_of_lt_of_le h2 (Nat.pow_le_pow_left (by decide) _)

end Props
