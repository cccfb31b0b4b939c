import Verif.Lemmas.AndersenLake
import Verif.Props.Grids
import Mathlib.Analysis.Complex.ExponentialBounds

/-! # C99 American options by the method of Andersen and Lake -/

namespace Props
open Model Spec Lemmas MeasureTheory

/-- C99. The piecewise normal distribution function is the normal distribution function. -/
theorem C99_normal_cdf (a : ℝ) : standardNormalCdf a = normalCdf a := standardNormalCdf_eq a

/-- C99, deviation: the function accepts only double precision, since the branches of its selection have different types otherwise. -/
theorem C99_types (t : AmFloat) : (∃ u, standardNormalCdfType t = .ok u) ↔ t = .float64 := by
  cases t <;> simp [standardNormalCdfType, whereType, bind, Except.bind]

/-- C99. Without the machine epsilon, `d_plus` and `d_minus` are the quantities of the Black-Scholes formula, and the integrands of
the boundary and of the premium are those of the paper. -/
theorem C99_integrands (τ s k r q σ u : ℝ) (B : ℝ → ℝ) (hσ : 0 < σ) (hu : u ≤ τ) (hs : 0 < s) (hBτ : 0 < B τ) (hBu : 0 < B u) :
    dPlus 0 τ s r q σ = amD1 τ s r q σ ∧ (0 ≤ τ → dMinus 0 τ s r q σ = amD2 τ s r q σ) ∧
      numeratorFunc 0 τ B r q σ u = Real.exp (r * u) * normalCdf (amD2 (τ - u) (B τ / B u) r q σ) ∧
      denominatorFunc 0 τ B r q σ u = Real.exp (q * u) * normalCdf (amD1 (τ - u) (B τ / B u) r q σ) ∧
      premiumFunc1 0 τ s k r q σ B u = r * k * Real.exp (-r * (τ - u)) * normalCdf (-amD2 (τ - u) (s / B u) r q σ) ∧
      premiumFunc2 0 τ s r q σ B u = q * s * Real.exp (-q * (τ - u)) * normalCdf (-amD1 (τ - u) (s / B u) r q σ) := by
  unfold numeratorFunc denominatorFunc premiumFunc1 premiumFunc2
  simp only [standardNormalCdf_eq, add_zero]
  rw [dPlus_zero _ s _ _ _ hs, dMinus_zero (τ - u) _ _ _ _ (by positivity) hσ (by linarith), dPlus_zero _ (B τ / B u) _ _ _ (by positivity),
    dMinus_zero (τ - u) (s / B u) _ _ _ (by positivity) hσ (by linarith), dPlus_zero _ (s / B u) _ _ _ (by positivity)]
  exact ⟨rfl, fun h => dMinus_zero _ _ _ _ _ hs hσ h, rfl, rfl, rfl, rfl⟩

/-- C99. Without the machine epsilon, the computed numerator and denominator differ from those of the fixed point equation by the rate times the error of the integration rule. -/
theorem C99_quotient (τ k r q σ x : ℝ) (B : ℝ → ℝ) (n : Nat) (hσ : 0 < σ) (hk : 0 < k) (hτ : 0 ≤ τ) (hB : ∀ u, 0 < B u) :
    (boundaryNumerator 0 τ B k r q σ n = .ok x → ∃ v, gaussLegendre (numeratorFunc 0 τ B r q σ) 0 τ n = some v ∧
      x - boundaryN k r q σ τ B = r * (v - ∫ u in (0 : ℝ)..τ, numeratorFunc 0 τ B r q σ u)) ∧
    (boundaryDenominator 0 τ B k r q σ n = .ok x → ∃ v, gaussLegendre (denominatorFunc 0 τ B r q σ) 0 τ n = some v ∧
      x - boundaryD k r q σ τ B = q * (v - ∫ u in (0 : ℝ)..τ, denominatorFunc 0 τ B r q σ u)) := by
  have hi : ∀ u ∈ Set.uIcc 0 τ, numeratorFunc 0 τ B r q σ u = Real.exp (r * u) * normalCdf (amD2 (τ - u) (B τ / B u) r q σ) ∧
      denominatorFunc 0 τ B r q σ u = Real.exp (q * u) * normalCdf (amD1 (τ - u) (B τ / B u) r q σ) := by
    intro u hu
    rw [Set.uIcc_of_le hτ] at hu
    obtain ⟨-, -, h1, h2, -, -⟩ := C99_integrands τ 1 k r q σ u B hσ hu.2 one_pos (hB τ) (hB u)
    exact ⟨h1, h2⟩
  have hp : 0 < B τ / k := div_pos (hB τ) hk
  constructor
  · intro h
    unfold boundaryNumerator at h
    cases hv : gaussLegendre (numeratorFunc 0 τ B r q σ) 0 τ n with
    | none => simp [hv, ofRule, bind, Except.bind] at h
    | some v =>
      simp only [hv, ofRule, bind, Except.bind, pure, Except.pure, Except.ok.injEq, standardNormalCdf_eq, dMinus_zero τ _ r q σ hp hσ hτ] at h
      refine ⟨v, rfl, ?_⟩
      unfold boundaryN
      rw [← h, intervalIntegral.integral_congr fun u hu => (hi u hu).1]
      ring
  · intro h
    unfold boundaryDenominator at h
    cases hv : gaussLegendre (denominatorFunc 0 τ B r q σ) 0 τ n with
    | none => simp [hv, ofRule, bind, Except.bind] at h
    | some v =>
      simp only [hv, ofRule, bind, Except.bind, pure, Except.pure, Except.ok.injEq, standardNormalCdf_eq, dPlus_zero τ _ r q σ hp] at h
      refine ⟨v, rfl, ?_⟩
      unfold boundaryD
      rw [← h, intervalIntegral.integral_congr fun u hu => (hi u hu).2]
      ring

/-- C99. The boundary is computed with the given rates, except that both are `0.1` where both vanish. -/
theorem C99_rates (eps r q : ℝ) : (|r| < eps ∧ |q| < eps → boundaryRates eps r q = (0.1, 0.1)) ∧ (¬(|r| < eps ∧ |q| < eps) → boundaryRates eps r q = (r, q)) := by
  unfold boundaryRates
  by_cases h1 : |r| < eps <;> by_cases h2 : |q| < eps <;> simp [h1, h2]

/-- C99. The fixed point equation of the boundary is value matching: at the boundary the price is the payoff. -/
theorem C99_value_matching (k r q σ τ : ℝ) (B : ℝ → ℝ) (hB : Measurable B) (hD : 0 < boundaryD k r q σ τ B) :
    valueMatching k r q σ B τ ↔ B τ = k * Real.exp (-(r - q) * τ) * boundaryN k r q σ τ B / boundaryD k r q σ τ B := by
  have h := kim_defect k r q σ τ B hB
  have e : Real.exp (-(r - q) * τ) = Real.exp (-r * τ) / Real.exp (-q * τ) := by
    rw [← Real.exp_sub]; congr 1; ring
  have p := Real.exp_pos (-q * τ)
  unfold valueMatching
  rw [eq_div_iff hD.ne', e]
  generalize Real.exp (-q * τ) = E at *
  generalize Real.exp (-r * τ) = F at *
  constructor
  · intro hv
    rw [← hv, sub_self] at h
    field_simp
    linarith
  · intro hv
    field_simp at hv
    have : k - B τ - kimPut (B τ) k r q σ τ B = 0 := by rw [h]; linarith
    linarith

/-- C99. The denominator is positive if the dividend rate is not negative. -/
theorem C99_denominator_positive (k r q σ τ : ℝ) (B : ℝ → ℝ) (hq : 0 ≤ q) (hτ : 0 ≤ τ) : 0 < boundaryD k r q σ τ B := by
  unfold boundaryD
  have h1 := normalCdf_pos (amD1 τ (B τ / k) r q σ)
  have h2 : 0 ≤ ∫ u in (0 : ℝ)..τ, Real.exp (q * u) * normalCdf (amD1 (τ - u) (B τ / B u) r q σ) :=
    intervalIntegral.integral_nonneg hτ fun u _ => mul_nonneg (Real.exp_pos _).le (normalCdf_pos _).le
  have := mul_nonneg hq h2
  linarith

/-- C99. An approximate fixed point of the computed equation matches the value approximately. `N` and `D` are the computed numerator
and denominator. -/
theorem C99_defect (k r q σ τ eps tol N D new eN eD : ℝ) (B : ℝ → ℝ) (hB : Measurable B) (hk : 0 ≤ k) (hBτ : 0 ≤ B τ) (heps : 0 ≤ eps)
    (hN : |boundaryN k r q σ τ B - N| ≤ eN) (hDe : |boundaryD k r q σ τ B - D| ≤ eD) (hD : 0 ≤ D) (hpos : 0 < D + eps)
    (hnew : divideWithPositiveDenominator eps (k * Real.exp (-(r - q) * τ) * N) D = .ok new) (hconv : |new - B τ| ≤ tol * (|new| + eps)) :
    |k - B τ - kimPut (B τ) k r q σ τ B| ≤
      k * Real.exp (-r * τ) * eN + Real.exp (-q * τ) * (B τ * eD + D * (tol * (|new| + eps)) + eps * |new|) := by
  have h := kim_defect k r q σ τ B hB
  have e : Real.exp (-(r - q) * τ) = Real.exp (-r * τ) / Real.exp (-q * τ) := by
    rw [← Real.exp_sub]; congr 1; ring
  have p := Real.exp_pos (-q * τ)
  have p' := Real.exp_pos (-r * τ)
  unfold divideWithPositiveDenominator at hnew
  rw [if_pos hD] at hnew
  simp only [Except.ok.injEq] at hnew
  rw [div_eq_iff hpos.ne', e] at hnew
  have hnew' : k * Real.exp (-r * τ) * N = Real.exp (-q * τ) * (new * (D + eps)) := by
    rw [← hnew]
    field_simp
  have split : k - B τ - kimPut (B τ) k r q σ τ B = k * Real.exp (-r * τ) * (boundaryN k r q σ τ B - N) +
      Real.exp (-q * τ) * (-(B τ * (boundaryD k r q σ τ B - D)) + D * (new - B τ) + eps * new) := by
    rw [h]
    linear_combination hnew'
  rw [split]
  have t1 : |k * Real.exp (-r * τ) * (boundaryN k r q σ τ B - N)| ≤ k * Real.exp (-r * τ) * eN := by
    rw [abs_mul, abs_of_nonneg (by positivity)]
    gcongr
  have t2 : |Real.exp (-q * τ) * (-(B τ * (boundaryD k r q σ τ B - D)) + D * (new - B τ) + eps * new)| ≤
      Real.exp (-q * τ) * (B τ * eD + D * (tol * (|new| + eps)) + eps * |new|) := by
    rw [abs_mul, abs_of_pos p]
    gcongr
    refine (abs_add_le _ _).trans (add_le_add ((abs_add_le _ _).trans (add_le_add ?_ ?_)) ?_)
    · rw [abs_neg, abs_mul, abs_of_nonneg hBτ]
      gcongr
    · rw [abs_mul, abs_of_nonneg hD]
      gcongr
    · rw [abs_mul, abs_of_nonneg heps]
  exact (abs_add_le _ _).trans (add_le_add t1 t2)

/-- C99. If the loop reports convergence, its result is one iteration of points that differ from it by at most the relative tolerance. -/
theorem C99_converged (eps tol : ℝ) (heps : 0 < eps) (grid : List ℝ) (k r q sigma : ℝ) (n iterations : Nat) (start pts : List ℝ)
    (hstart : start.length = grid.length)
    (h : boundaryLoop eps tol grid k r q sigma n iterations start = .ok (true, pts)) :
    ∃ prev, boundaryIterate eps grid k r q sigma n prev = .ok pts ∧ prev.length = grid.length ∧
      ∀ (i : Nat) (x y : ℝ), pts[i]? = some x → prev[i]? = some y → |x - y| ≤ tol * (|x| + eps) := by
  induction iterations generalizing start with
  | zero => simp [boundaryLoop] at h
  | succ m ih =>
    simp only [boundaryLoop, bind, Except.bind] at h
    split at h
    · simp at h
    · rename_i new hnew
      split at h
      · rename_i hc
        simp only [pure, Except.pure, Except.ok.injEq, Prod.mk.injEq, true_and] at h
        subst h
        refine ⟨start, hnew, hstart, ?_⟩
        intro i x y hx hy
        unfold boundaryConverged at hc
        rw [List.all_eq_true] at hc
        have := hc (decide (|x - y| / (|x| + eps) ≤ tol)) (by
          apply List.mem_of_getElem? (i := i)
          rw [List.getElem?_zipWith, hx, hy])
        simp only [id, decide_eq_true_eq] at this
        have hx0 := abs_nonneg x
        rwa [div_le_iff₀ (by linarith)] at this
      · apply ih new _ h
        unfold boundaryIterate at hnew
        simp only [bind, Except.bind] at hnew
        split at hnew
        · simp at hnew
        · exact (mapM_except_ok _ _ _ hnew).1

/-- C99. The starting value is the limit of the boundary at maturity if the dividend rate is at least the machine epsilon, or zero. -/
theorem C99_initial (eps k r q : ℝ) (hk : 0 ≤ k) (h : (0 < eps ∧ eps ≤ q) ∨ (0 < eps ∧ q = 0)) :
    initialBoundary eps k r q = boundaryAtMaturity k r q := by
  unfold initialBoundary boundaryAtMaturity
  rcases h with ⟨h0, h⟩ | ⟨h0, rfl⟩
  · rw [abs_of_pos (by linarith), if_neg (by linarith), if_neg (by linarith), mul_min_of_nonneg _ _ hk, mul_one, mul_div_assoc]
  · rw [abs_zero, if_pos h0, if_pos le_rfl, mul_one]

/-- C99, deviation: for a negative dividend rate the starting value is negative, though the limit of the boundary is the strike. -/
theorem C99_initial_deviates (eps k r q : ℝ) (hk : 0 < k) (hr : 0 < r) (hq : q < 0) (he : eps ≤ -q) :
    initialBoundary eps k r q < 0 ∧ boundaryAtMaturity k r q = k := by
  unfold initialBoundary boundaryAtMaturity
  rw [abs_of_neg hq, if_neg (by linarith), if_pos hq.le]
  have := div_neg_of_pos_of_neg hr hq
  exact ⟨mul_neg_of_pos_of_neg hk (lt_of_le_of_lt (min_le_right _ _) this), rfl⟩

/-- C99. The times to maturity of the boundary are the `n` multiples of `tau / n`. -/
theorem C99_grid (tau : ℝ) (n i : Nat) (hi : i < n) (hn : 2 ≤ n) : (andersenTauGrid tau n)[i]? = some (tau * (i + 1) / n) := by
  unfold andersenTauGrid
  rw [linspace_get _ _ _ _ hi]
  congr 1
  obtain ⟨m, rfl⟩ : ∃ m, n = m + 2 := ⟨n - 2, by omega⟩
  rw [show max (m + 2 - 1) 1 = m + 1 by omega]
  push_cast
  have h1 : (m : ℝ) + 1 ≠ 0 := by positivity
  have h2 : (m : ℝ) + 2 ≠ 0 := by positivity
  field_simp
  ring

theorem grid_increasing (tau : ℝ) (n : Nat) (hn : 2 ≤ n) (ht : 0 < tau) :
    (andersenTauGrid tau n).length = n ∧ (andersenTauGrid tau n).Pairwise (· < ·) ∧ ∀ t ∈ andersenTauGrid tau n, 0 < t := by
  have hlen : (andersenTauGrid tau n).length = n := by unfold andersenTauGrid; exact linspace_length _ _ _
  have hn' : (0 : ℝ) < n := by exact_mod_cast (by omega : 0 < n)
  refine ⟨hlen, ?_, ?_⟩
  · rw [List.pairwise_iff_getElem]
    intro i j hi hj hij
    have e1 := C99_grid tau n i (by omega) hn
    have e2 := C99_grid tau n j (by omega) hn
    rw [List.getElem?_eq_getElem (by omega), Option.some.injEq] at e1 e2
    rw [e1, e2]
    have : (i : ℝ) < j := by exact_mod_cast hij
    gcongr
  · intro t ht'
    obtain ⟨i, hi, rfl⟩ := List.mem_iff_getElem.1 ht'
    have e1 := C99_grid tau n i (by omega) hn
    rw [List.getElem?_eq_getElem (by omega), Option.some.injEq] at e1
    rw [e1]
    positivity

theorem spline_boundary_total (eps : ℝ) (grid pts : List ℝ) (hn : 2 ≤ grid.length) (hp : pts.length = grid.length)
    (hs : grid.Pairwise (· < ·)) : ∃ b, splineBoundary eps grid pts = .ok b ∧ ∀ t, eps ≤ b t := by
  obtain ⟨m, hx⟩ : ∃ m, grid.length = m + 2 := ⟨grid.length - 2, by omega⟩
  obtain ⟨c, hc, _⟩ := spline_natural grid pts m hx (by omega) (gap_pos grid m hx hs) 0 0
  have hc' : splineBuild grid pts none none none = some c := hc
  refine ⟨_, by unfold splineBoundary; rw [hc'], fun t => le_max_right _ _⟩

/-- C99. For rates that are not negative the boundary can be computed, and it is at least the machine epsilon. -/
theorem C99_boundary_total (eps tol : ℝ) (heps : 0 < eps) (grid : List ℝ) (k r q sigma : ℝ) (n iterations : Nat) (hk : 0 ≤ k) (hr : 0 ≤ r)
    (hq : 0 ≤ q) (hg : 2 ≤ grid.length) (hs : grid.Pairwise (· < ·)) (hpos : ∀ t ∈ grid, 0 ≤ t) (hn : (legendreRoots n).isSome) :
    (∃ b, exerciseBoundary eps tol grid k r q sigma iterations n = .ok b ∧ ∀ t, eps ≤ b t) ∧
      ∀ pts, pts.length = grid.length → ∃ new, boundaryIterate eps grid k r q sigma n pts = .ok new ∧ new.length = grid.length ∧ ∀ x ∈ new, 0 ≤ x := by
  have hiter : ∀ pts, pts.length = grid.length → ∃ new, boundaryIterate eps grid k r q sigma n pts = .ok new ∧ new.length = grid.length ∧
      ∀ x ∈ new, 0 ≤ x := by
    intro pts hp
    obtain ⟨b, hb, _⟩ := spline_boundary_total eps grid pts hg hp hs
    have hf : ∀ t ∈ grid, ∃ x, (do
        let numerator ← boundaryNumerator eps t b k r q sigma n
        let denominator ← boundaryDenominator eps t b k r q sigma n
        divideWithPositiveDenominator eps (k * Real.exp (-(r - q) * t) * numerator) denominator) = Except.ok x ∧ 0 ≤ x := by
      intro t ht
      have ht := hpos t ht
      obtain ⟨v1, h1, p1⟩ := gaussLegendre_nonneg (numeratorFunc eps t b r q sigma) 0 t ht n hn (fun u => by
        unfold numeratorFunc
        rw [standardNormalCdf_eq]
        exact mul_nonneg (Real.exp_pos _).le (normalCdf_pos _).le)
      obtain ⟨v2, h2, p2⟩ := gaussLegendre_nonneg (denominatorFunc eps t b r q sigma) 0 t ht n hn (fun u => by
        unfold denominatorFunc
        rw [standardNormalCdf_eq]
        exact mul_nonneg (Real.exp_pos _).le (normalCdf_pos _).le)
      have q1 := normalCdf_pos (dMinus eps t (b t / k) r q sigma)
      have q2 := normalCdf_pos (dPlus eps t (b t / k) r q sigma)
      unfold boundaryNumerator boundaryDenominator divideWithPositiveDenominator
      rw [h1, h2]
      simp only [ofRule, bind, Except.bind, pure, Except.pure, standardNormalCdf_eq]
      rw [if_pos (by positivity)]
      exact ⟨_, rfl, by positivity⟩
    obtain ⟨new, hnew⟩ := mapM_except_total _ _ (fun t ht => (hf t ht).imp fun _ h => h.1)
    have hnew' : boundaryIterate eps grid k r q sigma n pts = .ok new := by
      unfold boundaryIterate
      rw [hb]
      exact hnew
    obtain ⟨hl, hval⟩ := mapM_except_ok _ _ _ hnew
    refine ⟨new, hnew', hl, ?_⟩
    intro x hx
    obtain ⟨i, hi, rfl⟩ := List.mem_iff_getElem.1 hx
    have e := hval i grid[i] new[i] (List.getElem?_eq_getElem (by omega)) (List.getElem?_eq_getElem hi)
    obtain ⟨y, hy, hy0⟩ := hf grid[i] (List.getElem_mem _)
    rw [hy] at e
    simp only [Except.ok.injEq] at e
    rwa [← e]
  refine ⟨?_, hiter⟩
  have hloop : ∀ (m : Nat) (pts : List ℝ), pts.length = grid.length →
      ∃ f new, boundaryLoop eps tol grid k r q sigma n m pts = .ok (f, new) ∧ new.length = grid.length := by
    intro m
    induction m with
    | zero => exact fun pts hp => ⟨false, pts, rfl, hp⟩
    | succ m ih =>
      intro pts hp
      obtain ⟨new, hnew, hl, _⟩ := hiter pts hp
      simp only [boundaryLoop, bind, Except.bind, hnew]
      split
      · exact ⟨true, new, rfl, hl⟩
      · exact ih new hl
  obtain ⟨f, new, hnew, hl⟩ := hloop iterations (grid.map fun _ => initialBoundary eps k r q) (by simp)
  obtain ⟨b, hb, hb'⟩ := spline_boundary_total eps grid new hg hl hs
  refine ⟨b, ?_, hb'⟩
  unfold exerciseBoundary
  simp only [bind, Except.bind, hnew, hb]

theorem boundaryRates_nonneg (eps r q : ℝ) (hr : 0 ≤ r) (hq : 0 ≤ q) : 0 ≤ (boundaryRates eps r q).1 ∧ 0 ≤ (boundaryRates eps r q).2 := by
  unfold boundaryRates
  dsimp only
  constructor <;> split_ifs <;> first | assumption | norm_num

/-- C99. For rates that are not negative a price is computed. -/
theorem C99_total (c : AmSettings) (heps : 0 < c.eps) (sigma k tau s r q : ℝ) (isCall : Bool) (hk : 0 ≤ k) (hs : 0 ≤ s) (hr : 0 ≤ r) (hq : 0 ≤ q)
    (htau : 0 < tau) (hgrid : 2 ≤ c.gridNumPoints) (hl : (legendreRoots c.legendrePoints).isSome) (hkr : (stieltjesRoots c.kronrodPoints).isSome) :
    ∃ v, andersenLakeCore c sigma k tau s r q isCall = .ok v := by
  have he : ∃ e, optionPrice { volatility := sigma, strike := k, expiry := tau, spot := some s, discountRate := some r, dividendRate := some q, isCall := some isCall } = .ok e := by
    unfold optionPrice bsCheck
    exact ⟨_, rfl⟩
  obtain ⟨e, he⟩ := he
  obtain ⟨g1, g2, g3⟩ := grid_increasing tau c.gridNumPoints hgrid htau
  have hrates := boundaryRates_nonneg c.eps (if isCall then q else r) (if isCall then r else q) (by split <;> assumption) (by split <;> assumption)
  obtain ⟨⟨b, hb, _⟩, _⟩ := C99_boundary_total c.eps c.toleranceBoundary heps (andersenTauGrid tau c.gridNumPoints) (if isCall then s else k) _ _ sigma
    c.legendrePoints c.maxIterations (by split <;> assumption) hrates.1 hrates.2 (by rw [g1]; exact hgrid) g2 (fun t ht => (g3 t ht).le) hl
  obtain ⟨pair1, hp1, _⟩ := kronrodPair_some (premiumFunc1 c.eps tau (if isCall then k else s) (if isCall then s else k) (if isCall then q else r)
        (if isCall then r else q) sigma b) c.kronrodPoints hkr
  obtain ⟨pair2, hp2, _⟩ := kronrodPair_some (premiumFunc2 c.eps tau (if isCall then k else s) (if isCall then q else r)
        (if isCall then r else q) sigma b) c.kronrodPoints hkr
  refine ⟨_, (core_ok _ _ _ _ _ _ _ _ _).2 ⟨e, b, _, _, he, hb, by unfold gaussKronrod; rw [hp1]; rfl, by unfold gaussKronrod; rw [hp2]; rfl, rfl⟩⟩

/-- C99. The arguments are rejected exactly when both or neither of spot and forward, or both rate and factor are given; a forward, a
discount factor and missing rates are replaced by the spot and rates they stand for. -/
theorem C99_arguments (c : AmSettings) (a : BsArgs) :
    ((a.spot.isSome = a.forward.isSome ∨ (a.discountRate.isSome = true ∧ a.discountFactor.isSome = true)) → ∃ m, andersenLake c a = .error m) ∧
    (∀ s, a.spot = some s → a.forward = none → a.discountFactor = none → andersenLake c a =
      andersenLakeCore c a.volatility a.strike a.expiry s (a.discountRate.getD 0) (a.dividendRate.getD 0) (a.isCall.getD true)) ∧
    (∀ df s, a.spot = some s → a.forward = none → a.discountRate = none → a.discountFactor = some df → 0 < df → a.expiry ≠ 0 →
      ∃ r, Real.exp (-r * a.expiry) = df ∧ andersenLake c a = andersenLakeCore c a.volatility a.strike a.expiry s r (a.dividendRate.getD 0) (a.isCall.getD true)) ∧
    (∀ f r, a.spot = none → a.forward = some f → a.discountRate = some r → a.discountFactor = none →
      ∃ s, s * Real.exp ((r - a.dividendRate.getD 0) * a.expiry) = f ∧
        andersenLake c a = andersenLakeCore c a.volatility a.strike a.expiry s r (a.dividendRate.getD 0) (a.isCall.getD true)) := by
  unfold andersenLake bsCheck
  refine ⟨?_, ?_, ?_, ?_⟩
  · rcases a.spot with _ | s <;> rcases a.forward with _ | f <;> rcases a.discountRate with _ | r <;>
      rcases a.discountFactor with _ | df <;> simp [bind, Except.bind]
  · intro s h1 h2 h3
    rw [h1, h2, h3]
    rcases a.discountRate with _ | r <;> simp [bind, Except.bind]
  · intro df s h1 h2 h3 h4 h5 h6
    rw [h1, h2, h3, h4]
    refine ⟨-Real.log df / a.expiry, ?_, by simp [bind, Except.bind]⟩
    rw [show -(-Real.log df / a.expiry) * a.expiry = Real.log df by field_simp, Real.exp_log h5]
  · intro f r h1 h2 h3 h4
    rw [h1, h2, h3, h4]
    refine ⟨f * Real.exp (-(r - a.dividendRate.getD 0) * a.expiry), ?_, by simp [bind, Except.bind]⟩
    rw [mul_assoc, ← Real.exp_add]
    have : -(r - a.dividendRate.getD 0) * a.expiry + (r - a.dividendRate.getD 0) * a.expiry = 0 := by ring
    rw [this, Real.exp_zero, mul_one]

/-- C99. Symmetry of McDonald and Schroder: a call is worth as much as the put with spot and strike, and both rates, exchanged. -/
theorem C99_symmetry (c : AmSettings) (sigma k tau s r q : ℝ) (hs : 0 < s) (hk : 0 < k) :
    andersenLakeCore c sigma k tau s r q true = andersenLakeCore c sigma s tau k q r false := by
  unfold andersenLakeCore
  rw [european_symmetry sigma k tau s r q hs hk]
  rfl

/-- C99. Without rates, or at expiry, the price is that of the European option. -/
theorem C99_european (c : AmSettings) (sigma k tau s r q v : ℝ) (isCall : Bool) (hkr : (stieltjesRoots c.kronrodPoints).isSome)
    (h : tau = 0 ∨ (r = 0 ∧ q = 0)) (hv : andersenLakeCore c sigma k tau s r q isCall = .ok v) :
    optionPrice { volatility := sigma, strike := k, expiry := tau, spot := some s, discountRate := some r, dividendRate := some q, isCall := some isCall } = .ok v := by
  obtain ⟨e, b, t1, t2, he, _, h1, h2, rfl⟩ := (core_ok _ _ _ _ _ _ _ _ _).1 hv
  rw [gaussKronrod_zero _ _ _ _ _ _ hkr, Option.some.injEq] at h1 h2
  · rw [he, ← h1, ← h2, add_zero, sub_zero]
  · rcases h with rfl | ⟨rfl, rfl⟩
    · exact Or.inr rfl
    · left; intro x; unfold premiumFunc2; simp
  · rcases h with rfl | ⟨rfl, rfl⟩
    · exact Or.inr rfl
    · left; intro x; unfold premiumFunc1; simp

/-- C99. A put without dividends is worth at least the European put. -/
theorem C99_premium (c : AmSettings) (sigma k tau s r v : ℝ) (hkr : (stieltjesRoots c.kronrodPoints).isSome) (htau : 0 ≤ tau) (hr : 0 ≤ r) (hk : 0 ≤ k)
    (hv : andersenLakeCore c sigma k tau s r 0 false = .ok v) :
    ∃ e, optionPrice { volatility := sigma, strike := k, expiry := tau, spot := some s, discountRate := some r, dividendRate := some 0, isCall := some false } = .ok e ∧ e ≤ v := by
  obtain ⟨e, b, t1, t2, he, _, h1, h2, rfl⟩ := (core_ok _ _ _ _ _ _ _ _ _).1 hv
  refine ⟨e, he, ?_⟩
  simp only [Bool.false_eq_true, if_false] at h1 h2
  rw [gaussKronrod_zero _ _ _ _ _ _ hkr (Or.inl fun x => by unfold premiumFunc2; simp), Option.some.injEq] at h2
  obtain ⟨w, hw, hw0⟩ := gaussKronrod_nonneg (premiumFunc1 c.eps tau s k r 0 sigma b) 0 tau c.toleranceKronrod htau c.kronrodPoints c.maxDepth hkr (fun u => by
    unfold premiumFunc1
    rw [standardNormalCdf_eq]
    have := (normalCdf_pos (-dMinus c.eps (tau - u) (s / (b u + c.eps)) r 0 sigma)).le
    positivity)
  rw [hw, Option.some.injEq] at h1
  linarith

/-- C99, deviation: a call without dividends is worth as much as the European call, but the computed price is not larger, and it is
smaller if the integration rule accepts its first estimate. -/
theorem C99_call_deviates (c : AmSettings) (sigma k tau s r v : ℝ) (hkr : (stieltjesRoots c.kronrodPoints).isSome) (htau : 0 ≤ tau) (hr : 0 ≤ r) (hk : 0 ≤ k)
    (hv : andersenLakeCore c sigma k tau s r 0 true = .ok v) :
    ∃ e b, optionPrice { volatility := sigma, strike := k, expiry := tau, spot := some s, discountRate := some r, dividendRate := some 0, isCall := some true } = .ok e ∧
      gaussKronrod (premiumFunc2 c.eps tau k 0 r sigma b) 0 tau c.toleranceKronrod c.kronrodPoints c.maxDepth = some (e - v) ∧ v ≤ e ∧
      ∀ u, 0 < r → 0 < k → 0 < premiumFunc2 c.eps tau k 0 r sigma b u := by
  obtain ⟨e, b, t1, t2, he, _, h1, h2, rfl⟩ := (core_ok _ _ _ _ _ _ _ _ _).1 hv
  simp only [if_true] at h1 h2
  rw [gaussKronrod_zero _ _ _ _ _ _ hkr (Or.inl fun x => by unfold premiumFunc1; simp), Option.some.injEq] at h1
  obtain ⟨w, hw, hw0⟩ := gaussKronrod_nonneg (premiumFunc2 c.eps tau k 0 r sigma b) 0 tau c.toleranceKronrod htau c.kronrodPoints c.maxDepth hkr (fun u => by
    unfold premiumFunc2
    rw [standardNormalCdf_eq]
    have := (normalCdf_pos (-dPlus c.eps (tau - u) (k / (b u + c.eps)) 0 r sigma)).le
    positivity)
  refine ⟨e, b, he, ?_, ?_, ?_⟩
  · rw [h2, ← h1]; congr 1; ring
  · rw [hw, Option.some.injEq] at h2
    linarith
  · intro u hr hk
    unfold premiumFunc2
    rw [standardNormalCdf_eq]
    have := normalCdf_pos (-dPlus c.eps (tau - u) (k / (b u + c.eps)) 0 r sigma)
    positivity

/-- C99, deviation: for a negative dividend rate the first iteration starts from the constant boundary `eps`. If the denominator computed
from it is negative at a point of the grid, the function fails. -/
theorem C99_negative_dividend (eps tol : ℝ) (grid : List ℝ) (k r q sigma : ℝ) (n iterations : Nat) (hk : 0 < k) (hr : 0 < r) (hq : q < 0) (he : eps ≤ -q)
    (heps : 0 < eps) (hg : 2 ≤ grid.length) (hs : grid.Pairwise (· < ·)) (t d : ℝ) (ht : t ∈ grid)
    (hd : boundaryDenominator eps t (fun _ => eps) k r q sigma n = .ok d) (hneg : d < 0) :
    ∃ m, exerciseBoundary eps tol grid k r q sigma (iterations + 1) n = .error m := by
  obtain ⟨m, hx⟩ : ∃ m, grid.length = m + 2 := ⟨grid.length - 2, by omega⟩
  obtain ⟨c, hc, hconst⟩ := spline_constant grid m hx hs (initialBoundary eps k r q)
  have hinit := (C99_initial_deviates eps k r q hk hr hq he).1
  have hb : splineBoundary eps grid (grid.map fun _ => initialBoundary eps k r q) = .ok (fun _ => eps) := by
    unfold splineBoundary
    rw [hc]
    simp only [hconst]
    rw [max_eq_right (by linarith)]
  rcases hres : exerciseBoundary eps tol grid k r q sigma (iterations + 1) n with e | b
  · exact ⟨e, rfl⟩
  · exfalso
    unfold exerciseBoundary at hres
    simp only [boundaryLoop, boundaryIterate, hb, bind, Except.bind] at hres
    split at hres
    · simp at hres
    · rename_i v hv
      split at hv
      · simp at hv
      · rename_i new hnew
        obtain ⟨hl, hval⟩ := mapM_except_ok _ _ _ hnew
        obtain ⟨i, hi, rfl⟩ := List.mem_iff_getElem.1 ht
        have e := hval i grid[i] (new[i]'(by omega)) (List.getElem?_eq_getElem hi) (List.getElem?_eq_getElem (by omega))
        rw [hd] at e
        unfold divideWithPositiveDenominator at e
        simp only [if_neg (not_le.2 hneg)] at e
        split at e <;> simp at e

theorem normalCdf_ge_phi (x : ℝ) (hx : x ≤ 0) : phi (x - 1) ≤ normalCdf x := by
  have h := normalCdf_sub (x - 1) x
  have h0 := normalCdf_pos (x - 1)
  have h1 : ∫ _ in (x - 1)..x, phi (x - 1) ≤ ∫ t in (x - 1)..x, phi t := by
    apply intervalIntegral.integral_mono_on (by linarith) (by simp) (phi_continuous.intervalIntegrable _ _)
    intro t ht
    rw [phi_eq, phi_eq]
    have h1 := ht.1
    have h2 := ht.2
    exact mul_le_mul_of_nonneg_left (Real.exp_le_exp.2 (by nlinarith)) (by positivity)
  rw [intervalIntegral.integral_const, smul_eq_mul] at h1
  linarith

theorem quadrature_ge_head (f : ℝ → ℝ) (a b : ℝ) (hab : a ≤ b) (r0 w0 : ℝ) (rs ws : List ℝ) (hf : ∀ x, 0 ≤ f x) (hw : ∀ w ∈ ws, 0 ≤ w) :
    f (((b - a) * r0 + b + a) / 2) * (b - a) * w0 / 2 ≤ quadrature f a b (r0 :: rs) (w0 :: ws) := by
  have h := quadrature_nonneg f a b hab rs ws hf hw
  unfold quadrature at *
  rw [List.zipWith_cons_cons, List.sum_cons]
  linarith

/-- The default settings in double precision. -/
noncomputable def defaultAmSettings : AmSettings :=
  ⟨1 / 2 ^ 52, 10, 31, 32, 30, 30, 1e-8, 1e-8⟩

/-- C99, deviation: an ordinary put with dividend rate -2 % and the default settings cannot be priced: the assertion that the denominator is
not negative fails. -/
theorem C99_negative_dividend_fails (s : ℝ) :
    ∃ m, andersenLake defaultAmSettings { volatility := 1 / 5, strike := 100, expiry := 1, spot := some s, discountRate := some (1 / 20), dividendRate := some (-1 / 50), isCall := some false } = .error m := by
  have hcore := (C99_arguments defaultAmSettings { volatility := 1 / 5, strike := 100, expiry := 1, spot := some s, discountRate := some (1 / 20), dividendRate := some (-1 / 50), isCall := some false }).2.1 s rfl rfl rfl
  rw [hcore]
  have hrates : boundaryRates (1 / 2 ^ 52) (1 / 20) (-1 / 50) = (1 / 20, -1 / 50) := by
    unfold boundaryRates
    rw [abs_of_pos (by norm_num : (0 : ℝ) < 1 / 20), abs_of_neg (by norm_num : (-1 / 50 : ℝ) < 0), if_neg (by norm_num), if_neg (by norm_num)]
  obtain ⟨g1, g2, g3⟩ := grid_increasing 1 10 (by norm_num) one_pos
  have hf : ∀ u, 0 ≤ denominatorFunc (1 / 2 ^ 52) 1 (fun _ => 1 / 2 ^ 52) (1 / 20) (-1 / 50) (1 / 5) u := by
    intro u
    unfold denominatorFunc
    rw [standardNormalCdf_eq]
    exact mul_nonneg (Real.exp_pos _).le (normalCdf_pos _).le
  obtain ⟨I, hI, _⟩ := gaussLegendre_nonneg _ 0 1 zero_le_one 32 (by decide) hf
  have hlow : Real.exp (-30) ≤ 1 / 50 * I := by
    obtain ⟨rs, hr'⟩ : ∃ rs, legendreRoots 32 = some (-9972638618494815635449811 :: rs) := ⟨_, rfl⟩
    obtain ⟨ws, hw'⟩ : ∃ ws, legendreWeights 32 = some (70186100094700966004071 :: ws) := ⟨_, rfl⟩
    unfold gaussLegendre at hI
    rw [hr', hw'] at hI
    simp only [Option.bind_some, Option.map_some, Option.some.injEq, tableValues, List.map_cons] at hI
    have hpos := tableValues_nonneg 32 _ (Or.inl hw')
    unfold tableValues at hpos
    have hge := quadrature_ge_head _ 0 1 zero_le_one (((-9972638618494815635449811 : Int) : ℝ) / 10 ^ 25) (((70186100094700966004071 : Int) : ℝ) / 10 ^ 25)
      (rs.map fun (i : Int) => (i : ℝ) / 10 ^ 25) (ws.map fun (i : Int) => (i : ℝ) / 10 ^ 25) hf (fun w hw => hpos w (by
        rw [List.map_cons]
        exact List.mem_cons_of_mem _ hw))
    rw [hI] at hge
    have hu : ((1 - 0) * (((-9972638618494815635449811 : Int) : ℝ) / 10 ^ 25) + 1 + 0) / 2 ∈ Set.Icc (1 / 1000 : ℝ) (1 / 500) := by
      constructor <;> norm_num
    generalize ((1 - 0) * (((-9972638618494815635449811 : Int) : ℝ) / 10 ^ 25) + 1 + 0) / 2 = u at hge hu
    obtain ⟨hu0, hu1⟩ := hu
    have hval : 0.98 * (Real.exp (-11) / 3) ≤ denominatorFunc (1 / 2 ^ 52) 1 (fun _ => 1 / 2 ^ 52) (1 / 20) (-1 / 50) (1 / 5) u := by
      unfold denominatorFunc
      rw [standardNormalCdf_eq]
      have h1 : 0.98 ≤ Real.exp (-1 / 50 * u) := by
        have := Real.add_one_le_exp (-1 / 50 * u)
        linarith
      have hd : -3.5 ≤ dPlus (1 / 2 ^ 52) (1 - u) (1 / 2 ^ 52 / (1 / 2 ^ 52 + 1 / 2 ^ 52)) (1 / 20) (-1 / 50) (1 / 5) := by
        unfold dPlus
        rw [show (1 : ℝ) / 2 ^ 52 / (1 / 2 ^ 52 + 1 / 2 ^ 52) = 1 / 2 by norm_num, max_eq_left (by norm_num), one_div (2 : ℝ), Real.log_inv]
        have hl := Real.log_two_lt_d9
        have hsq : 1 - u ≤ Real.sqrt (1 - u) := by
          apply Real.le_sqrt_of_sq_le
          nlinarith
        have hden : 0.199 ≤ 1 / 5 * Real.sqrt (1 - u) + 1 / 2 ^ 52 := by
          have : (0 : ℝ) < 1 / 2 ^ 52 := by positivity
          linarith
        rw [le_div_iff₀ (by linarith)]
        nlinarith
      have h2 : Real.exp (-11) / 3 ≤ normalCdf (dPlus (1 / 2 ^ 52) (1 - u) (1 / 2 ^ 52 / (1 / 2 ^ 52 + 1 / 2 ^ 52)) (1 / 20) (-1 / 50) (1 / 5)) := by
        refine le_trans ?_ (normalCdf_strictMono.monotone hd)
        refine le_trans ?_ (normalCdf_ge_phi _ (by norm_num))
        rw [phi_eq, div_eq_inv_mul]
        have hpi := Real.pi_lt_d2
        have hs3 : Real.sqrt (2 * Real.pi) ≤ 3 := by
          rw [Real.sqrt_le_left (by norm_num)]
          linarith
        have hs0 : 0 < Real.sqrt (2 * Real.pi) := Real.sqrt_pos.2 (by positivity)
        exact mul_le_mul (inv_anti₀ hs0 hs3) (Real.exp_le_exp.2 (by norm_num)) (Real.exp_pos _).le (by positivity)
      exact mul_le_mul h1 h2 (by positivity) (Real.exp_pos _).le
    have he : Real.exp (-30) ≤ Real.exp (-11) * (1 / 2 ^ 19) := by
      rw [show (-30 : ℝ) = -11 + -19 by norm_num, Real.exp_add]
      have h2 : (2 : ℝ) ^ 19 ≤ Real.exp 19 := by
        have := Real.exp_one_gt_d9
        rw [show (19 : ℝ) = ((19 : Nat) : ℝ) * 1 by norm_num, Real.exp_nat_mul]
        gcongr
        linarith
      rw [Real.exp_neg 19, one_div]
      gcongr
    have p11 := Real.exp_pos (-11)
    generalize denominatorFunc (1 / 2 ^ 52) 1 (fun _ => 1 / 2 ^ 52) (1 / 20) (-1 / 50) (1 / 5) u = D at *
    norm_num at hge he
    linarith
  have hhigh : normalCdf (dPlus (1 / 2 ^ 52) 1 (1 / 2 ^ 52 / 100) (1 / 20) (-1 / 50) (1 / 5)) < Real.exp (-30) := by
    have hd : dPlus (1 / 2 ^ 52) 1 (1 / 2 ^ 52 / 100) (1 / 20) (-1 / 50) (1 / 5) ≤ -100 := by
      unfold dPlus
      rw [max_eq_right (by norm_num), one_div ((2 : ℝ) ^ 52), Real.log_inv, Real.log_pow, Real.sqrt_one]
      have hl := Real.log_two_gt_d9
      rw [div_le_iff₀ (by norm_num)]
      norm_num
      linarith
    refine lt_of_le_of_lt (normalCdf_le_exp _ (by linarith)) (Real.exp_lt_exp.2 ?_)
    nlinarith
  obtain ⟨m, hm⟩ := C99_negative_dividend (1 / 2 ^ 52) 1e-8 (andersenTauGrid 1 10) 100 (1 / 20) (-1 / 50) (1 / 5) 32 29 (by norm_num) (by norm_num) (by norm_num)
    (by norm_num) (by norm_num) (by rw [g1]; norm_num) g2 1 _ (by
      have := C99_grid 1 10 9 (by norm_num) (by norm_num)
      have h1 := List.mem_of_getElem? this
      norm_num at h1
      exact h1) (by
      unfold boundaryDenominator
      rw [hI]
      simp only [ofRule, bind, Except.bind, pure, Except.pure]
      rfl) (by
      rw [standardNormalCdf_eq]
      linarith)
  refine core_fails defaultAmSettings _ _ _ _ _ _ _ m ?_
  simp only [Option.getD_some, Bool.false_eq_true, if_false]
  unfold defaultAmSettings
  dsimp only
  rw [hrates]
  exact hm

example : initialBoundary (1 / 2 ^ 52) 100 (1 / 20) (1 / 10) = 50 ∧ initialBoundary (1 / 2 ^ 52) 100 (1 / 20) (-1 / 50) = -250 := by
  unfold initialBoundary
  rw [abs_of_pos (by norm_num : (0 : ℝ) < 1 / 10), abs_of_neg (by norm_num : (-1 / 50 : ℝ) < 0), if_neg (by norm_num), if_neg (by norm_num)]
  constructor <;> norm_num

example : boundaryRates (1 / 2 ^ 52) 0 0 = (1 / 10, 1 / 10) ∧ boundaryRates (1 / 2 ^ 52) 0 (1 / 2) = (0, 1 / 2) := by
  unfold boundaryRates
  norm_num

example : (andersenTauGrid 2 4)[0]? = some (1 / 2) ∧ (andersenTauGrid 2 4)[3]? = some 2 := by
  rw [C99_grid 2 4 0 (by norm_num) (by norm_num), C99_grid 2 4 3 (by norm_num) (by norm_num)]
  norm_num

/-- With rates of 10 % the default settings give a price for every spot and strike. -/
example : ∃ v, andersenLakeCore defaultAmSettings (1 / 5) 100 1 90 (1 / 10) (1 / 10) false = .ok v :=
  C99_total _ (by unfold defaultAmSettings; norm_num) _ _ _ _ _ _ _ (by norm_num) (by norm_num) (by norm_num) (by norm_num) (by norm_num)
    (by unfold defaultAmSettings; norm_num) (by unfold defaultAmSettings; decide) (by unfold defaultAmSettings; decide)

end Props
