import Verif.Model.AndersenLake
import Verif.Spec.AndersenLake
import Verif.Lemmas.Normal
import Verif.Props.Gauss
import Verif.Props.CubicSpline
import Verif.Props.VanillaPrices

/-! # Lemmas about the boundary of American options -/

namespace Lemmas
open Model Spec MeasureTheory

theorem standardNormalCdf_eq (a : ℝ) : standardNormalCdf a = normalCdf a := by
  have e1 : ∀ x : ℝ, 0.5 + 0.5 * erf (x / Real.sqrt 2) = normalCdf x := by
    intro x
    rw [← ncdf_eq]
    unfold ncdf
    ring
  have e2 : ∀ x : ℝ, 0.5 * erfc (-x / Real.sqrt 2) = normalCdf x := by
    intro x
    have := normalCdf_neg x
    rw [← e1 (-x)] at this
    unfold erfc
    linarith
  unfold standardNormalCdf
  dsimp only
  split
  · exact e1 a
  · split
    · rename_i hx
      rw [abs_of_pos hx]
      have := e2 (-a)
      rw [neg_neg, normalCdf_neg] at this
      linarith
    · rename_i hx
      rw [abs_of_nonpos (not_lt.1 hx), ← neg_div]
      exact e2 a

theorem dPlus_zero (tau z r q sigma : ℝ) (hz : 0 < z) : dPlus 0 tau z r q sigma = amD1 tau z r q sigma := by
  unfold dPlus amD1
  rw [max_eq_left hz.le, add_zero]
  norm_num
  ring_nf

theorem dMinus_zero (tau z r q sigma : ℝ) (hz : 0 < z) (hs : 0 < sigma) (ht : 0 ≤ tau) :
    dMinus 0 tau z r q sigma = amD2 tau z r q sigma := by
  unfold dMinus
  rw [dPlus_zero _ _ _ _ _ hz]
  unfold amD1 amD2
  rcases ht.eq_or_lt with rfl | ht
  · simp
  have h1 : 0 < Real.sqrt tau := Real.sqrt_pos.2 ht
  rw [eq_div_iff (by positivity), sub_mul, div_mul_cancel₀ _ (by positivity)]
  have := Real.mul_self_sqrt ht.le
  linear_combination -sigma ^ 2 * this

theorem amD1_sub (tau z r q sigma : ℝ) (hs : 0 < sigma) (ht : 0 < tau) :
    amD1 tau z r q sigma - sigma * Real.sqrt tau = amD2 tau z r q sigma := by
  unfold amD1 amD2
  have h1 : 0 < Real.sqrt tau := Real.sqrt_pos.2 ht
  rw [eq_div_iff (by positivity), sub_mul, div_mul_cancel₀ _ (by positivity)]
  have := Real.mul_self_sqrt ht.le
  linear_combination -sigma ^ 2 * this

/-! ## The integral equation -/

theorem exp_cdf_integrable (c τ : ℝ) (g : ℝ → ℝ) (hg : Measurable g) :
    IntervalIntegrable (fun u => Real.exp (c * u) * normalCdf (g u)) volume 0 τ := by
  have hc : Continuous fun u : ℝ => Real.exp (c * u) := by fun_prop
  refine (hc.intervalIntegrable 0 τ).mono_fun ?_ ?_
  · exact (hc.measurable.mul (normalCdf_continuous.measurable.comp hg)).aestronglyMeasurable
  · refine Filter.Eventually.of_forall fun u => ?_
    beta_reduce
    rw [norm_mul]
    have h1 : ‖normalCdf (g u)‖ ≤ 1 := by
      rw [Real.norm_of_nonneg (normalCdf_pos _).le]
      exact (normalCdf_lt_one _).le
    calc _ ≤ ‖Real.exp (c * u)‖ * 1 := mul_le_mul_of_nonneg_left h1 (norm_nonneg _)
      _ = _ := mul_one _

theorem discount_integral (c τ : ℝ) : ∫ u in (0 : ℝ)..τ, c * Real.exp (-c * (τ - u)) = 1 - Real.exp (-c * τ) := by
  have h := intervalIntegral.integral_eq_sub_of_hasDerivAt (a := 0) (b := τ) (f := fun u : ℝ => Real.exp (-c * (τ - u)))
    (f' := fun u : ℝ => c * Real.exp (-c * (τ - u))) (fun u _ => by
      have h1 : HasDerivAt (fun u : ℝ => -c * (τ - u)) c u := by
        have := ((hasDerivAt_id u).const_sub τ).const_mul (-c)
        refine this.congr_deriv (by ring)
      refine h1.exp.congr_deriv (by ring)) (by
      apply Continuous.intervalIntegrable
      fun_prop)
  rw [h]
  simp

theorem premium_integral (c x τ : ℝ) (g : ℝ → ℝ) (hg : Measurable g) :
    ∫ u in (0 : ℝ)..τ, c * x * Real.exp (-c * (τ - u)) * normalCdf (-g u) =
      x * (1 - Real.exp (-c * τ)) - x * Real.exp (-c * τ) * (c * ∫ u in (0 : ℝ)..τ, Real.exp (c * u) * normalCdf (g u)) := by
  have e : ∀ u : ℝ, c * x * Real.exp (-c * (τ - u)) * normalCdf (-g u) =
      x * (c * Real.exp (-c * (τ - u))) - x * Real.exp (-c * τ) * c * (Real.exp (c * u) * normalCdf (g u)) := by
    intro u
    rw [normalCdf_neg, show -c * (τ - u) = -c * τ + c * u by ring, Real.exp_add]
    ring
  simp only [e]
  rw [intervalIntegral.integral_sub, intervalIntegral.integral_const_mul x, discount_integral, intervalIntegral.integral_const_mul]
  · ring
  · apply Continuous.intervalIntegrable
    fun_prop
  · exact (exp_cdf_integrable c τ g hg).const_mul _

theorem amD_measurable (τ x r q σ : ℝ) (B : ℝ → ℝ) (hB : Measurable B) :
    Measurable (fun u => amD1 (τ - u) (x / B u) r q σ) ∧ Measurable (fun u => amD2 (τ - u) (x / B u) r q σ) := by
  unfold amD1 amD2
  constructor <;> fun_prop

/-- The defect of value matching, for any boundary. -/
theorem kim_defect (k r q σ τ : ℝ) (B : ℝ → ℝ) (hB : Measurable B) :
    k - B τ - kimPut (B τ) k r q σ τ B =
      k * Real.exp (-r * τ) * boundaryN k r q σ τ B - B τ * Real.exp (-q * τ) * boundaryD k r q σ τ B := by
  unfold kimPut europeanPut boundaryN boundaryD
  obtain ⟨m1, m2⟩ := amD_measurable τ (B τ) r q σ B hB
  rw [premium_integral r k τ _ m2, premium_integral q (B τ) τ _ m1, normalCdf_neg, normalCdf_neg]
  ring

/-! ## Quadrature -/

theorem quadrature_nonneg (f : ℝ → ℝ) (a b : ℝ) (hab : a ≤ b) (rs ws : List ℝ) (hf : ∀ x, 0 ≤ f x) (hw : ∀ w ∈ ws, 0 ≤ w) :
    0 ≤ quadrature f a b rs ws := by
  unfold quadrature
  apply List.sum_nonneg
  intro x hx
  obtain ⟨i, hi, rfl⟩ := List.mem_iff_getElem.1 hx
  rw [List.getElem_zipWith]
  have := hw _ (List.getElem_mem (l := ws) (by simp at hi; omega : i < ws.length))
  have := hf (((b - a) * rs[i]'(by simp at hi; omega) + b + a) / 2)
  have : 0 ≤ b - a := by linarith
  positivity

theorem tableValues_nonneg (n : Nat) (w : List Int) (h : legendreWeights n = some w ∨ kronrodWeights n = some w) :
    ∀ x ∈ (tableValues w : List ℝ), 0 ≤ x := by
  intro x hx
  obtain ⟨i, hi, rfl⟩ := List.mem_map.1 hx
  have : (0 : ℝ) < (i : ℝ) := by exact_mod_cast Props.C49_positive n w h i hi
  positivity

theorem gaussLegendre_some (n : Nat) (hn : (legendreRoots n).isSome) :
    ∃ r w, legendreRoots n = some r ∧ legendreWeights n = some w := by
  obtain ⟨r, hr⟩ := Option.isSome_iff_exists.1 hn
  obtain ⟨v, hv, _⟩ := Props.C49_legendre n hn 0 (by
    have : 0 < n := by
      rcases n with _ | n
      · simp [legendreRoots] at hr
      · omega
    simpa using this) 0 1
  unfold gaussLegendre at hv
  rw [hr] at hv
  simp only [Option.bind_some, Option.map_eq_some_iff] at hv
  obtain ⟨w, hw, _⟩ := hv
  exact ⟨r, w, hr, hw⟩

theorem gaussLegendre_nonneg (f : ℝ → ℝ) (a b : ℝ) (hab : a ≤ b) (n : Nat) (hn : (legendreRoots n).isSome) (hf : ∀ x, 0 ≤ f x) :
    ∃ v, gaussLegendre f a b n = some v ∧ 0 ≤ v := by
  obtain ⟨r, w, hr, hw⟩ := gaussLegendre_some n hn
  refine ⟨_, by unfold gaussLegendre; rw [hr, hw]; rfl, ?_⟩
  exact quadrature_nonneg f a b hab _ _ hf (tableValues_nonneg n w (Or.inl hw))

theorem kronrodPair_some (f : ℝ → ℝ) (n : Nat) (hn : (stieltjesRoots n).isSome) : ∃ pair, kronrodPair f n = some pair ∧
    (∀ l u, l ≤ u → (∀ x, 0 ≤ f x) → 0 ≤ (pair l u).1) ∧ ((∀ x, f x = 0) → ∀ l u, pair l u = (0, 0)) ∧ ∀ l, pair l l = (0, 0) := by
  have hmem : n ∈ kronrodSizes := by
    by_contra hc
    unfold kronrodSizes at hc
    simp only [List.mem_cons, List.not_mem_nil, or_false, not_or] at hc
    unfold stieltjesRoots at hn
    split at hn <;> simp_all
  have h := List.all_eq_true.1 kronrod_table n hmem
  unfold kronrodOk at h
  unfold kronrodPair
  split at h
  · rename_i r s w l hr hs hw hl
    rw [hr, hs, hw, hl]
    have z1 : ∀ (g : ℝ → ℝ) (rs ws : List ℝ) (a b : ℝ), ((∀ x, g x = 0) ∨ a = b) → quadrature g a b rs ws = 0 := by
      intro g rs ws a b hg
      unfold quadrature
      apply List.sum_eq_zero
      intro x hx
      obtain ⟨i, hi, rfl⟩ := List.mem_iff_getElem.1 hx
      rw [List.getElem_zipWith]
      rcases hg with hg | rfl
      · rw [hg]; ring
      · ring
    refine ⟨_, rfl, ?_, ?_, ?_⟩
    · intro a b hab hf
      exact quadrature_nonneg f a b hab _ _ hf (tableValues_nonneg n w (Or.inr hw))
    · intro hf a b
      exact Prod.ext (z1 _ _ _ _ _ (Or.inl hf)) (z1 _ _ _ _ _ (Or.inl hf))
    · intro a
      exact Prod.ext (z1 _ _ _ _ _ (Or.inr rfl)) (z1 _ _ _ _ _ (Or.inr rfl))
  · simp at h

theorem adaptiveLoop_zero (pair : ℝ → ℝ → ℝ × ℝ) (tol : ℝ) (depth : Nat) (a b : ℝ) (h : pair a b = (0, 0)) :
    (adaptiveLoop pair tol depth [(a, b)] 0).2 = 0 := by
  have hbad : isBad pair tol (a, b) = false := by
    unfold isBad
    simp [h]
  rcases depth with _ | depth
  · rfl
  · simp only [adaptiveLoop, List.isEmpty_cons, Bool.false_eq_true, if_false, adaptiveUpdate,
      List.filter_cons_of_neg (p := isBad pair tol) (a := (a, b)) (by simp [hbad]),
      List.filter_nil, List.map_nil, List.append_nil, List.map_cons, List.sum_cons, List.sum_nil, add_zero, sub_zero, zero_add, h]
    cases depth <;> simp [adaptiveLoop]

theorem gaussKronrod_zero (f : ℝ → ℝ) (a b tol : ℝ) (n depth : Nat) (hn : (stieltjesRoots n).isSome) (h : (∀ x, f x = 0) ∨ a = b) :
    gaussKronrod f a b tol n depth = some 0 := by
  obtain ⟨pair, hp, _, h2, h3⟩ := kronrodPair_some f n hn
  unfold gaussKronrod
  rw [hp, Option.map_some]
  congr 1
  apply adaptiveLoop_zero
  rcases h with h | rfl
  · exact h2 h a b
  · exact h3 a

theorem gaussKronrod_nonneg (f : ℝ → ℝ) (a b tol : ℝ) (hab : a ≤ b) (n depth : Nat) (hn : (stieltjesRoots n).isSome) (hf : ∀ x, 0 ≤ f x) :
    ∃ v, gaussKronrod f a b tol n depth = some v ∧ 0 ≤ v := by
  obtain ⟨pair, hp, h1, _, _⟩ := kronrodPair_some f n hn
  have hv : gaussKronrod f a b tol n depth = some (adaptiveLoop pair tol depth [(a, b)] 0).2 := by
    unfold gaussKronrod
    rw [hp]; rfl
  refine ⟨_, hv, ?_⟩
  obtain ⟨acc, rest, hpart, hr, _, _⟩ := Props.C50_adaptive_partial f a b tol hab n depth _ pair hp hv
  rw [hr]
  apply List.sum_nonneg
  intro x hx
  obtain ⟨i, hi, rfl⟩ := List.mem_map.1 hx
  exact h1 _ _ (hpart.1 i (List.mem_append_left _ hi)).2.1 hf

/-! ## The spline -/

theorem spline_constant (xs : List ℝ) (m : Nat) (hx : xs.length = m + 2) (hs : xs.Pairwise (· < ·)) (y : ℝ) :
    ∃ c, splineBuild xs (xs.map fun _ => y) none none none = some c ∧ ∀ t, cubicInterpolate t xs (xs.map fun _ => y) c = y := by
  have hg := gap_pos xs m hx hs
  obtain ⟨c, hc, hl, h0, h1, heq⟩ := spline_natural xs (xs.map fun _ => y) m hx (by simpa using hx) hg 0 0
  have hy : ∀ i, i < m + 2 → (xs.map fun _ => y).getD i 0 = y := by
    intro i hi
    rw [List.getD_eq_getElem?_getD, List.getElem?_map, List.getElem?_eq_getElem (by omega)]
    rfl
  have hsl : ∀ i, i ≤ m → slope xs (xs.map fun _ => y) i = 0 := by
    intro i hi
    unfold slope
    rw [hy i (by omega), hy (i + 1) (by omega), sub_self, zero_div]
  have hzero : ∀ i, i < m + 2 → c.getD i 0 = 0 := by
    obtain ⟨j, hj, hmax⟩ := Finset.exists_max_image (Finset.range (m + 2)) (fun i => |c.getD i 0|) ⟨0, by simp⟩
    have hj := Finset.mem_range.1 hj
    have hM : |c.getD j 0| = 0 := by
      rcases j with _ | j
      · rw [h0, abs_zero]
      · by_cases hjm : j = m
        · rw [hjm, h1, abs_zero]
        · have e := heq j (by omega)
          rw [hsl j (by omega), hsl (j + 1) (by omega), sub_self, mul_zero] at e
          have a1 := hmax j (Finset.mem_range.2 (by omega))
          have a2 := hmax (j + 2) (Finset.mem_range.2 (by omega))
          have g1 := hg j (by omega)
          have g2 := hg (j + 1) (by omega)
          have b0 := abs_nonneg (c.getD (j + 1) 0)
          have key : 2 * (gap xs j + gap xs (j + 1)) * |c.getD (j + 1) 0| ≤ (gap xs j + gap xs (j + 1)) * |c.getD (j + 1) 0| := by
            have : 2 * (gap xs j + gap xs (j + 1)) * c.getD (j + 1) 0 = -(gap xs j * c.getD j 0 + gap xs (j + 1) * c.getD (j + 2) 0) := by
              linarith
            have h3 := congrArg abs this
            rw [abs_mul, abs_of_pos (by linarith : 0 < 2 * (gap xs j + gap xs (j + 1))), abs_neg] at h3
            rw [h3]
            refine (abs_add_le _ _).trans ?_
            rw [abs_mul, abs_mul, abs_of_pos g1, abs_of_pos g2]
            nlinarith
          nlinarith
    intro i hi
    have := hmax i (Finset.mem_range.2 hi)
    rw [hM] at this
    exact abs_eq_zero.1 (le_antisymm this (abs_nonneg _))
  refine ⟨c, hc, fun t => ?_⟩
  have hc0 : ∀ i, c.getD i 0 = 0 := by
    intro i
    by_cases hi : i < m + 2
    · exact hzero i hi
    · exact List.getD_eq_default _ _ (by omega)
  have sl := slice_eq false
  simp only [Bool.false_eq_true, if_false] at sl
  have hsr : searchRight xs t ≤ m + 2 := by
    rw [← hx]
    exact (searchRight_spec xs (hs.imp le_of_lt) t).1
  unfold cubicInterpolate
  simp only [Bool.false_eq_true, if_false, sl, hc0, hx]
  rw [hy _ (by omega), hy _ (by omega)]
  split
  · ring
  · split <;> rfl

/-! ## The boundary and the price -/

theorem ofRule_ok (n : Nat) (x : Option ℝ) (v : ℝ) : ofRule n x = .ok v ↔ x = some v := by
  unfold ofRule
  split <;> simp_all

theorem mapM_except_ok {A B : Type} (f : A → Except String B) (l : List A) (r : List B) (h : l.mapM f = .ok r) :
    r.length = l.length ∧ ∀ (i : Nat) (a : A) (b : B), l[i]? = some a → r[i]? = some b → f a = .ok b := by
  induction l generalizing r with
  | nil =>
    simp only [List.mapM_nil, pure, Except.pure, Except.ok.injEq] at h
    subst h
    simp
  | cons a l ih =>
    rw [List.mapM_cons] at h
    simp only [bind, Except.bind, pure, Except.pure] at h
    split at h
    · simp at h
    · rename_i b hb
      split at h
      · simp at h
      · rename_i r' hr'
        simp only [Except.ok.injEq] at h
        subst h
        obtain ⟨h1, h2⟩ := ih r' hr'
        refine ⟨by simp [h1], ?_⟩
        intro i a' b' ha hb'
        rcases i with _ | i
        · simp only [List.getElem?_cons_zero, Option.some.injEq] at ha hb'
          subst ha; subst hb'
          exact hb
        · exact h2 i a' b' (by simpa using ha) (by simpa using hb')

theorem mapM_except_total {A B : Type} (f : A → Except String B) (l : List A) (h : ∀ a ∈ l, ∃ b, f a = .ok b) : ∃ r, l.mapM f = .ok r := by
  induction l with
  | nil => exact ⟨[], rfl⟩
  | cons a l ih =>
    obtain ⟨b, hb⟩ := h a List.mem_cons_self
    obtain ⟨r, hr⟩ := ih (fun x hx => h x (List.mem_cons_of_mem _ hx))
    exact ⟨b :: r, by rw [List.mapM_cons, hb, hr]; rfl⟩

theorem core_ok (c : AmSettings) (sigma kTemp tau sTemp rTemp qTemp : ℝ) (isCall : Bool) (v : ℝ) :
    andersenLakeCore c sigma kTemp tau sTemp rTemp qTemp isCall = .ok v ↔ ∃ e b t1 t2,
      optionPrice { volatility := sigma, strike := kTemp, expiry := tau, spot := some sTemp, discountRate := some rTemp, dividendRate := some qTemp, isCall := some isCall } = .ok e ∧
      exerciseBoundary c.eps c.toleranceBoundary (andersenTauGrid tau c.gridNumPoints) (if isCall then sTemp else kTemp)
        (boundaryRates c.eps (if isCall then qTemp else rTemp) (if isCall then rTemp else qTemp)).1
        (boundaryRates c.eps (if isCall then qTemp else rTemp) (if isCall then rTemp else qTemp)).2 sigma c.maxIterations c.legendrePoints = .ok b ∧
      gaussKronrod (premiumFunc1 c.eps tau (if isCall then kTemp else sTemp) (if isCall then sTemp else kTemp) (if isCall then qTemp else rTemp)
        (if isCall then rTemp else qTemp) sigma b) 0 tau c.toleranceKronrod c.kronrodPoints c.maxDepth = some t1 ∧
      gaussKronrod (premiumFunc2 c.eps tau (if isCall then kTemp else sTemp) (if isCall then qTemp else rTemp)
        (if isCall then rTemp else qTemp) sigma b) 0 tau c.toleranceKronrod c.kronrodPoints c.maxDepth = some t2 ∧ v = e + t1 - t2 := by
  unfold andersenLakeCore
  simp only [bind, Except.bind, pure, Except.pure]
  constructor
  · intro h
    split at h
    · simp at h
    · rename_i e he
      split at h
      · simp at h
      · rename_i b hb
        split at h
        · simp at h
        · rename_i t1 h1
          split at h
          · simp at h
          · rename_i t2 h2
            simp only [Except.ok.injEq] at h
            exact ⟨e, b, t1, t2, he, hb, (ofRule_ok _ _ _).1 h1, (ofRule_ok _ _ _).1 h2, h.symm⟩
  · rintro ⟨e, b, t1, t2, he, hb, h1, h2, rfl⟩
    simp only [he, hb, (ofRule_ok _ _ _).2 h1, (ofRule_ok _ _ _).2 h2]

theorem core_fails (c : AmSettings) (sigma kTemp tau sTemp rTemp qTemp : ℝ) (isCall : Bool) (m : String)
    (hb : exerciseBoundary c.eps c.toleranceBoundary (andersenTauGrid tau c.gridNumPoints) (if isCall then sTemp else kTemp)
        (boundaryRates c.eps (if isCall then qTemp else rTemp) (if isCall then rTemp else qTemp)).1
        (boundaryRates c.eps (if isCall then qTemp else rTemp) (if isCall then rTemp else qTemp)).2 sigma c.maxIterations c.legendrePoints = .error m) :
    ∃ m', andersenLakeCore c sigma kTemp tau sTemp rTemp qTemp isCall = .error m' := by
  rcases h : andersenLakeCore c sigma kTemp tau sTemp rTemp qTemp isCall with m' | v
  · exact ⟨m', rfl⟩
  · obtain ⟨e, b, t1, t2, _, hb', _⟩ := (core_ok c sigma kTemp tau sTemp rTemp qTemp isCall v).1 h
    rw [hb] at hb'
    simp at hb'

/-- The European prices of a call and of the put with spot and strike, and the rates, exchanged. -/
theorem european_symmetry (sigma k tau s r q : ℝ) (hs : 0 < s) (hk : 0 < k) :
    optionPrice { volatility := sigma, strike := k, expiry := tau, spot := some s, discountRate := some r, dividendRate := some q, isCall := some true } =
      optionPrice { volatility := sigma, strike := s, expiry := tau, spot := some k, discountRate := some q, dividendRate := some r, isCall := some false } := by
  unfold optionPrice bsCheck bsForward bsDiscounting
  simp only [Option.isNone_some, Option.isNone_none, Option.isSome_some, Option.isSome_none, Option.getD_some, Bool.and_false, beq_iff_eq, Bool.false_eq_true, if_false,
    if_true, bind, Except.bind, pure, Except.pure, ncdf_eq, reduceCtorEq]
  congr 1
  have e1 : Real.exp ((r - q) * tau) = Real.exp (-q * tau) / Real.exp (-r * tau) := by
    rw [← Real.exp_sub]; congr 1; ring
  have e2 : Real.exp ((q - r) * tau) = Real.exp (-r * tau) / Real.exp (-q * tau) := by
    rw [← Real.exp_sub]; congr 1; ring
  have p1 := Real.exp_pos (-r * tau)
  have p2 := Real.exp_pos (-q * tau)
  split
  · rename_i hv
    have hd : Real.log (k * Real.exp ((q - r) * tau) / s) = -Real.log (s * Real.exp ((r - q) * tau) / k) := by
      rw [← Real.log_inv]
      congr 1
      rw [e1, e2]
      field_simp
    rw [hd]
    set v := sigma * Real.sqrt tau
    set L := Real.log (s * Real.exp ((r - q) * tau) / k)
    rw [show -L / v + v / 2 = -(L / v + v / 2 - v) by ring, show -(L / v + v / 2 - v) - v = -(L / v + v / 2) by ring, normalCdf_neg, normalCdf_neg, e1, e2]
    field_simp
    ring
  · have m1 : max (k * Real.exp ((q - r) * tau) - s) 0 - (k * Real.exp ((q - r) * tau) - s) = max 0 (s - k * Real.exp ((q - r) * tau)) := by
      rcases le_total (k * Real.exp ((q - r) * tau)) s with h | h
      · rw [max_eq_right (by linarith), max_eq_right (by linarith)]; ring
      · rw [max_eq_left (by linarith), max_eq_left (by linarith)]; ring
    rw [m1, mul_max_of_nonneg _ _ p1.le, mul_max_of_nonneg _ _ p2.le, mul_zero, mul_zero, max_comm, e1, e2]
    congr 1
    field_simp

end Lemmas
