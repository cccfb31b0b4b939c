import Verif.Props.SwapCurve

/-!
# C86 The objective of the fitted swap curve is zero exactly if every swap is repriced
-/

namespace Lemmas
open Model Spec

theorem flatMap_congr_mem {α β : Type} (f g : α → List β) (xs : List α) (h : ∀ x ∈ xs, f x = g x) : xs.flatMap f = xs.flatMap g := by
  rw [List.flatMap_def, List.flatMap_def, List.map_congr_left h]

theorem sum_zipWith_div (f : ℝ → ℝ → ℝ) (a b : List ℝ) (c : ℝ) :
    (List.zipWith (fun (x y : ℝ) => f x y / c) a b).sum = (List.zipWith f a b).sum / c := by
  induction a generalizing b with
  | nil => simp
  | cons x a ih =>
    cases b with
    | nil => simp
    | cons y b => simp [ih, add_div]

/-- The floating legs, seen from the settlement times. -/
theorem fitFloatPv_eq (interp : CurveInterpolator) (disc : SwapDiscounting) (swaps : List SwapQuote) (x : List ℝ)
    (h : ∀ q ∈ swaps, SwapShape q) :
    fitFloatPv interp disc swaps x = swaps.map (fun (q : SwapQuote) =>
      floatLegValue (curveDiscount interp (swaps.map SwapQuote.expiryTime) x)
        (legDiscount interp disc.float (swaps.map SwapQuote.expiryTime) x) q.floatStarts q.floatEnds /
          legDiscount interp disc.float (swaps.map SwapQuote.expiryTime) x q.settlement) := by
  unfold fitFloatPv
  simp only
  rw [zipWith_flatMap_eq _ _ _ _ (fun q hq => (h q hq).floatLen.symm), zipWith_flatMap_eq _ _ _ _ (by
    intro q hq
    simp [(h q hq).floatLen]), zipWith_flatMap_eq _ _ _ _ (by
    intro q hq
    simp [(h q hq).floatLen]), groupMatvec_flat]
  · apply List.map_congr_left
    intro q hq
    unfold floatLegValue
    rw [← sum_zipWith_div]
    congr 1
    have hl := (h q hq).floatLen
    apply List.ext_getElem (by simp [hl])
    intro i h1 h2
    simp only [List.getElem_zipWith, List.getElem_replicate]
    unfold curveDiscount legDiscount
    rw [mul_div_assoc, ← Real.exp_sub, ← Real.exp_sub]
    congr 2
    · congr 1
      ring
    · ring
  · intro q hq
    simp [(h q hq).floatLen]

/-- The fixed legs, seen from the settlement times. -/
theorem fitFixedPv_eq (interp : CurveInterpolator) (disc : SwapDiscounting) (swaps : List SwapQuote) (x : List ℝ)
    (h : ∀ q ∈ swaps, SwapShape q) :
    fitFixedPv interp disc swaps x = swaps.map (fun (q : SwapQuote) =>
      fixedLegValue (legDiscount interp disc.fixed (swaps.map SwapQuote.expiryTime) x) q.fixedDaycounts q.fixedCashflows q.fixedEnds /
          legDiscount interp disc.fixed (swaps.map SwapQuote.expiryTime) x q.settlement) := by
  unfold fitFixedPv
  simp only
  rw [zipWith_flatMap_eq _ _ _ _ (fun q hq => by rw [(h q hq).daycountLen, (h q hq).fixedLen]), zipWith_flatMap_eq _ _ _ _ (by
    intro q hq
    simp), zipWith_flatMap_eq _ _ _ _ (by
    intro q hq
    simp [(h q hq).fixedLen, (h q hq).daycountLen]), groupMatvec_flat]
  · apply List.map_congr_left
    intro q hq
    unfold fixedLegValue
    rw [← sum_zipWith_div]
    congr 1
    apply List.ext_getElem (by simp)
    intro i h1 h2
    simp only [List.getElem_zipWith, List.getElem_replicate]
    unfold legDiscount
    rw [mul_div_assoc, ← Real.exp_sub]
    congr 2
    ring
  · intro q hq
    simp [(h q hq).fixedLen, (h q hq).daycountLen]

/-- Value of a swap at its settlement time minus its market price. -/
noncomputable def settledError (interp : CurveInterpolator) (disc : SwapDiscounting) (times x : List ℝ) (q : SwapQuote) : ℝ :=
  floatLegValue (curveDiscount interp times x) (legDiscount interp disc.float times x) q.floatStarts q.floatEnds /
      legDiscount interp disc.float times x q.settlement +
    fixedLegValue (legDiscount interp disc.fixed times x) q.fixedDaycounts q.fixedCashflows q.fixedEnds /
      legDiscount interp disc.fixed times x q.settlement - q.presentValue

theorem settled_now (interp : CurveInterpolator) (disc : SwapDiscounting) (times x : List ℝ) (q : SwapQuote) (h : q.settlement = 0) :
    settledError interp disc times x q = swapError interp disc times x q := by
  unfold settledError swapError
  simp [h, legDiscount]

end Lemmas

namespace Props
open Model Spec Lemmas

/-- C86.  The objective is the weighted sum of the squares of the errors of the values at the settlement times. -/
theorem C86_objective (a : SwapFitArgs) (h : ∀ q ∈ a.swaps, SwapShape q) (x : List ℝ) :
    a.objective x = (List.zipWith (fun (w : ℝ) (q : SwapQuote) =>
      w * settledError a.interpolator (swapDiscounting a.floatCurve a.fixedCurve) (a.swaps.map SwapQuote.expiryTime) x q ^ 2)
        (a.weights.getD (fitWeights a.swaps)) a.swaps).sum := by
  unfold SwapFitArgs.objective fitLoss
  simp only
  rw [fitFloatPv_eq _ _ _ _ h, fitFixedPv_eq _ _ _ _ h, List.zipWith_map, List.zipWith_self, List.zipWith_map, List.zipWith_self,
    List.zipWith_map_right]
  rfl

theorem fitWeights_get (swaps : List SwapQuote) (hp : ∀ q ∈ swaps, 0 < q.floatEnds.getLastD 0) :
    (fitWeights swaps).length = swaps.length ∧ ∀ w ∈ fitWeights swaps, 0 < w ∧ w ≤ 1 := by
  refine ⟨by simp [fitWeights], ?_⟩
  intro w hw
  unfold fitWeights at hw
  rw [List.mem_map] at hw
  obtain ⟨q, hq, rfl⟩ := hw
  exact ⟨lt_min one_pos (lt_max_of_lt_left (one_div_pos.2 (hp q hq))), min_le_left _ _⟩

theorem sum_zipWith_sq_zero {α : Type} (e : α → ℝ) (ws : List ℝ) (xs : List α) (hl : ws.length = xs.length) (hw : ∀ w ∈ ws, 0 < w) :
    0 ≤ (List.zipWith (fun (w : ℝ) (q : α) => w * e q ^ 2) ws xs).sum ∧
      ((List.zipWith (fun (w : ℝ) (q : α) => w * e q ^ 2) ws xs).sum = 0 ↔ ∀ q ∈ xs, e q = 0) := by
  induction ws generalizing xs with
  | nil =>
    have : xs = [] := by
      cases xs with
      | nil => rfl
      | cons _ _ => simp at hl
    subst this
    simp
  | cons w ws ih =>
    cases xs with
    | nil => simp at hl
    | cons q xs =>
      obtain ⟨h1, h2⟩ := ih xs (by simpa using hl) (fun w hw' => hw w (List.mem_cons_of_mem _ hw'))
      have hw0 := hw w List.mem_cons_self
      have h3 : 0 ≤ w * e q ^ 2 := mul_nonneg hw0.le (sq_nonneg _)
      simp only [List.zipWith_cons_cons, List.sum_cons, List.forall_mem_cons]
      refine ⟨by linarith, ?_⟩
      rw [← h2]
      constructor
      · intro h
        have h4 : w * e q ^ 2 = 0 := by linarith
        refine ⟨?_, by linarith⟩
        rcases mul_eq_zero.1 h4 with h5 | h5
        · exact absurd h5 hw0.ne'
        · exact pow_eq_zero_iff two_ne_zero |>.1 h5
      · rintro ⟨h4, h5⟩
        rw [h4, h5]
        simp

/-- C86.  With positive weights, one for each swap, the objective is not negative, and it is zero exactly if the curve reprices every
swap at its settlement time. -/
theorem C86_zero_iff (a : SwapFitArgs) (h : ∀ q ∈ a.swaps, SwapShape q) (ws : List ℝ) (hw : a.weights = some ws)
    (hl : ws.length = a.swaps.length) (hp : ∀ w ∈ ws, 0 < w) (x : List ℝ) :
    0 ≤ a.objective x ∧ (a.objective x = 0 ↔ ∀ q ∈ a.swaps,
      settledError a.interpolator (swapDiscounting a.floatCurve a.fixedCurve) (a.swaps.map SwapQuote.expiryTime) x q = 0) := by
  rw [C86_objective a h x, hw]
  exact sum_zipWith_sq_zero _ ws a.swaps hl hp

/-- C86.  The default weights are positive and at most one, so that the same holds with them. -/
theorem C86_default_weights (a : SwapFitArgs) (h : ∀ q ∈ a.swaps, SwapShape q) (hw : a.weights = none)
    (hp : ∀ q ∈ a.swaps, 0 < q.floatEnds.getLastD 0) (x : List ℝ) :
    (∀ w ∈ fitWeights a.swaps, 0 < w ∧ w ≤ 1) ∧ 0 ≤ a.objective x ∧ (a.objective x = 0 ↔ ∀ q ∈ a.swaps,
      settledError a.interpolator (swapDiscounting a.floatCurve a.fixedCurve) (a.swaps.map SwapQuote.expiryTime) x q = 0) := by
  obtain ⟨h1, h2⟩ := fitWeights_get a.swaps hp
  refine ⟨h2, ?_⟩
  rw [C86_objective a h x, hw]
  exact sum_zipWith_sq_zero _ _ a.swaps h1 (fun w hw => (h2 w hw).1)

/-- C86.  What is returned, for any optimizer: its result, with the discount factors of its rates at the expiries. -/
theorem C86_result (a : SwapFitArgs) (x : List ℝ) (h : a.initialRates = some x) :
    ∃ r, swapCurveFit a = .ok r ∧ r.times = a.swaps.map SwapQuote.expiryTime ∧ r.initialRates = x ∧
      (∀ f, r.rates = some f → r.discountFactors = some (List.zipWith (fun (r t : ℝ) => Real.exp (-(r * t))) f r.times)) ∧
      r.rates = some (a.optimizer a.objective x a.tolerance a.maximumIterations).position ∧
      r.converged = (a.optimizer a.objective x a.tolerance a.maximumIterations).converged ∧
      r.failed = (a.optimizer a.objective x a.tolerance a.maximumIterations).failed ∧
      r.iterations = (a.optimizer a.objective x a.tolerance a.maximumIterations).iterations ∧
      r.objective = (a.optimizer a.objective x a.tolerance a.maximumIterations).objective := by
  unfold swapCurveFit
  rw [h]
  refine ⟨_, rfl, rfl, rfl, ?_, rfl, rfl, rfl, rfl, rfl⟩
  intro f hf
  simp only [Option.some.injEq] at hf
  subst hf
  simp only [neg_mul]

/-- C86.  Without rates to start from the fit is rejected, and only then. -/
theorem C86_rejects (a : SwapFitArgs) : (∃ e, swapCurveFit a = .error e) ↔ a.initialRates = none := by
  unfold swapCurveFit
  cases a.initialRates <;> simp

/-- C86.  For prices as of now, the zeros of the objective are exactly the curves that a step of the bootstrap leaves unchanged. -/
theorem C86_bootstrap (a : SwapFitArgs) (h : SwapMarket a.swaps) (ws : List ℝ) (hw : a.weights = some ws)
    (hl : ws.length = a.swaps.length) (hp : ∀ w ∈ ws, 0 < w) (hn : ∀ q ∈ a.swaps, q.settlement = 0)
    (hk : Reproduces a.interpolator (a.swaps.map SwapQuote.expiryTime))
    (he : ∀ q ∈ a.swaps, LegsEnd (swapDiscounting a.floatCurve a.fixedCurve) q)
    (hs : (swapDiscounting a.floatCurve a.fixedCurve).float = none → (swapDiscounting a.floatCurve a.fixedCurve).fixed = none →
      ∀ q ∈ a.swaps, q.fixedCashflows.getLastD 0 * q.fixedDaycounts.getLastD 0 ≠ 1)
    (x : List ℝ) (hx : x.length = a.swaps.length) :
    a.objective x = 0 ↔ nextSwapDiscounts a.interpolator (swapDiscounting a.floatCurve a.fixedCurve) a.swaps x =
      some (List.zipWith (fun (r t : ℝ) => Real.exp (-r * t)) x (a.swaps.map SwapQuote.expiryTime)) := by
  rw [(C86_zero_iff a h.shape ws hw hl hp x).2, C85_fixed_point _ _ _ h hk he hs x hx]
  constructor <;> intro h1 q hq
  · rw [← settled_now _ _ _ _ _ (hn q hq)]
    exact h1 q hq
  · rw [settled_now _ _ _ _ _ (hn q hq)]
    exact h1 q hq

/-- Deviation from C86.  A weight of zero drops a swap from the objective, so that a zero says nothing about it. -/
theorem C86_zero_weight (interp : CurveInterpolator) (opt : (List ℝ → ℝ) → List ℝ → ℝ → Nat → FitOptimum) (x : List ℝ) :
    SwapFitArgs.objective ⟨[dearSwap], some x, none, none, interp, some [0], opt, 1, 1⟩ x = 0 := by
  rw [C86_objective _ dear_market.shape]
  simp

/-- The price of a swap that no curve reaches: the objective is at least sixteen whatever the rates. -/
example (interp : CurveInterpolator) (opt : (List ℝ → ℝ) → List ℝ → ℝ → Nat → FitOptimum) (x : List ℝ) :
    SwapFitArgs.objective ⟨[dearSwap], some x, none, none, interp, some [1], opt, 1, 1⟩ x ≥ 16 := by
  rw [C86_objective _ dear_market.shape]
  have h2 := C85_telescopes (curveDiscount interp [2] x) (fun t => (Real.exp_pos _).ne') 0 [1, 2] (by simp)
  have het : dearSwap.expiryTime = 2 := by simp [dearSwap, SwapQuote.expiryTime]
  have h3 : settledError interp ⟨none, none⟩ [2] x dearSwap = 1 - curveDiscount interp [2] x 2 - 5 := by
    rw [settled_now _ _ _ _ _ rfl]
    unfold swapError
    have e1 : curveDiscount interp [2] x 0 = 1 := by simp [curveDiscount]
    rw [e1] at h2
    have e2 : legDiscount interp none [2] x = curveDiscount interp [2] x := rfl
    simp only [dearSwap, e2]
    simp only [List.dropLast_cons_cons, List.dropLast_singleton, List.getLastD_cons, List.getLastD_nil] at h2
    rw [h2]
    simp [fixedLegValue, SwapQuote.fixedDaycounts]
  have h4 : 0 < curveDiscount interp [2] x 2 := Real.exp_pos _
  simp only [Option.getD_some, List.map_cons, List.map_nil, het, swapDiscounting, List.zipWith_cons_cons, List.zipWith_nil_right,
    List.sum_cons, List.sum_nil, h3]
  nlinarith

end Props
