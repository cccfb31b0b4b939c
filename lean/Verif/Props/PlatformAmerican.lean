import Verif.Model.PlatformAmerican
import Verif.Spec.PlatformAmerican
import Verif.Spec.Payoffs
import Verif.Props.PlatformFra
import Verif.Props.PlatformMarket
import Verif.Props.Interpolation2D
import Verif.Props.Lsm
import Verif.Props.ShapeUtils
import Verif.Props.Grids
import Verif.Lemmas.VanillaPrices

/-! # C110: American equity options of the pricing platform -/

namespace Props
open Model Model.Platform Spec Lemmas
open scoped BigOperators

namespace PlatformAmerican

/-- Exercise times of a policy. -/
theorem policy_range {n b : Nat} {last : Nat} {payoff factor : Nat → Fin n → ℝ} {basis : Nat → Fin b → Fin n → ℝ} {cal : Finset (Fin n)} {tau : Nat → Fin n → Nat}
    (h : IsLsmPolicy last payoff factor basis cal tau) (d : Nat) (hd : d ≤ last) (s : Fin n) : tau (last - d) s ≤ last := by
  induction d with
  | zero => rw [Nat.sub_zero, h.1 s]
  | succ d ih =>
    obtain ⟨beta, _, h2⟩ := h.2 (last - (d + 1)) (by omega)
    rw [h2 s]
    split
    · omega
    · rw [show last - (d + 1) + 1 = last - d by omega]
      exact ih (by omega)

theorem policy_range' {n b : Nat} {last : Nat} {payoff factor : Nat → Fin n → ℝ} {basis : Nat → Fin b → Fin n → ℝ} {cal : Finset (Fin n)} {tau : Nat → Fin n → Nat}
    (h : IsLsmPolicy last payoff factor basis cal tau) (j : Nat) (hj : j ≤ last) (s : Fin n) : tau j s ≤ last := by
  have := policy_range h (last - j) (by omega) s
  rwa [show last - (last - j) = j by omega] at this

theorem leastSquares_scale {n b : Nat} {S : Finset (Fin n)} {x : Fin b → Fin n → ℝ} {y : Fin n → ℝ} {beta : Fin b → ℝ} (c : ℝ) (hc : 0 < c) (h : IsLeastSquares S x y beta) :
    IsLeastSquares S x (fun s => c * y s) fun k => c * beta k := by
  intro beta'
  have h1 := h fun k => beta' k / c
  have e1 : ∀ s, (c * y s - ∑ k, x k s * (c * beta k)) ^ 2 = c ^ 2 * (y s - ∑ k, x k s * beta k) ^ 2 := by
    intro s
    have : ∑ k, x k s * (c * beta k) = c * ∑ k, x k s * beta k := by
      rw [Finset.mul_sum]
      exact Finset.sum_congr rfl fun k _ => by ring
    rw [this]
    ring
  have e2 : ∀ s, (c * y s - ∑ k, x k s * beta' k) ^ 2 = c ^ 2 * (y s - ∑ k, x k s * (beta' k / c)) ^ 2 := by
    intro s
    have : ∑ k, x k s * beta' k = c * ∑ k, x k s * (beta' k / c) := by
      rw [Finset.mul_sum]
      refine Finset.sum_congr rfl fun k _ => ?_
      field_simp
    rw [this]
    ring
  simp only [e1, e2, ← Finset.mul_sum]
  exact mul_le_mul_of_nonneg_left h1 (sq_nonneg c)

theorem leastSquares_congr {n b : Nat} {S S' : Finset (Fin n)} {x x' : Fin b → Fin n → ℝ} {y y' : Fin n → ℝ} {beta : Fin b → ℝ} (hS : S' = S) (hx : x' = x) (hy : y' = y)
    (h : IsLeastSquares S x y beta) : IsLeastSquares S' x' y' beta := by
  subst hS hx hy
  exact h

/-- A policy stays one if all payoffs are multiplied by the same positive number. -/
theorem policy_scale {n b : Nat} {last : Nat} {payoff payoff' factor factor' : Nat → Fin n → ℝ} {basis basis' : Nat → Fin b → Fin n → ℝ} {cal : Finset (Fin n)}
    {tau : Nat → Fin n → Nat} (c : ℝ) (hc : 0 < c) (hp : ∀ j ≤ last, ∀ s, payoff' j s = c * payoff j s) (hf : ∀ j ≤ last, ∀ s, factor' j s = factor j s)
    (hb : ∀ j < last, basis' j = basis j) (h : IsLsmPolicy last payoff factor basis cal tau) : IsLsmPolicy last payoff' factor' basis' cal tau := by
  refine ⟨h.1, fun j hj => ?_⟩
  obtain ⟨beta, h1, h2⟩ := h.2 j hj
  refine ⟨fun k => c * beta k, ?_, fun s => ?_⟩
  · refine leastSquares_congr ?_ (hb j hj) ?_ (leastSquares_scale c hc h1)
    · refine Finset.filter_congr fun s _ => ?_
      rw [hp j hj.le]
      exact ⟨fun h => by by_contra h'; push Not at h'; nlinarith, fun h => mul_pos hc h⟩
    · funext s
      have := policy_range' h (j + 1) (by omega) s
      rw [hf _ this, hf j hj.le, hp _ this]
      ring
  · rw [h2 s]
    have e : ∑ k, basis' j k s * (c * beta k) = c * ∑ k, basis j k s * beta k := by
      rw [hb j hj, Finset.mul_sum]
      exact Finset.sum_congr rfl fun k _ => by ring
    rw [e, hp j hj.le]
    have : (payoff j s > max (∑ k, basis j k s * beta k) 0) ↔ (c * payoff j s > max (c * ∑ k, basis j k s * beta k) 0) := by
      rw [show max (c * ∑ k, basis j k s * beta k) 0 = c * max (∑ k, basis j k s * beta k) 0 by rw [mul_max_of_nonneg _ _ hc.le, mul_zero]]
      exact (mul_lt_mul_iff_right₀ hc).symm
    simp only [this]

theorem times_get (a : AmArgs) (i : Nat) (h : i < a.numExerciseTimes) (h2 : 2 ≤ a.numExerciseTimes) : a.times.getD i 0 * a.expiryTime = equalTime a.expiryTime a.numExerciseTimes i := by
  unfold AmArgs.times equalTime
  rw [List.getD_eq_getElem?_getD, linspace_get _ _ _ _ h, Option.getD_some, show max (a.numExerciseTimes - 1) 1 = a.numExerciseTimes - 1 by omega]
  ring

end PlatformAmerican
open PlatformAmerican

/-- **C110.** The rescaled samples are those of the Black-Scholes model with the volatility and the rate of the discount factor, for the initial price one, at the time `t T`
with the Brownian motion `√T w`. -/
theorem C110_sample (a : AmArgs) (hT : 0 ≤ a.expiryTime) (t w : ℝ) :
    a.rescale t (Real.exp (-t / 2 + w)) = blackScholesPath 1 a.rate a.volatility (t * a.expiryTime) (Real.sqrt a.expiryTime * w) := by
  unfold AmArgs.rescale blackScholesPath AmArgs.scaledExpiry
  dsimp only
  rw [one_mul, one_mul, ← Real.exp_add, Real.rpow_def_of_pos (Real.exp_pos _), Real.log_exp, ← Real.exp_add, ← Real.exp_add]
  congr 1
  ring

/-- **C110.** The discount factors of the exercise times go from one to the discount factor of the expiry. -/
theorem C110_discount (a : AmArgs) (hT : 0 < a.expiryTime) (hD : 0 < a.discountFactor) :
    Real.exp (-a.rate * 0 * a.expiryTime) = 1 ∧ Real.exp (-a.rate * 1 * a.expiryTime) = a.discountFactor := by
  constructor
  · simp
  · have : -a.rate * 1 * a.expiryTime = Real.log a.discountFactor := by
      unfold AmArgs.rate
      field_simp
    rw [this, Real.exp_log hD]

/-- **C110.** The discounted samples have the mean one: the model is free of arbitrage. -/
theorem C110_martingale (a : AmArgs) (hT : 0 ≤ a.expiryTime) (t : ℝ) (ht : 0 ≤ t) :
    normalExpectation 0 (Real.sqrt t) (fun w => Real.exp (-a.rate * t * a.expiryTime) * a.rescale t (Real.exp (-t / 2 + w))) = 1 := by
  simp only [C110_sample a hT]
  unfold blackScholesPath
  rw [normalExpectation_std _ _ (fun w => Real.exp (-a.rate * t * a.expiryTime) * (1 * Real.exp ((a.rate - a.volatility ^ 2 / 2) * (t * a.expiryTime) + a.volatility * (Real.sqrt a.expiryTime * w))))
    (by fun_prop)]
  refine Eq.trans ?_ (lognormal_mean 1 (a.volatility * Real.sqrt a.expiryTime * Real.sqrt t))
  congr 1
  funext z
  rw [one_mul, one_mul, ← Real.exp_add]
  congr 2
  have h1 := Real.sq_sqrt hT
  have h2 := Real.sq_sqrt ht
  have e : (a.volatility * Real.sqrt a.expiryTime * Real.sqrt t) ^ 2 = a.volatility ^ 2 * a.expiryTime * t := by
    rw [mul_pow, mul_pow, h1, h2]
  rw [e]
  ring

/-- **C110.** The price is the mean, over the paths of the Black-Scholes model, of the discounted payoffs under an exercise policy of Longstaff and Schwartz for these payoffs. -/
theorem C110_price {n b : Nat} (a : AmArgs) (hT : 0 < a.expiryTime) (hS : 0 < a.spot) (hn : 2 ≤ a.numExerciseTimes)
    (basis : (Fin a.numExerciseTimes → Fin n → ℝ) → Nat → Fin b → Fin n → ℝ) (pinv : Matrix (Fin b) (Fin b) ℝ → Matrix (Fin b) (Fin b) ℝ) (hp : ∀ A, A * pinv A * A = A)
    (w : Nat → Fin n → ℝ) :
    ∃ tau : Nat → Fin n → Nat,
      IsLsmPolicy (a.numExerciseTimes - 1)
        (fun j s => vanillaPayoff a.isCall a.strike (blackScholesPath a.spot a.rate a.volatility (equalTime a.expiryTime a.numExerciseTimes j) (Real.sqrt a.expiryTime * w j s)))
        (fun j _ => Real.exp (-a.rate * equalTime a.expiryTime a.numExerciseTimes j))
        (basis fun i s => (a.rate - a.volatility ^ 2 / 2) * equalTime a.expiryTime a.numExerciseTimes i + a.volatility * (Real.sqrt a.expiryTime * w i s))
        (a.lsmInput basis pinv w).calibration tau ∧
      (∀ s, tau 0 s ≤ a.numExerciseTimes - 1) ∧
      a.price basis pinv w = (∑ s ∈ (a.lsmInput basis pinv w).pricing, Real.exp (-a.rate * equalTime a.expiryTime a.numExerciseTimes (tau 0 s)) *
        vanillaPayoff a.isCall a.strike (blackScholesPath a.spot a.rate a.volatility (equalTime a.expiryTime a.numExerciseTimes (tau 0 s)) (Real.sqrt a.expiryTime * w (tau 0 s) s))) /
          ((a.lsmInput basis pinv w).pricing.card : ℝ) := by
  obtain ⟨num, hnum⟩ : ∃ num, num = a.numExerciseTimes := ⟨_, rfl⟩
  have hlen : a.times.length = a.numExerciseTimes := linspace_length _ _ _
  have hN : (a.lsmInput basis pinv w).numTimes = a.numExerciseTimes := by simp [LsmInput.numTimes, AmArgs.lsmInput, hlen]
  have hpad : ∀ i, i < a.numExerciseTimes → ∀ s, (a.lsmInput basis pinv w).padded (i + 1) s = Real.exp (-a.rate * equalTime a.expiryTime a.numExerciseTimes i) := by
    intro i hi s
    unfold LsmInput.padded
    rw [List.getD_cons_succ]
    show (a.times.map fun t (_ : Fin n) => Real.exp (-a.rate * t * a.expiryTime)).getD i (fun _ => 0) s = _
    rw [List.getD_eq_getElem?_getD, List.getElem?_map, List.getElem?_eq_getElem (by omega), Option.map_some, Option.getD_some, ← times_get a i hi hn,
      List.getD_eq_getElem _ _ (by omega)]
    ring_nf
  have hex : ∀ i, i < a.numExerciseTimes → ∀ s, (a.lsmInput basis pinv w).exerciseValue i s = a.payoff w i s := by
    intro i hi s
    unfold LsmInput.exerciseValue
    show a.payoff w ((List.range a.times.length).getD i 0) s = _
    rw [List.getD_eq_getElem?_getD, List.getElem?_range (by omega), Option.getD_some]
  have hsample : ∀ i, i < a.numExerciseTimes → ∀ s, a.samples w i s =
      blackScholesPath 1 a.rate a.volatility (equalTime a.expiryTime a.numExerciseTimes i) (Real.sqrt a.expiryTime * w i s) := by
    intro i hi s
    rw [← times_get a i hi hn]
    exact C110_sample a hT.le _ _
  have hpay : ∀ i, i < a.numExerciseTimes → ∀ s,
      vanillaPayoff a.isCall a.strike (blackScholesPath a.spot a.rate a.volatility (equalTime a.expiryTime a.numExerciseTimes i) (Real.sqrt a.expiryTime * w i s)) =
        a.spot * a.payoff w i s := by
    intro i hi s
    unfold AmArgs.payoff vanillaPayoff AmArgs.scaledStrike
    dsimp only
    rw [hsample i hi s]
    unfold blackScholesPath
    generalize Real.exp _ = E
    split
    · rw [mul_max_of_nonneg _ _ hS.le, mul_zero]
      congr 1
      field_simp
      ring
    · rw [mul_max_of_nonneg _ _ hS.le, mul_zero]
      congr 1
      field_simp
  obtain ⟨tau, h1, h2⟩ := C57_price (a.lsmInput basis pinv w) hp (by
    intro i s hi
    cases i with
    | zero => simp [LsmInput.padded]
    | succ i =>
      rw [hpad i (by omega)]
      exact (Real.exp_pos _).ne') (by omega) (by
    show _ ≤ a.times.length + 1
    omega)
  rw [hN] at h1
  have hr := fun s => policy_range' h1 0 (Nat.zero_le _) s
  refine ⟨tau, ?_, hr, ?_⟩
  · refine policy_scale a.spot hS ?_ ?_ ?_ h1
    · intro j hj s
      rw [hex j (by omega)]
      exact hpay j (by omega) s
    · intro j hj s
      rw [hpad j (by omega)]
    · intro j hj
      unfold LsmInput.design
      show _ = basis (fun (i : Fin a.numExerciseTimes) s => Real.log (a.samples w i.val s)) ((List.range a.times.length).getD j 0)
      rw [List.getD_eq_getElem?_getD, List.getElem?_range (by omega), Option.getD_some]
      congr 1
      funext i s
      rw [hsample i.val i.isLt s]
      unfold blackScholesPath
      rw [one_mul, Real.log_exp]
  · unfold AmArgs.price
    rw [h2, div_mul_eq_mul_div, Finset.sum_mul]
    congr 1
    refine Finset.sum_congr rfl fun s _ => ?_
    have := hr s
    rw [hpad _ (by omega), hex _ (by omega), hpay _ (by omega)]
    ring

/-- The default basis at one time: the powers of the centred logarithms. -/
theorem defaultBasis_eq (num n : Nat) (x : Fin num → Fin n → ℝ) (i : Fin num) (k : Fin 3) (s : Fin n) :
    AmArgs.defaultBasis num n x i.val k s = (x i s - (∑ r, x i r) / n) ^ k.val := by
  unfold AmArgs.defaultBasis
  rw [dif_pos i.isLt]
  have hp : basisPowers 2 1 = [[0], [1], [2]] := by decide
  have hm : (List.range 1).map (fun d => ((List.ofFn fun s => [x i s]).map (fun y => y.getD d 0)).sum / ((List.ofFn fun s => [x i s]).length : ℝ)) = [(∑ r, x i r) / n] := by
    simp [List.map_ofFn, List.sum_ofFn, Function.comp_def]
  unfold polynomialBasis
  dsimp only
  rw [show (⟨i.val, i.isLt⟩ : Fin num) = i from rfl, hm, hp]
  have hk : k = 0 ∨ k = 1 ∨ k = 2 := by omega
  rcases hk with rfl | rfl | rfl <;>
    simp [List.map_ofFn, Function.comp_def, List.getD_eq_getElem?_getD]

theorem vanillaPayoff_nonneg (c : Bool) (K S : ℝ) : 0 ≤ vanillaPayoff c K S := by
  unfold vanillaPayoff
  split <;> exact le_max_right _ _

/-- A constant that fits best is the mean. -/
theorem mean_of_leastSquares {n : Nat} (hn : 0 < n) (y : Fin n → ℝ) (c : ℝ) (h : ∀ c' : ℝ, ∑ s, (y s - c) ^ 2 ≤ ∑ s, (y s - c') ^ 2) : c = (∑ s, y s) / n := by
  have hn' : (0 : ℝ) < n := by exact_mod_cast hn
  obtain ⟨m, hm⟩ : ∃ m, m = (∑ s, y s) / (n : ℝ) := ⟨_, rfl⟩
  rw [← hm]
  have hsum : ∑ s, y s = n * m := by
    rw [hm]
    field_simp
  have expand : ∀ c : ℝ, ∑ s, (y s - c) ^ 2 = ∑ s, y s ^ 2 - 2 * c * ∑ s, y s + n * c ^ 2 := by
    intro c
    have : ∀ s, (y s - c) ^ 2 = y s ^ 2 - 2 * c * y s + c ^ 2 := fun s => by ring
    simp only [this, Finset.sum_add_distrib, Finset.sum_sub_distrib, ← Finset.mul_sum, Finset.sum_const, Finset.card_univ, Fintype.card_fin, nsmul_eq_mul]
  have h1 := h m
  rw [expand, expand, hsum] at h1
  have h2 : (n : ℝ) * (c - m) ^ 2 ≤ 0 := by nlinarith
  have h3 : (c - m) ^ 2 ≤ 0 := by
    by_contra hh
    push Not at hh
    nlinarith
  have h4 : c - m = 0 := by
    have := sq_nonneg (c - m)
    exact pow_eq_zero_iff (two_ne_zero) |>.1 (le_antisymm h3 this)
  linarith

/-- **C110.** With the default basis and without separate calibration samples the price is at least the value of immediate exercise. -/
theorem C110_immediate {n : Nat} (a : AmArgs) (hT : 0 < a.expiryTime) (hS : 0 < a.spot) (hn : 2 ≤ a.numExerciseTimes) (hs : 0 < n) (hcal : a.numCalibration = none)
    (pinv : Matrix (Fin 3) (Fin 3) ℝ → Matrix (Fin 3) (Fin 3) ℝ) (hp : ∀ A, A * pinv A * A = A) (w : Nat → Fin n → ℝ) (hw : ∀ s, w 0 s = 0) :
    vanillaPayoff a.isCall a.strike a.spot ≤ a.price (AmArgs.defaultBasis a.numExerciseTimes n) pinv w := by
  obtain ⟨tau, h1, h2, h3⟩ := C110_price a hT hS hn (AmArgs.defaultBasis a.numExerciseTimes n) pinv hp w
  have hn' : (0 : ℝ) < n := by exact_mod_cast hs
  obtain ⟨beta, hl, ht⟩ := h1.2 0 (by omega)
  have hall : (a.lsmInput (AmArgs.defaultBasis a.numExerciseTimes n) pinv w).calibration = Finset.univ ∧
      (a.lsmInput (AmArgs.defaultBasis a.numExerciseTimes n) pinv w).pricing = Finset.univ := by
    simp [LsmInput.calibration, LsmInput.pricing, AmArgs.lsmInput, hcal]
  rw [hall.1] at hl
  rw [hall.2, Finset.card_univ, Fintype.card_fin] at h3
  have ht0 : equalTime a.expiryTime a.numExerciseTimes 0 = 0 := by simp [equalTime]
  have hc : ∀ s, vanillaPayoff a.isCall a.strike (blackScholesPath a.spot a.rate a.volatility (equalTime a.expiryTime a.numExerciseTimes 0) (Real.sqrt a.expiryTime * w 0 s)) =
      vanillaPayoff a.isCall a.strike a.spot := by
    intro s
    rw [ht0, hw s]
    simp [blackScholesPath]
  obtain ⟨c, hcdef⟩ : ∃ c, c = vanillaPayoff a.isCall a.strike a.spot := ⟨_, rfl⟩
  have hb : ∀ (beta : Fin 3 → ℝ) (s : Fin n), ∑ k, AmArgs.defaultBasis a.numExerciseTimes n
      (fun i s => (a.rate - a.volatility ^ 2 / 2) * equalTime a.expiryTime a.numExerciseTimes i + a.volatility * (Real.sqrt a.expiryTime * w i s)) 0 k s * beta k = beta 0 := by
    intro beta s
    have h0 : 0 < a.numExerciseTimes := by omega
    have e := fun k => defaultBasis_eq a.numExerciseTimes n
      (fun i s => (a.rate - a.volatility ^ 2 / 2) * equalTime a.expiryTime a.numExerciseTimes i + a.volatility * (Real.sqrt a.expiryTime * w i s)) ⟨0, h0⟩ k s
    have z : (fun (i : Fin a.numExerciseTimes) (s : Fin n) => (a.rate - a.volatility ^ 2 / 2) * equalTime a.expiryTime a.numExerciseTimes i +
        a.volatility * (Real.sqrt a.expiryTime * w i s)) ⟨0, h0⟩ = fun _ => 0 := by
      funext r
      show (a.rate - a.volatility ^ 2 / 2) * equalTime a.expiryTime a.numExerciseTimes 0 + a.volatility * (Real.sqrt a.expiryTime * w 0 r) = 0
      rw [ht0, hw r]
      ring
    simp only [z] at e
    rw [Fin.sum_univ_three, e, e, e, ht0, hw s]
    simp
  have hc' : ∀ s, vanillaPayoff a.isCall a.strike (blackScholesPath a.spot a.rate a.volatility 0 (Real.sqrt a.expiryTime * w 0 s)) = c := by
    intro s
    rw [← ht0, hc s, hcdef]
  simp only [hb, ht0, hc', mul_zero, Real.exp_zero, div_one] at ht hl
  rw [← hcdef]
  have hc0 : 0 ≤ c := by
    rw [hcdef]
    exact vanillaPayoff_nonneg _ _ _
  by_cases hx : c > max (beta 0) 0
  · have : ∀ s, tau 0 s = 0 := by
      intro s
      rw [ht s, if_pos hx]
    rw [h3]
    simp only [this, ht0, hc', mul_zero, Real.exp_zero, one_mul, Finset.sum_const, Finset.card_univ, Fintype.card_fin, nsmul_eq_mul]
    rw [mul_div_cancel_left₀ _ hn'.ne']
  · have htau : ∀ s, tau 0 s = tau 1 s := by
      intro s
      rw [ht s, if_neg hx]
    rw [h3]
    simp only [htau]
    rcases hc0.lt_or_eq with hpos | hzero
    · have hfil : (Finset.univ.filter fun _ : Fin n => c > 0) = Finset.univ := by
        simp [hpos]
      rw [hfil] at hl
      have hm := mean_of_leastSquares hs _ (beta 0) (fun c' => by
        have := hl fun k => if k = 0 then c' else 0
        simp only [hb] at this
        simpa using this)
      have hle : c ≤ beta 0 := by
        push Not at hx
        rcases le_max_iff.1 hx with h | h
        · exact h
        · exact absurd h (not_le.2 hpos)
      rw [hm] at hle
      simpa only [neg_mul] using hle
    · rw [← hzero]
      refine div_nonneg (Finset.sum_nonneg fun s _ => mul_nonneg (Real.exp_pos _).le (vanillaPayoff_nonneg _ _ _)) hn'.le

/-- **C110.** The value of a position: positive for the holder, who is marked short, and negative for the other side. -/
theorem C110_position (amount price : ℝ) : amPosition true amount price = amount * price ∧ amPosition false amount price = -(amount * price) := by
  simp [amPosition]

/-- Volatility one half and four years: the Brownian motion 2 becomes 4. -/
example : (⟨100, 4, 90, 1 / 2, 1, false, 5, none⟩ : AmArgs).rescale 1 (Real.exp (-1 / 2 + 2)) = Real.exp (3 / 2) := by
  rw [C110_sample _ (by norm_num)]
  have h : Real.sqrt 4 = 2 := by
    rw [show (4 : ℝ) = 2 ^ 2 by norm_num]
    exact Real.sqrt_sq (by norm_num)
  simp only [blackScholesPath, AmArgs.rate, h]
  rw [Real.log_one, one_mul]
  norm_num

/-- A put on 2 of an asset worth 1, without regressors, is exercised at once. -/
example : (⟨1, 1, 2, 0, 1, false, 2, none⟩ : AmArgs).price (n := 1) (b := 0) (fun _ _ k _ => k.elim0) (fun A => A) (fun _ _ => 0) = 1 := by
  obtain ⟨tau, h1, h2, h3⟩ := C110_price (n := 1) (b := 0) (⟨1, 1, 2, 0, 1, false, 2, none⟩ : AmArgs) (by norm_num) (by norm_num) (by norm_num)
    (fun _ _ k _ => k.elim0) (fun A => A) (fun A => Subsingleton.elim _ _) (fun _ _ => 0)
  obtain ⟨beta, -, ht⟩ := h1.2 0 (by norm_num)
  have h0 : tau 0 0 = 0 := by
    rw [ht 0]
    refine if_pos ?_
    norm_num [vanillaPayoff, blackScholesPath, AmArgs.rate]
  rw [h3]
  have hp : ((⟨1, 1, 2, 0, 1, false, 2, none⟩ : AmArgs).lsmInput (n := 1) (b := 0) (fun _ _ k _ => k.elim0) (fun A => A) (fun _ _ => 0)).pricing = {0} := by
    simp [LsmInput.pricing, AmArgs.lsmInput]
  rw [hp]
  simp only [Finset.sum_singleton, h0]
  norm_num [vanillaPayoff, blackScholesPath, AmArgs.rate]

/-! ## Volatility surfaces -/

/-- **C110.** Dates are turned into times by the day count convention, actual/365 if there is none; both or neither are refused. -/
theorem C110_surface (s : VolSurface) (strike : ℝ) :
    (∀ d t, ∃ e, s.volatility strike (some d) (some t) = .error e) ∧ (∃ e, s.volatility strike none none = .error e) ∧
    (∀ f, getDaycountFn ℝ (s.daycount.getD .ACTUAL_365) = .ok f →
      (∀ t, s.volatility strike none (some t) = .ok (s.interpolate f t strike)) ∧
      ∀ d, s.volatility strike (some d) none = s.volatility strike none (some (f s.valuation d))) := by
  unfold VolSurface.volatility VolSurface.daycountFn
  refine ⟨fun d t => ?_, ?_, fun f hf => ?_⟩
  · cases getDaycountFn ℝ (s.daycount.getD .ACTUAL_365) with
    | error e => exact ⟨e, rfl⟩
    | ok f => exact ⟨_, rfl⟩
  · cases getDaycountFn ℝ (s.daycount.getD .ACTUAL_365) with
    | error e => exact ⟨e, rfl⟩
    | ok f => exact ⟨_, rfl⟩
  · rw [hf]
    exact ⟨fun t => rfl, fun d => rfl⟩

/-- **C110.** Without an interpolator the surface goes through its nodes. -/
theorem C110_surface_nodes (s : VolSurface) (hi : s.interpolator = none) (f : DateT → DateT → ℝ) (hf : getDaycountFn ℝ (s.daycount.getD .ACTUAL_365) = .ok f)
    (h : ValidData (s.expiries.map fun d => f s.valuation d) s.strikes s.volatilities) (i j : Nat) (d : DateT) (ks vs : List ℝ) (k v : ℝ) (hd : s.expiries[i]? = some d)
    (hks : s.strikes[i]? = some ks) (hvs : s.volatilities[i]? = some vs) (hk : ks[j]? = some k) (hv : vs[j]? = some v) : s.volatility k (some d) none = .ok (some v) := by
  obtain ⟨h1, h2⟩ := (C110_surface s k).2.2 f hf
  rw [h2 d, h1]
  unfold VolSurface.interpolate
  rw [hi]
  exact congrArg Except.ok (C81_knots _ _ _ h i j _ k v ks vs (by rw [List.getElem?_map, hd]; rfl) hks hvs hk hv)

/-- **Deviation.** An interpolator is documented to take the strikes and the expiry times, in this order; it is called with the times first. -/
theorem C110_interpolator_deviates (s : VolSurface) (g : ℝ → ℝ → Option ℝ) (hi : s.interpolator = some g) (f : DateT → DateT → ℝ)
    (hf : getDaycountFn ℝ (s.daycount.getD .ACTUAL_365) = .ok f) (strike t : ℝ) : s.volatility strike none (some t) = .ok (g t strike) := by
  rw [((C110_surface s strike).2.2 f hf).1]
  unfold VolSurface.interpolate
  rw [hi]

/-! ## Market data -/

theorem riskFree_unique (cs : List String) :
    ((processCurveTypes (fun c => c.key.1) (cs.map CurveType.riskFree)).1).map (fun c => c.key.1) = npUnique cs := by
  have hmap : (cs.map CurveType.riskFree).map (fun c => c.key.1) = cs := by
    rw [List.map_map]
    exact List.map_id _
  unfold processCurveTypes
  dsimp only
  rw [hmap]
  have key : ∀ l : List String, (∀ s ∈ l, s ∈ cs) →
      (l.filterMap (fun s => (cs.map CurveType.riskFree).reverse.find? (fun c => decide (c.key.1 = s)))).map (fun c => c.key.1) = l := by
    intro l
    induction l with
    | nil => intro _; rfl
    | cons s l ih =>
      intro h
      obtain ⟨c, hc, _, hs⟩ := find_sig (fun c : CurveType => c.key.1) (cs.map CurveType.riskFree) s (by rw [hmap]; exact h s (by simp))
      rw [List.filterMap_cons_some (f := fun s => (cs.map CurveType.riskFree).reverse.find? (fun c => decide (c.key.1 = s))) hc, List.map_cons, hs,
        ih (fun s hs => h s (by simp [hs]))]
  exact key _ (fun s hs => (npUnique_mem cs s).1 hs)

/-- **C110.** If currencies and equities have the same order in the sorted lists of those that occur, the lookup gives every option the data of its currency and equity. -/
theorem C110_market_partial {D : Type} (market : String → String → Option D) (cs es : List String) (data : List D) (hm : (createMask cs).1 = (createMask es).1)
    (hd : ∀ (i : Nat) (c e : String), cs[i]? = some c → es[i]? = some e → ∃ d, market c e = some d ∧ data[i]? = some d) (hl : data.length = es.length) :
    amMarketData market cs es = .ok data := by
  obtain ⟨-, c2, c3, c4⟩ := C88_mask cs
  obtain ⟨-, e2, e3, e4⟩ := C88_mask es
  have hlen : cs.length = es.length := by rw [← c3, ← e3, hm]
  unfold amMarketData
  dsimp only
  rw [riskFree_unique]
  have hnd : (npUnique cs).Nodup := (npUnique_sorted cs).imp fun h => ne_of_lt h
  obtain ⟨rows, hr, hrl, hrg⟩ := ShapeUtils.mapM_rel (fun p : String × String => match market p.1 p.2 with | some d => .ok d | none => (.error "No data for asset" : Except String D))
    (fun p d => market p.1 p.2 = some d) (List.zip (npUnique cs) (createMask es).2) (by
      intro p hp
      obtain ⟨k, hk⟩ := List.mem_iff_getElem?.1 hp
      rw [List.getElem?_zip_eq_some] at hk
      obtain ⟨i, hi⟩ := List.mem_iff_getElem?.1 ((npUnique_mem cs p.1).1 (List.mem_of_getElem? hk.1))
      obtain ⟨k', h1, h2⟩ := c4 i p.1 hi
      have hkk : k' = k := by
        obtain ⟨l1, g1⟩ := List.getElem?_eq_some_iff.1 h2
        obtain ⟨l2, g2⟩ := List.getElem?_eq_some_iff.1 hk.1
        exact (List.Nodup.getElem_inj_iff hnd).1 (g1.trans g2.symm)
      subst hkk
      obtain ⟨li, -⟩ := List.getElem?_eq_some_iff.1 hi
      obtain ⟨k'', h3, h4⟩ := e4 i (es[i]'(by omega)) (List.getElem?_eq_getElem _)
      rw [← hm, h1, Option.some.injEq] at h3
      subst h3
      rw [hk.2, Option.some.injEq] at h4
      obtain ⟨d, hd1, -⟩ := hd i p.1 p.2 hi (by rw [h4]; exact List.getElem?_eq_getElem _)
      exact ⟨d, by rw [hd1], hd1⟩)
  have hr' : marketRows market (npUnique cs) (createMask es).2 = .ok rows := hr
  rw [hr']
  show gatherRows rows (createMask es).1 = .ok data
  unfold gatherRows
  obtain ⟨out, ho, hol, hog⟩ := ShapeUtils.mapM_rel (fun i : Nat => match rows[i]? with | some r => .ok r | none => (.error "index out of range" : Except String D))
    (fun i d => rows[i]? = some d) (createMask es).1 (by
      intro k hk
      obtain ⟨i, hi⟩ := List.mem_iff_getElem?.1 hk
      obtain ⟨li, -⟩ := List.getElem?_eq_some_iff.1 hi
      obtain ⟨k1, h1, h2⟩ := c4 i (cs[i]'(by omega)) (List.getElem?_eq_getElem _)
      obtain ⟨k2, h3, h4⟩ := e4 i (es[i]'(by omega)) (List.getElem?_eq_getElem _)
      rw [hm, hi, Option.some.injEq] at h1
      rw [hi, Option.some.injEq] at h3
      subst h1 h3
      obtain ⟨d, hd1, -⟩ := hrg k (cs[i]'(by omega), es[i]'(by omega)) (List.getElem?_zip_eq_some.2 ⟨h2, h4⟩)
      exact ⟨d, by rw [hd1], hd1⟩)
  refine ho.trans (congrArg Except.ok (List.ext_getElem? fun i => ?_))
  by_cases hi : i < es.length
  · obtain ⟨k1, h1, h2⟩ := c4 i (cs[i]'(by omega)) (List.getElem?_eq_getElem _)
    obtain ⟨k2, h3, h4⟩ := e4 i (es[i]'(by omega)) (List.getElem?_eq_getElem _)
    rw [hm, h3, Option.some.injEq] at h1
    subst h1
    obtain ⟨d, hd1, hd2⟩ := hrg k2 (cs[i]'(by omega), es[i]'(by omega)) (List.getElem?_zip_eq_some.2 ⟨h2, h4⟩)
    obtain ⟨b, hb1, hb2⟩ := hog i k2 h3
    obtain ⟨d', hd'1, hd'2⟩ := hd i _ _ (List.getElem?_eq_getElem (by omega)) (List.getElem?_eq_getElem hi)
    rw [hb1, hd'2, ← hd'1, ← hb2, hd1, hd2]
  · rw [List.getElem?_eq_none (by omega), List.getElem?_eq_none (by omega)]

/-- **Deviation.** The lists of the currencies and of the equities that occur, both sorted, are joined pair by pair. If there are more equities than currencies, as for two
equities in the same currency, no price is computed. -/
theorem C110_market_fails {D : Type} (market : String → String → Option D) (cs es : List String) (h : (npUnique cs).length < (npUnique es).length) :
    ∃ e, amMarketData market cs es = .error e := by
  unfold amMarketData
  dsimp only
  rw [riskFree_unique]
  cases hr : marketRows market (npUnique cs) (createMask es).2 with
  | error e => exact ⟨e, rfl⟩
  | ok rows =>
    show ∃ e, gatherRows rows (createMask es).1 = .error e
    have hl := (mapM_except_ok _ _ _ hr).1
    cases hg : gatherRows rows (createMask es).1 with
    | error e => exact ⟨e, rfl⟩
    | ok out =>
      exfalso
      obtain ⟨gl, gg⟩ := mapM_except_ok _ _ _ hg
      have hle : rows.length ≤ (npUnique cs).length := by
        rw [hl, List.length_zip]
        exact Nat.min_le_left _ _
      obtain ⟨a, ha⟩ : ∃ a, (npUnique es)[(npUnique cs).length]? = some a := ⟨_, List.getElem?_eq_getElem h⟩
      obtain ⟨i, hi⟩ := List.mem_iff_getElem?.1 ((npUnique_mem es a).1 (List.mem_of_getElem? ha))
      have hnd : (npUnique es).Nodup := (npUnique_sorted es).imp fun h => ne_of_lt h
      obtain ⟨k, hk1, hk2⟩ := (C88_mask es).2.2.2 i a hi
      have hkk : k = (npUnique cs).length := by
        obtain ⟨l1, g1⟩ := List.getElem?_eq_some_iff.1 hk2
        obtain ⟨l2, g2⟩ := List.getElem?_eq_some_iff.1 ha
        exact (List.Nodup.getElem_inj_iff hnd).1 (g1.trans g2.symm)
      obtain ⟨li, -⟩ := List.getElem?_eq_some_iff.1 hk1
      have := gg i k _ hk1 (List.getElem?_eq_getElem (by omega))
      rw [List.getElem?_eq_none (by omega)] at this
      cases this

/-- **Deviation.** Two options, on A in dollars and on B in euros, are priced with A in euros and B in dollars. -/
theorem C110_market_deviates :
    (amMarketData (fun c e => if c = "USD" ∧ e = "A" then some 1 else if c = "EUR" ∧ e = "B" then some 2 else if c = "EUR" ∧ e = "A" then some 3 else some 4)
      ["USD", "EUR"] ["A", "B"]).toOption = some [3, 4] ∧
    (amMarketData (fun c e => if c = "USD" ∧ e = "A" then some 1 else if c = "EUR" ∧ e = "B" then some 2 else none) ["USD", "EUR"] ["A", "B"]).toOption = none := by
  decide +kernel

/-- One currency and one equity; two of both in the same order. -/
example : (amMarketData (fun c e => if c = "USD" ∧ e = "A" then some 1 else none) ["USD", "USD"] ["A", "A"]).toOption = some [1, 1] ∧
    (amMarketData (fun c e => if c = "USD" ∧ e = "B" then some 1 else if c = "EUR" ∧ e = "A" then some 2 else none) ["USD", "EUR", "USD"] ["B", "A", "B"]).toOption =
      some [1, 2, 1] := by
  decide +kernel

/-- **Deviation.** The arguments for the constructor made from protocol buffers have each currency and each equity once, and the constructor refuses them if these are not
equally many, although it takes the three options themselves. -/
theorem C110_arguments_deviates :
    amCheck ["USD", "USD", "EUR"] ["A", "B", "C"] = .ok () ∧ amTensorRepr ["USD", "USD", "EUR"] ["A", "B", "C"] = (["EUR", "USD"], ["A", "B", "C"]) ∧
    ∃ e, amCheck (amTensorRepr ["USD", "USD", "EUR"] ["A", "B", "C"]).1 (amTensorRepr ["USD", "USD", "EUR"] ["A", "B", "C"]).2 = .error e := by
  have h : amTensorRepr ["USD", "USD", "EUR"] ["A", "B", "C"] = (["EUR", "USD"], ["A", "B", "C"]) := by decide +kernel
  refine ⟨by simp [amCheck], h, ?_⟩
  rw [h]
  exact ⟨"Number of currencies and equities should be the same", by simp [amCheck]⟩

/-! ## Batches -/

/-- A batch has the terms of its options, in order. -/
def IsAmBatch {K : Type} (ps : List (AmProto K)) (b : AmBatch K) : Prop :=
  b.short = ps.map (fun p => p.short) ∧ b.currency = ps.map (fun p => p.currency) ∧ b.expiry = ps.map (fun p => p.expiry) ∧ b.equity = ps.map (fun p => p.equity) ∧
  b.contractAmount = ps.map (fun p => p.contractAmount) ∧ b.strike = ps.map (fun p => p.strike) ∧ b.isCall = ps.map (fun p => p.isCall) ∧
  b.settlementDays = ps.map (fun p => p.settlementDays) ∧ b.names = ps.map (fun p => (p.id, p.instrumentType)) ∧ ∀ p ∈ ps, p.rule = b.rule ∧ p.holidays = b.calendar

/-- **C110.** Batches from protocol buffers: every option is in the batch of its key, and every batch has the terms of its options, in order. -/
theorem C110_batches {K : Type} (l : List (AmProto K)) :
    ∃ d, amFromProtos l = .ok d ∧ (d.map Prod.fst).Nodup ∧ (∀ k, k ∈ d.map Prod.fst ↔ ∃ p ∈ l, amKey p = k) ∧
      ∀ k b, (k, b) ∈ d → IsAmBatch (l.filter (fun p => decide (amKey p = k))) b := by
  obtain ⟨v1, v2, v3⟩ := value_injective
  obtain ⟨d, h1, h2, h3, h4⟩ := grouping_loop (amKey (K := K)) amEntry (fun b e => .ok (b.update e)) IsAmBatch
    (by
      intro p
      refine ⟨rfl, rfl, rfl, rfl, rfl, rfl, rfl, rfl, rfl, ?_⟩
      intro q hq
      rw [List.mem_singleton.1 hq]
      exact ⟨rfl, rfl⟩)
    (by
      rintro ps b p hne ⟨a1, a2, a3, a4, a5, a6, a7, a8, a9, a10⟩ hk
      refine ⟨_, rfl, by simp [AmBatch.update, amEntry, a1], by simp [AmBatch.update, amEntry, a2], by simp [AmBatch.update, amEntry, a3],
        by simp [AmBatch.update, amEntry, a4], by simp [AmBatch.update, amEntry, a5], by simp [AmBatch.update, amEntry, a6], by simp [AmBatch.update, amEntry, a7],
        by simp [AmBatch.update, amEntry, a8], by simp [AmBatch.update, amEntry, a9], ?_⟩
      intro q hq
      rcases List.mem_append.1 hq with hq | hq
      · exact a10 q hq
      · rw [List.mem_singleton.1 hq]
        obtain ⟨q0, hq0⟩ := List.exists_mem_of_ne_nil ps hne
        have hk0 := hk q0 hq0
        simp only [amKey, List.cons.injEq, and_true] at hk0
        obtain ⟨c1, c2⟩ := a10 q0 hq0
        exact ⟨(v2 _ _ hk0.2).symm.trans c1, hk0.1.symm.trans c2⟩) l
  exact ⟨d, h1, h2, h3, h4⟩

/-- **C110.** `group_protos` puts the same options together. -/
theorem C110_groups {K : Type} (l : List (AmProto K)) :
    ∃ d, groupProtos amKey l = .ok d ∧ (d.map Prod.fst).Nodup ∧ (∀ k, k ∈ d.map Prod.fst ↔ ∃ p ∈ l, amKey p = k) ∧
      ∀ k ps, (k, ps) ∈ d → ps = l.filter (fun p => decide (amKey p = k)) ∧ ps ≠ [] := C90_groups amKey l

end Props
