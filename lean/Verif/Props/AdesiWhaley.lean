import Verif.Props.AmericanApprox
import Verif.Props.Newton
import Mathlib.Analysis.Calculus.Deriv.MeanValue

/-!
# Property theorems C77: the Barone-Adesi-Whaley approximation of American options
-/

namespace Lemmas
open Model Spec

theorem sign_sq (c : Bool) : awSign c ^ 2 = 1 := by cases c <;> simp [awSign]

/-- Black-Scholes price of a European option. -/
noncomputable def euro (sigma x t r d : ℝ) (c : Bool) (s : ℝ) : ℝ :=
  awSign c * (s * Real.exp (-d * t) * normalCdf (awSign c * awD1 s x sigma (r - d) t) -
    x * Real.exp (-r * t) * normalCdf (awSign c * (awD1 s x sigma (r - d) t - sigma * Real.sqrt t)))

theorem awD1_eq (s x sigma b t : ℝ) (hs : 0 < s) (hx : 0 < x) (hsig : 0 < sigma) (ht : 0 < t) :
    awD1 s x sigma b t = (Real.log (s * Real.exp (b * t)) - Real.log x) / (sigma * Real.sqrt t) + sigma * Real.sqrt t / 2 := by
  unfold awD1
  have hq : 0 < Real.sqrt t := Real.sqrt_pos.2 ht
  have hqq : t = Real.sqrt t ^ 2 := (Real.sq_sqrt ht.le).symm
  rw [Real.log_div hs.ne' hx.ne', Real.log_mul hs.ne' (Real.exp_pos _).ne', Real.log_exp]
  generalize Real.sqrt t = q at hq hqq
  rw [hqq]
  field_simp
  ring

theorem amEuropean_euro (sigma x t s r d : ℝ) (c : Bool) (hs : 0 < s) (hx : 0 < x) (hsig : 0 < sigma) (ht : 0 < t) :
    amEuropean sigma x t s r d (some c) = .ok (euro sigma x t r d c s) := by
  have hv : sigma * Real.sqrt t > 0 := mul_pos hsig (Real.sqrt_pos.2 ht)
  have hd1 := awD1_eq s x sigma (r - d) t hs hx hsig ht
  have hF : 0 < s * Real.exp ((r - d) * t) := mul_pos hs (Real.exp_pos _)
  unfold amEuropean optionPrice
  change Except.ok (Real.exp (-r * t) * (if c = true then
      (if sigma * Real.sqrt t > 0 then s * Real.exp ((r - d) * t) *
        ncdf (Real.log (s * Real.exp ((r - d) * t) / x) / (sigma * Real.sqrt t) + sigma * Real.sqrt t / 2) -
        x * ncdf (Real.log (s * Real.exp ((r - d) * t) / x) / (sigma * Real.sqrt t) + sigma * Real.sqrt t / 2 - sigma * Real.sqrt t)
      else max (s * Real.exp ((r - d) * t) - x) 0) else
      (if sigma * Real.sqrt t > 0 then s * Real.exp ((r - d) * t) *
        ncdf (Real.log (s * Real.exp ((r - d) * t) / x) / (sigma * Real.sqrt t) + sigma * Real.sqrt t / 2) -
        x * ncdf (Real.log (s * Real.exp ((r - d) * t) / x) / (sigma * Real.sqrt t) + sigma * Real.sqrt t / 2 - sigma * Real.sqrt t)
      else max (s * Real.exp ((r - d) * t) - x) 0) - (s * Real.exp ((r - d) * t) - x))) = _
  rw [if_pos hv, Real.log_div hF.ne' hx.ne', ← hd1, ncdf_eq, ncdf_eq]
  have e : Real.exp ((r - d) * t) = Real.exp (-d * t) / Real.exp (-r * t) := by rw [← Real.exp_sub]; congr 1; ring
  have hp := (Real.exp_pos (-r * t)).ne'
  unfold euro
  rw [e]
  cases c with
  | true =>
    simp only [if_true, awSign, one_mul]
    congr 1
    field_simp
  | false =>
    simp only [Bool.false_eq_true, if_false, awSign]
    rw [show (-1 : ℝ) * awD1 s x sigma (r - d) t = -awD1 s x sigma (r - d) t by ring,
      show (-1 : ℝ) * (awD1 s x sigma (r - d) t - sigma * Real.sqrt t) = -(awD1 s x sigma (r - d) t - sigma * Real.sqrt t) by ring,
      normalCdf_neg, normalCdf_neg]
    congr 1
    field_simp
    ring

theorem awD1_hasDerivAt (x sigma b t s : ℝ) (hs : 0 < s) (hx : 0 < x) :
    HasDerivAt (fun s => awD1 s x sigma b t) (1 / (sigma * Real.sqrt t) / s) s := by
  unfold awD1
  have h1 : HasDerivAt (fun s => s / x) (1 / x) s := (hasDerivAt_id s).div_const x
  have h2 := (h1.log (div_pos hs hx).ne').add_const ((b + sigma ^ 2 / 2) * t)
  have h3 := h2.div_const (sigma * Real.sqrt t)
  refine h3.congr_deriv ?_
  field_simp

theorem euro_hasDerivAt (sigma x t r d : ℝ) (c : Bool) (s : ℝ) (hs : 0 < s) (hx : 0 < x) (hsig : 0 < sigma) (ht : 0 < t) :
    HasDerivAt (euro sigma x t r d c) (awSign c * Real.exp (-d * t) * normalCdf (awSign c * awD1 s x sigma (r - d) t)) s := by
  have h1 := awD1_hasDerivAt x sigma (r - d) t s hs hx
  have h2 := (normalCdf_hasDerivAt _).comp s (h1.const_mul (awSign c))
  have h3 := (normalCdf_hasDerivAt _).comp s ((h1.sub_const (sigma * Real.sqrt t)).const_mul (awSign c))
  have h4 := ((((hasDerivAt_id s).mul_const (Real.exp (-d * t))).mul h2).sub (h3.const_mul (x * Real.exp (-r * t)))).const_mul (awSign c)
  have hden : s * Real.exp (-d * t) * phi (awSign c * awD1 s x sigma (r - d) t) =
      x * Real.exp (-r * t) * phi (awSign c * (awD1 s x sigma (r - d) t - sigma * Real.sqrt t)) := by
    have hb := black_density (s * Real.exp ((r - d) * t)) x (sigma * Real.sqrt t) (mul_pos hs (Real.exp_pos _)) hx
      (mul_pos hsig (Real.sqrt_pos.2 ht)).ne'
    rw [← awD1_eq s x sigma (r - d) t hs hx hsig ht] at hb
    have e : Real.exp ((r - d) * t) = Real.exp (-d * t) / Real.exp (-r * t) := by rw [← Real.exp_sub]; congr 1; ring
    have hp := (Real.exp_pos (-r * t)).ne'
    have hphi : ∀ y, phi (awSign c * y) = phi y := by
      intro y
      cases c
      · simp only [awSign, Bool.false_eq_true, if_false, neg_mul, one_mul, phi_neg]
      · simp [awSign]
    rw [hphi, hphi]
    rw [e] at hb
    field_simp at hb
    simp only [neg_mul]
    linear_combination -hb
  refine h4.congr_deriv ?_
  simp only [id, Function.comp]
  linear_combination awSign c * awSign c * (1 / (sigma * Real.sqrt t) / s) * hden

end Lemmas

namespace Props
open Model Spec Lemmas Filter Topology

/-! ## The exponent -/

theorem rate_ratio_pos (r t : ℝ) (hr : r ≠ 0) (ht : 0 < t) : 0 < r / (1 - Real.exp (-r * t)) := by
  rcases lt_or_gt_of_ne hr with h | h
  · have : 1 < Real.exp (-r * t) := Real.one_lt_exp_iff.2 (by nlinarith)
    exact div_pos_of_neg_of_neg h (by linarith)
  · have : Real.exp (-r * t) < 1 := Real.exp_lt_one_iff.2 (by nlinarith)
    exact div_pos h (by linarith)

/-- C77: the exponent is the root, positive for calls and negative for puts, of the quadratic of the approximation
`q^2 + (n - 1) q - m / k = 0`, with `m = 2 r / sigma^2`, `n = 2 (r - d) / sigma^2`, `k = 1 - exp(-r t)`. For a call with nonnegative
dividend rate it is larger than one. -/
theorem C77_exponent (sigma t r d : ℝ) (c : Bool) (hsig : 0 < sigma) (hr : r ≠ 0) (ht : 0 < t) :
    let q := awExponent sigma t r d (awSign c)
    q ^ 2 + (2 * (r - d) / sigma ^ 2 - 1) * q - 2 * r / sigma ^ 2 / (1 - Real.exp (-r * t)) = 0 ∧ 0 < awSign c * q ∧
      (c = true → 0 ≤ d → 1 < q) := by
  intro q
  have hk := rate_ratio_pos r t hr ht
  set R := r / (1 - Real.exp (-r * t)) with hR
  have h2 : 0 < sigma ^ 2 := by positivity
  have e1 : 4 * (2 * r / sigma ^ 2) / (1 - Real.exp (-r * t)) = 8 * R / sigma ^ 2 := by rw [hR]; ring
  have e2 : 2 * r / sigma ^ 2 / (1 - Real.exp (-r * t)) = 2 * R / sigma ^ 2 := by rw [hR]; ring
  have hq : q = ((1 - 2 * (r - d) / sigma ^ 2) + awSign c * Real.sqrt ((2 * (r - d) / sigma ^ 2 - 1) ^ 2 + 8 * R / sigma ^ 2)) / 2 := by
    simp only [q, awExponent, awQ, e1]
  rw [e2, hq]
  set n := 2 * (r - d) / sigma ^ 2 with hn
  have hM : 0 < 8 * R / sigma ^ 2 := by positivity
  have hD : 0 ≤ (n - 1) ^ 2 + 8 * R / sigma ^ 2 := by positivity
  have hsq := Real.sq_sqrt hD
  have hlt : |n - 1| < Real.sqrt ((n - 1) ^ 2 + 8 * R / sigma ^ 2) := by
    rw [← Real.sqrt_sq_eq_abs]
    exact Real.sqrt_lt_sqrt (sq_nonneg _) (by linarith)
  have hsg := sign_sq c
  have hM2 : 8 * R / sigma ^ 2 = 4 * (2 * R / sigma ^ 2) := by ring
  refine ⟨?_, ?_, ?_⟩
  · generalize Real.sqrt ((n - 1) ^ 2 + 8 * R / sigma ^ 2) = w at hsq
    rw [hM2] at hsq
    linear_combination (1 / 4 : ℝ) * hsq + (w ^ 2 / 4) * hsg
  · generalize Real.sqrt ((n - 1) ^ 2 + 8 * R / sigma ^ 2) = w at hlt
    have := abs_lt.1 hlt
    cases c
    · simp only [awSign, Bool.false_eq_true, if_false]
      linarith [this.1, this.2]
    · simp only [awSign, if_true]
      linarith [this.1, this.2]
  · intro hc hd
    subst hc
    simp only [awSign, if_true, one_mul]
    have hgt : n + 1 < Real.sqrt ((n - 1) ^ 2 + 8 * R / sigma ^ 2) := by
      refine Real.lt_sqrt_of_sq_lt ?_
      have : n / 2 < 2 * R / sigma ^ 2 / 2 := by
        have hrR : r < R := by
          rw [hR]
          rcases lt_or_gt_of_ne hr with h | h
          · linarith
          · have h1 : Real.exp (-r * t) < 1 := Real.exp_lt_one_iff.2 (by nlinarith)
            have h0 := Real.exp_pos (-r * t)
            rw [lt_div_iff₀ (by linarith)]
            nlinarith
        have : n < 2 * R / sigma ^ 2 := by
          rw [hn]
          refine div_lt_div_of_pos_right ?_ h2
          linarith
        linarith
      rw [hM2]
      nlinarith
    linarith

/-! ## The critical price -/

/-- The continuation value. -/
noncomputable def holdValue (sigma x t r d : ℝ) (c : Bool) (sc s : ℝ) : ℝ :=
  euro sigma x t r d c s + awCoefficient sigma x t r d (awSign c) sc * (s / sc) ^ awExponent sigma t r d (awSign c)

theorem awContinuation_eq (sigma x t r d : ℝ) (c : Bool) (sc s : ℝ) (hs : 0 < s) (hx : 0 < x) (hsig : 0 < sigma) (ht : 0 < t) :
    awContinuation sigma x t r d c sc s = .ok (holdValue sigma x t r d c sc s) := by
  unfold awContinuation
  rw [amEuropean_euro sigma x t s r d c hs hx hsig ht]
  rfl

/-- C77, value matching: at the critical price, holding the option is worth more than exercising it by the value of the function whose
root is searched. -/
theorem C77_value_matching (sigma x t r d : ℝ) (c : Bool) (sc : ℝ) (hs : 0 < sc) (hx : 0 < x) (hsig : 0 < sigma) (ht : 0 < t) :
    ∃ hold gap, awContinuation sigma x t r d c sc sc = .ok hold ∧ awValue sigma x t r d c sc = .ok gap ∧
      hold - awSign c * (sc - x) = gap := by
  refine ⟨_, _, awContinuation_eq sigma x t r d c sc sc hs hx hsig ht, ?_, rfl⟩
  unfold awValue
  rw [amEuropean_euro sigma x t sc r d c hs hx hsig ht]
  change Except.ok _ = Except.ok _
  unfold holdValue awCoefficient
  rw [div_self hs.ne', Real.one_rpow]
  congr 1
  ring

theorem hold_hasDerivAt (sigma x t r d : ℝ) (c : Bool) (sc s : ℝ) (hsc : 0 < sc) (hs : 0 < s) (hx : 0 < x) (hsig : 0 < sigma) (ht : 0 < t)
    (hq : awExponent sigma t r d (awSign c) ≠ 0) :
    HasDerivAt (holdValue sigma x t r d c sc) (awSign c * Real.exp (-d * t) * normalCdf (awSign c * awD1 s x sigma (r - d) t) +
      awSign c * (1 - Real.exp (-d * t) * normalCdf (awSign c * awD1 sc x sigma (r - d) t)) *
        (s / sc) ^ (awExponent sigma t r d (awSign c) - 1)) s := by
  have h1 := euro_hasDerivAt sigma x t r d c s hs hx hsig ht
  have h2 : HasDerivAt (fun s => s / sc) (1 / sc) s := (hasDerivAt_id s).div_const sc
  have h3 := (h2.rpow_const (p := awExponent sigma t r d (awSign c)) (Or.inl (div_pos hs hsc).ne')).const_mul
    (awCoefficient sigma x t r d (awSign c) sc)
  refine (h1.add h3).congr_deriv ?_
  unfold awCoefficient
  rw [ncdf_eq]
  field_simp

/-- C77, smooth pasting: for every critical price the slope of the value of holding the option is that of the exercise value there. -/
theorem C77_smooth_pasting (sigma x t r d : ℝ) (c : Bool) (sc : ℝ) (hs : 0 < sc) (hx : 0 < x) (hsig : 0 < sigma) (ht : 0 < t) (hr : r ≠ 0) :
    HasDerivAt (fun s => ((awContinuation sigma x t r d c sc s).toOption).getD 0) (awSign c) sc := by
  have hq : awExponent sigma t r d (awSign c) ≠ 0 := by
    intro h
    have := (C77_exponent sigma t r d c hsig hr ht).2.1
    rw [h] at this
    simp at this
  have h := hold_hasDerivAt sigma x t r d c sc sc hs hs hx hsig ht hq
  rw [div_self hs.ne', Real.one_rpow] at h
  have h2 : HasDerivAt (holdValue sigma x t r d c sc) (awSign c) sc := h.congr_deriv (by ring)
  refine h2.congr_of_eventuallyEq ?_
  filter_upwards [Ioi_mem_nhds hs] with s hs'
  rw [awContinuation_eq sigma x t r d c sc s hs' hx hsig ht]
  rfl

/-- C77: the early exercise premium solves the equation of the approximation, `sigma^2 s^2 / 2 A'' + (r - d) s A' = r / k A`. -/
theorem C77_premium_equation (sigma x t r d : ℝ) (c : Bool) (sc s : ℝ) (hsc : 0 < sc) (hs : 0 < s) (hsig : 0 < sigma) (ht : 0 < t)
    (hr : r ≠ 0) :
    ∃ (A' : ℝ → ℝ) (A'' : ℝ),
      (∀ y > 0, HasDerivAt (fun s => awCoefficient sigma x t r d (awSign c) sc * (s / sc) ^ awExponent sigma t r d (awSign c)) (A' y) y) ∧
      HasDerivAt A' A'' s ∧ sigma ^ 2 * s ^ 2 / 2 * A'' + (r - d) * s * A' s =
        r / (1 - Real.exp (-r * t)) * (awCoefficient sigma x t r d (awSign c) sc * (s / sc) ^ awExponent sigma t r d (awSign c)) := by
  have hroot := (C77_exponent sigma t r d c hsig hr ht).1
  generalize awExponent sigma t r d (awSign c) = q at hroot
  generalize awCoefficient sigma x t r d (awSign c) sc = A
  have hd : ∀ y > 0, ∀ p, HasDerivAt (fun s => (s / sc) ^ p) (p / sc * (y / sc) ^ (p - 1)) y := by
    intro y hy p
    have h2 : HasDerivAt (fun s => s / sc) (1 / sc) y := (hasDerivAt_id y).div_const sc
    refine (h2.rpow_const (p := p) (Or.inl (div_pos hy hsc).ne')).congr_deriv ?_
    ring
  refine ⟨fun y => A * (q / sc * (y / sc) ^ (q - 1)), A * (q / sc * ((q - 1) / sc * (s / sc) ^ (q - 1 - 1))),
    fun y hy => (hd y hy q).const_mul A, ((hd s hs (q - 1)).const_mul (q / sc)).const_mul A, ?_⟩
  have hp := div_pos hs hsc
  beta_reduce
  rw [Real.rpow_sub_one hp.ne' (q - 1), Real.rpow_sub_one hp.ne' q]
  have e2 : 2 * r / sigma ^ 2 / (1 - Real.exp (-r * t)) = 2 * (r / (1 - Real.exp (-r * t))) / sigma ^ 2 := by ring
  rw [e2] at hroot
  generalize r / (1 - Real.exp (-r * t)) = R at hroot
  generalize (s / sc) ^ q = S
  field_simp at hroot ⊢
  linear_combination (A * S) * hroot

theorem discountedDelta_le (d t y : ℝ) (hd : 0 ≤ d) (ht : 0 < t) : Real.exp (-d * t) * normalCdf y ≤ 1 := by
  have h1 : Real.exp (-d * t) ≤ 1 := Real.exp_le_one_iff.2 (by nlinarith)
  have h2 := normalCdf_lt_one y
  have h3 := normalCdf_pos y
  have h4 := Real.exp_pos (-d * t)
  nlinarith

/-- C77: with a nonnegative dividend rate the early exercise premium is not negative: the option is worth at least the European option
where it is held. -/
theorem C77_premium_nonneg (sigma x t r d : ℝ) (c : Bool) (sc s : ℝ) (hsc : 0 < sc) (hs : 0 < s) (hx : 0 < x) (hsig : 0 < sigma) (ht : 0 < t)
    (hr : r ≠ 0) (hd : 0 ≤ d) :
    ∃ eu hold, amEuropean sigma x t s r d (some c) = .ok eu ∧ awContinuation sigma x t r d c sc s = .ok hold ∧ eu ≤ hold := by
  refine ⟨_, _, amEuropean_euro sigma x t s r d c hs hx hsig ht, awContinuation_eq sigma x t r d c sc s hs hx hsig ht, ?_⟩
  unfold holdValue
  have hq := (C77_exponent sigma t r d c hsig hr ht).2.1
  have hp := Real.rpow_pos_of_pos (div_pos hs hsc) (awExponent sigma t r d (awSign c))
  refine le_add_of_nonneg_right (mul_nonneg ?_ hp.le)
  unfold awCoefficient
  rw [ncdf_eq]
  have h1 := discountedDelta_le d t (awSign c * awD1 sc x sigma (r - d) t) hd ht
  refine mul_nonneg ?_ (by linarith)
  have e : awSign c * (sc / awExponent sigma t r d (awSign c)) = sc * (awSign c ^ 2) / (awSign c * awExponent sigma t r d (awSign c)) := by
    have h0 : awExponent sigma t r d (awSign c) ≠ 0 := by intro h; rw [h] at hq; simp at hq
    have h1 : awSign c ≠ 0 := by intro h; rw [h] at hq; simp at hq
    field_simp
  rw [e, sign_sq]
  positivity

/-- C77: where it is held, the option is worth at least its exercise value plus the gap left at the critical price by the root search. -/
theorem C77_at_least_exercise (sigma x t r d : ℝ) (c : Bool) (sc s : ℝ) (hsc : 0 < sc) (hs : 0 < s) (hx : 0 < x) (hsig : 0 < sigma) (ht : 0 < t)
    (hr : r ≠ 0) (hd : 0 ≤ d) (hheld : if c then s ≤ sc else sc ≤ s) :
    ∃ hold gap, awContinuation sigma x t r d c sc s = .ok hold ∧ awValue sigma x t r d c sc = .ok gap ∧ awSign c * (s - x) + gap ≤ hold := by
  obtain ⟨hold, gap, h1, h2, h3⟩ := C77_value_matching sigma x t r d c sc hsc hx hsig ht
  rw [awContinuation_eq sigma x t r d c sc sc hsc hx hsig ht] at h1
  cases h1
  refine ⟨_, gap, awContinuation_eq sigma x t r d c sc s hs hx hsig ht, h2, ?_⟩
  rw [← h3]
  obtain ⟨_, hq, hq1⟩ := C77_exponent sigma t r d c hsig hr ht
  have hq0 : awExponent sigma t r d (awSign c) ≠ 0 := by intro h; rw [h] at hq; simp at hq
  set g : ℝ → ℝ := fun y => holdValue sigma x t r d c sc y - awSign c * (y - x) with hg
  have hder : ∀ y, 0 < y → HasDerivAt g (awSign c * Real.exp (-d * t) * normalCdf (awSign c * awD1 y x sigma (r - d) t) +
      awSign c * (1 - Real.exp (-d * t) * normalCdf (awSign c * awD1 sc x sigma (r - d) t)) *
        (y / sc) ^ (awExponent sigma t r d (awSign c) - 1) - awSign c * 1) y := fun y hy =>
    (hold_hasDerivAt sigma x t r d c sc y hsc hy hx hsig ht hq0).sub (((hasDerivAt_id y).sub_const x).const_mul (awSign c))
  suffices g sc ≤ g s by
    simp only [hg] at this
    linarith
  have hmono : ∀ y, 0 < y → ∀ z, y ≤ z → awD1 y x sigma (r - d) t ≤ awD1 z x sigma (r - d) t := by
    intro y hy z hyz
    unfold awD1
    have := Real.log_le_log (div_pos hy hx) (div_le_div_of_nonneg_right hyz hx.le)
    have hv : 0 ≤ sigma * Real.sqrt t := by positivity
    exact div_le_div_of_nonneg_right (by linarith) hv
  have hE := Real.exp_pos (-d * t)
  cases c with
  | true =>
    have hle : s ≤ sc := by simpa using hheld
    have hq' := hq1 rfl hd
    have hanti : AntitoneOn g (Set.Icc s sc) := by
      refine antitoneOn_of_deriv_nonpos (convex_Icc _ _) ?_ ?_ ?_
      · exact fun y hy => (hder y (by linarith [hy.1])).continuousAt.continuousWithinAt
      · rw [interior_Icc]
        exact fun y hy => (hder y (by linarith [hy.1])).differentiableAt.differentiableWithinAt
      · rw [interior_Icc]
        intro y hy
        have hy0 : 0 < y := by linarith [hy.1]
        rw [(hder y hy0).deriv]
        simp only [awSign, if_true, one_mul, mul_one] at hq' ⊢
        have b1 : normalCdf (awD1 y x sigma (r - d) t) ≤ normalCdf (awD1 sc x sigma (r - d) t) :=
          normalCdf_strictMono.monotone (hmono y hy0 sc hy.2.le)
        have b2 : (y / sc) ^ (awExponent sigma t r d 1 - 1) ≤ 1 :=
          Real.rpow_le_one (div_pos hy0 hsc).le ((div_le_one hsc).2 hy.2.le) (by linarith)
        have b3 := discountedDelta_le d t (awD1 sc x sigma (r - d) t) hd ht
        nlinarith
    exact hanti (Set.left_mem_Icc.2 hle) (Set.right_mem_Icc.2 hle) hle
  | false =>
    have hle : sc ≤ s := by simpa using hheld
    have hmonoG : MonotoneOn g (Set.Icc sc s) := by
      refine monotoneOn_of_deriv_nonneg (convex_Icc _ _) ?_ ?_ ?_
      · exact fun y hy => (hder y (by linarith [hy.1])).continuousAt.continuousWithinAt
      · rw [interior_Icc]
        exact fun y hy => (hder y (by linarith [hy.1])).differentiableAt.differentiableWithinAt
      · rw [interior_Icc]
        intro y hy
        have hy0 : 0 < y := by linarith [hy.1]
        rw [(hder y hy0).deriv]
        simp only [awSign, Bool.false_eq_true, if_false] at hq ⊢
        have b1 : normalCdf (-1 * awD1 y x sigma (r - d) t) ≤ normalCdf (-1 * awD1 sc x sigma (r - d) t) :=
          normalCdf_strictMono.monotone (by linarith [hmono sc hsc y hy.1.le])
        have b2 : (y / sc) ^ (awExponent sigma t r d (-1) - 1) ≤ 1 :=
          Real.rpow_le_one_of_one_le_of_nonpos ((one_le_div hsc).2 hy.1.le) (by linarith)
        have b3 := discountedDelta_le d t (-1 * awD1 sc x sigma (r - d) t) hd ht
        nlinarith
    exact hmonoG (Set.left_mem_Icc.2 hle) (Set.right_mem_Icc.2 hle) hle

/-! ## Prices -/

theorem awValue_hasDerivAt (sigma x t r d : ℝ) (c : Bool) (s : ℝ) (hs : 0 < s) (hx : 0 < x) (hsig : 0 < sigma) (ht : 0 < t) :
    ∃ gap slope, awValue sigma x t r d c s = .ok gap ∧
      HasDerivAt (fun s => ((awValue sigma x t r d c s).toOption).getD 0) slope s := by
  have hv : ∀ y, 0 < y → awValue sigma x t r d c y = .ok (euro sigma x t r d c y +
      awSign c * (1 - Real.exp (-d * t) * normalCdf (awSign c * awD1 y x sigma (r - d) t)) * (y / awExponent sigma t r d (awSign c)) -
      awSign c * (y - x)) := by
    intro y hy
    unfold awValue
    rw [amEuropean_euro sigma x t y r d c hy hx hsig ht]
    dsimp only
    rw [← ncdf_eq]
    rfl
  have h1 := (normalCdf_hasDerivAt _).comp s ((awD1_hasDerivAt x sigma (r - d) t s hs hx).const_mul (awSign c))
  have h2 := ((((h1.const_mul (Real.exp (-d * t))).const_sub 1).const_mul (awSign c)).mul
    ((hasDerivAt_id s).div_const (awExponent sigma t r d (awSign c))))
  have h3 := ((euro_hasDerivAt sigma x t r d c s hs hx hsig ht).add h2).sub (((hasDerivAt_id s).sub_const x).const_mul (awSign c))
  refine ⟨_, _, hv s hs, h3.congr_of_eventuallyEq ?_⟩
  filter_upwards [Ioi_mem_nhds hs] with y hy
  rw [hv y hy]
  rfl

/-- C77: a price reported as converged comes from a positive critical price at which the gap between holding and exercising is within the
tolerance of the root search (divided by its slope); the option is held on the right side of it. -/
theorem C77_converged (a : BsArgs) (N : Nat) (rel tol p : ℝ) (failed : Bool) (hx : 0 < a.strike) (hsig : 0 < a.volatility) (ht : 0 < a.expiry)
    (hn : ¬ (a.isCall.getD true = true ∧ a.dividendRate.getD 0 ≤ 0)) (h : adesiWhaley a N rel tol = .ok (p, true, failed)) :
    failed = false ∧ ∃ sc gap slope, 0 < sc ∧
      awValue a.volatility a.strike a.expiry (amRate a) (a.dividendRate.getD 0) (a.isCall.getD true) sc = .ok gap ∧
      HasDerivAt (fun s => ((awValue a.volatility a.strike a.expiry (amRate a) (a.dividendRate.getD 0) (a.isCall.getD true) s).toOption).getD 0)
        slope sc ∧ slope ≠ 0 ∧ |gap / slope| < rel * |gap| + tol ∧
      if (if a.isCall.getD true = true then amSpot a < sc else sc < amSpot a) then
        awContinuation a.volatility a.strike a.expiry (amRate a) (a.dividendRate.getD 0) (a.isCall.getD true) sc (amSpot a) = .ok p
      else p = awSign (a.isCall.getD true) * (amSpot a - a.strike) := by
  unfold adesiWhaley at h
  cases hc : bsCheck a with
  | error e => rw [hc] at h; cases h
  | ok u =>
    rw [hc] at h
    dsimp only at h
    generalize hcell : awCritical a.volatility a.strike a.expiry (amRate a) (a.dividendRate.getD 0) (a.isCall.getD true) rel tol N = cell at h
    change (do
      let american ← awSelect a.volatility a.strike a.expiry (amRate a) (a.dividendRate.getD 0) (a.isCall.getD true) cell.parameter (amSpot a)
      let european ← amEuropean a.volatility a.strike a.expiry (amSpot a) (amRate a) (a.dividendRate.getD 0) none
      return (if (a.isCall.getD true && decide (a.dividendRate.getD 0 ≤ 0)) = true then european else american,
        if (a.isCall.getD true && decide (a.dividendRate.getD 0 ≤ 0)) = true then true else cell.converged,
        if (a.isCall.getD true && decide (a.dividendRate.getD 0 ≤ 0)) = true then false else cell.failed) : Except String (ℝ × Bool × Bool)) = _ at h
    have hn' : ¬ ((a.isCall.getD true && decide (a.dividendRate.getD 0 ≤ 0)) = true) := by
      rw [Bool.and_eq_true, decide_eq_true_eq]; exact hn
    generalize a.isCall.getD true = c at *
    generalize a.dividendRate.getD 0 = d at *
    generalize amRate a = r at *
    generalize amSpot a = s at *
    cases ham : awSelect a.volatility a.strike a.expiry r d c cell.parameter s with
    | error e => rw [ham] at h; cases h
    | ok american =>
      rw [ham] at h
      cases heu : amEuropean a.volatility a.strike a.expiry s r d none with
      | error e => rw [heu] at h; cases h
      | ok european =>
        rw [heu] at h
        change Except.ok _ = Except.ok _ at h
        rw [if_neg hn', if_neg hn', if_neg hn'] at h
        injection h with h
        injection h with h1 h
        injection h with h2 h3
        subst h1
        subst h3
        obtain ⟨cell', e1, _, e3⟩ := C29_converged rel tol N [awValueAndGrad a.volatility a.strike a.expiry r d c]
          [some (awSeed a.volatility a.strike a.expiry r d c)] rfl 0 _ _ rfl rfl
        have hcc : cell' = cell := by
          rw [← hcell]
          unfold awCritical
          rw [e1]
          rfl
        subst hcc
        obtain ⟨f1, _, sc, _, f3, _, ⟨gap, slope, f5, f6, f7⟩, _⟩ := e3 h2
        refine ⟨f1, sc, gap, slope, ?_⟩
        unfold awValueAndGrad at f5
        by_cases hsc : 0 < sc
        · rw [if_pos hsc, Prod.mk.injEq, Option.some.injEq, Option.some.injEq] at f5
          obtain ⟨gap', slope', g1, g2⟩ := awValue_hasDerivAt a.volatility a.strike a.expiry r d c sc hsc hx hsig ht
          have hgap : gap = gap' := by rw [← f5.1, g1]; rfl
          have hslope : slope = slope' := by rw [← f5.2]; exact g2.deriv
          subst hgap hslope
          refine ⟨hsc, g1, g2, f6, f7, ?_⟩
          rw [f3] at ham
          unfold awSelect awPrice at ham
          simp only at ham
          cases hcon : awContinuation a.volatility a.strike a.expiry r d c sc s with
          | error e => rw [hcon] at ham; cases ham
          | ok hold =>
            rw [hcon] at ham
            change Except.ok _ = Except.ok _ at ham
            rw [if_pos ht] at ham
            injection ham with ham
            simp only [gt_iff_lt] at ham
            cases c <;> simp only [if_true, Bool.false_eq_true, if_false] at ham ⊢ <;> split at ham <;> rename_i hh <;>
              simp only [hh, if_true, if_false] <;> rw [← ham] <;> ring
        · rw [if_neg hsc] at f5
          cases f5

/-- C77: with a dividend rate that is not positive a call is priced as the European call, and reported as converged. -/
theorem C77_european (a : BsArgs) (N : Nat) (rel tol : ℝ) (h : ValidArgs a) (hdf : a.discountFactor.isSome = true → a.expiry ≠ 0)
    (hcall : a.isCall.getD true = true) (hd : a.dividendRate.getD 0 ≤ 0) :
    ∃ p, optionPrice { a with isCall := some true, isNormal := false } = .ok p ∧ adesiWhaley a N rel tol = .ok (p, true, false) := by
  have hE : ∀ x y z w u v c, ∃ p, amEuropean x y z w u v c = .ok p := by
    intro x y z w u v c
    unfold amEuropean
    cases hp : optionPrice { volatility := x, strike := y, expiry := z, spot := some w, discountRate := some u, dividendRate := some v, isCall := c } with
    | ok p => exact ⟨p, rfl⟩
    | error e =>
      have := (C31_rejects _).1 ⟨e, hp⟩
      simp at this
  have h' : ValidArgs { a with isCall := none, isNormal := false } := ⟨h.one, h.atMostOne, h.volatility, h.expiry, h.factor⟩
  have e := amEuropean_eq { a with isCall := none, isNormal := false } h' hdf rfl
  change amEuropean a.volatility a.strike a.expiry (amSpot a) (amRate a) (a.dividendRate.getD 0) none = _ at e
  have e2 : optionPrice { a with isCall := none, isNormal := false } = optionPrice { a with isCall := some true, isNormal := false } := by
    unfold optionPrice
    rfl
  obtain ⟨p, hp⟩ := hE a.volatility a.strike a.expiry (amSpot a) (amRate a) (a.dividendRate.getD 0) none
  refine ⟨p, by rw [← e2, ← e, hp], ?_⟩
  have hs : ∀ c o s, ∃ q, awSelect a.volatility a.strike a.expiry (amRate a) (a.dividendRate.getD 0) c o s = .ok q := by
    intro c o s
    cases o with
    | none => exact ⟨_, rfl⟩
    | some sc =>
      unfold awSelect awPrice awContinuation
      obtain ⟨q, hq⟩ := hE a.volatility a.strike a.expiry s (amRate a) (a.dividendRate.getD 0) (some c)
      simp only
      rw [hq]
      exact ⟨_, rfl⟩
  unfold adesiWhaley
  rw [bsCheck_ok a h]
  obtain ⟨q, hq⟩ := hs (a.isCall.getD true) (awCritical a.volatility a.strike a.expiry (amRate a) (a.dividendRate.getD 0) (a.isCall.getD true) rel tol N).parameter (amSpot a)
  change (do
      let american ← awSelect a.volatility a.strike a.expiry (amRate a) (a.dividendRate.getD 0) (a.isCall.getD true) (awCritical a.volatility a.strike a.expiry (amRate a) (a.dividendRate.getD 0) (a.isCall.getD true) rel tol N).parameter (amSpot a)
      let european ← amEuropean a.volatility a.strike a.expiry (amSpot a) (amRate a) (a.dividendRate.getD 0) none
      return (if (a.isCall.getD true && decide (a.dividendRate.getD 0 ≤ 0)) = true then european else american,
        if (a.isCall.getD true && decide (a.dividendRate.getD 0 ≤ 0)) = true then true else _,
        if (a.isCall.getD true && decide (a.dividendRate.getD 0 ≤ 0)) = true then false else _) : Except String (ℝ × Bool × Bool)) = _
  rw [hq, hp]
  have hb : (a.isCall.getD true && decide (a.dividendRate.getD 0 ≤ 0)) = true := by
    rw [Bool.and_eq_true, decide_eq_true_eq]; exact ⟨hcall, hd⟩
  change Except.ok _ = Except.ok _
  rw [if_pos hb, if_pos hb, if_pos hb]

/-- C77: the arguments are rejected exactly when both or neither of spot and forward, or both rate and factor are given. -/
theorem C77_rejects (a : BsArgs) (N : Nat) (rel tol : ℝ) :
    (∃ e, adesiWhaley a N rel tol = .error e) ↔
      (a.spot.isSome = a.forward.isSome ∨ (a.discountRate.isSome = true ∧ a.discountFactor.isSome = true)) := by
  have hE : ∀ x y z w u v c, ∃ p, amEuropean x y z w u v c = .ok p := by
    intro x y z w u v c
    unfold amEuropean
    cases hp : optionPrice { volatility := x, strike := y, expiry := z, spot := some w, discountRate := some u, dividendRate := some v, isCall := c } with
    | ok p => exact ⟨p, rfl⟩
    | error e =>
      have := (C31_rejects _).1 ⟨e, hp⟩
      simp at this
  have hs : ∀ c o s, ∃ q, awSelect a.volatility a.strike a.expiry (amRate a) (a.dividendRate.getD 0) c o s = .ok q := by
    intro c o s
    cases o with
    | none => exact ⟨_, rfl⟩
    | some sc =>
      unfold awSelect awPrice awContinuation
      obtain ⟨q, hq⟩ := hE a.volatility a.strike a.expiry s (amRate a) (a.dividendRate.getD 0) (some c)
      simp only
      rw [hq]
      exact ⟨_, rfl⟩
  have hchk : (∃ e, bsCheck a = .error e) ↔
      (a.spot.isSome = a.forward.isSome ∨ (a.discountRate.isSome = true ∧ a.discountFactor.isSome = true)) := by
    unfold bsCheck
    rcases a.spot with _ | s <;> rcases a.forward with _ | f <;> rcases a.discountRate with _ | r <;>
      rcases a.discountFactor with _ | df <;> simp
  rw [← hchk]
  unfold adesiWhaley
  cases hc : bsCheck a with
  | error e => exact ⟨fun _ => ⟨e, rfl⟩, fun _ => ⟨e, rfl⟩⟩
  | ok u =>
    constructor
    · rintro ⟨e, he⟩
      obtain ⟨q, hq⟩ := hs (a.isCall.getD true) (awCritical a.volatility a.strike a.expiry (amRate a) (a.dividendRate.getD 0) (a.isCall.getD true) rel tol N).parameter (amSpot a)
      obtain ⟨p, hp⟩ := hE a.volatility a.strike a.expiry (amSpot a) (amRate a) (a.dividendRate.getD 0) none
      change (do
        let american ← awSelect a.volatility a.strike a.expiry (amRate a) (a.dividendRate.getD 0) (a.isCall.getD true) (awCritical a.volatility a.strike a.expiry (amRate a) (a.dividendRate.getD 0) (a.isCall.getD true) rel tol N).parameter (amSpot a)
        let european ← amEuropean a.volatility a.strike a.expiry (amSpot a) (amRate a) (a.dividendRate.getD 0) none
        return _ : Except String (ℝ × Bool × Bool)) = _ at he
      rw [hq, hp] at he
      cases he
    · rintro ⟨e, he⟩
      cases he

/-- C77: at expiry the price is the payoff. -/
theorem C77_expiry (sigma x r d s : ℝ) (c : Bool) (sc : Option ℝ) :
    awSelect sigma x 0 r d c sc s = .ok (vanillaPayoff c x s) := by
  cases sc with
  | none =>
    unfold awSelect
    simp only [gt_iff_lt, lt_irrefl, if_false]
    rfl
  | some sc =>
    unfold awSelect awPrice awContinuation
    cases hp : amEuropean sigma x 0 s r d (some c) with
    | error e =>
      have := (C31_rejects _).1 ⟨e, hp⟩
      simp at this
    | ok p =>
      simp only [gt_iff_lt, lt_irrefl, if_false]
      rfl

/-! ## The rate zero -/

theorem rate_ratio_tendsto (t : ℝ) (ht : 0 < t) : Tendsto (fun r : ℝ => r / (1 - Real.exp (-r * t))) (𝓝[≠] 0) (𝓝 (1 / t)) := by
  have h : HasDerivAt (fun r : ℝ => 1 - Real.exp (-r * t)) t 0 := by
    have := (((hasDerivAt_id (0 : ℝ)).neg.mul_const t).exp).const_sub 1
    refine this.congr_deriv ?_
    simp
  have h2 := hasDerivAt_iff_tendsto_slope.1 h
  have h3 := h2.inv₀ ht.ne'
  rw [one_div]
  refine h3.congr fun r => ?_
  rw [slope_def_field]
  simp

/-- Deviation: for rates tending to zero the exponent of a call tends to the root of the quadratic with `m / k` replaced by its limit
`2 / (sigma^2 t)`, but for the rate zero (the default) the code computes a smaller number, the root of the quadratic with 0 in its
place. -/
theorem C77_zero_rate_deviates (sigma t d : ℝ) (hsig : 0 < sigma) (ht : 0 < t) :
    ∃ limit, Tendsto (fun r => awExponent sigma t r d 1) (𝓝[≠] 0) (𝓝 limit) ∧ awExponent sigma t 0 d 1 < limit := by
  refine ⟨((1 - 2 * (0 - d) / sigma ^ 2) + 1 * Real.sqrt ((2 * (0 - d) / sigma ^ 2 - 1) ^ 2 + 8 / sigma ^ 2 * (1 / t))) / 2, ?_, ?_⟩
  · have h1 := rate_ratio_tendsto t ht
    have h2 : Tendsto (fun r : ℝ => 2 * (r - d) / sigma ^ 2) (𝓝[≠] 0) (𝓝 (2 * (0 - d) / sigma ^ 2)) := by
      have : Continuous fun r : ℝ => 2 * (r - d) / sigma ^ 2 := by fun_prop
      exact (this.tendsto 0).mono_left nhdsWithin_le_nhds
    have h3 := (((h2.sub_const 1).pow 2).add (h1.const_mul (8 / sigma ^ 2))).sqrt
    have h4 := ((h2.const_sub 1).add (h3.const_mul 1)).div_const 2
    refine h4.congr fun r => ?_
    unfold awExponent awQ
    congr 4
    ring
  · unfold awExponent awQ
    have : (4 : ℝ) * (2 * 0 / sigma ^ 2) / (1 - Real.exp (-0 * t)) = 0 := by simp
    rw [this, add_zero]
    have hp : 0 < 8 / sigma ^ 2 * (1 / t) := by positivity
    have := Real.sqrt_lt_sqrt (sq_nonneg (2 * (0 - d) / sigma ^ 2 - 1)) (show (2 * (0 - d) / sigma ^ 2 - 1) ^ 2 <
      (2 * (0 - d) / sigma ^ 2 - 1) ^ 2 + 8 / sigma ^ 2 * (1 / t) by linarith)
    linarith

/-- Deviation: if the root search ends in a value that is not a number, the exercise value is returned, negative for an option out of the
money. -/
theorem C77_failed_search (sigma x t r d s : ℝ) (c : Bool) (ht : 0 < t) :
    awSelect sigma x t r d c none s = .ok (awSign c * (s - x)) := by
  unfold awSelect
  simp only [gt_iff_lt, ht, if_true]
  rw [mul_comm]

/-- A call with rate zero, dividend rate 4% and volatility 20%, one year to expiry: the exponent is 3. -/
example : awExponent (1 / 5) 1 0 (4 / 100) (awSign true) = 3 := by
  unfold awExponent awQ awSign
  norm_num
  rw [show (9 : ℝ) = 3 ^ 2 by norm_num, Real.sqrt_sq (by norm_num)]
  norm_num

/-- For the rate `log 2` and one year, `k` is one half. -/
example : awExponent 1 1 (Real.log 2) (Real.log 2) (awSign false) = (1 - Real.sqrt (1 + 16 * Real.log 2)) / 2 := by
  unfold awExponent awQ awSign
  have e : Real.exp (-Real.log 2 * 1) = 1 / 2 := by rw [mul_one, Real.exp_neg, Real.exp_log (by norm_num)]; norm_num
  rw [e]
  have e2 : (2 * (Real.log 2 - Real.log 2) / 1 ^ 2 - 1) ^ 2 + 4 * (2 * Real.log 2 / 1 ^ 2) / (1 - 1 / 2) = 1 + 16 * Real.log 2 := by ring
  rw [e2]
  simp
  ring

end Props
