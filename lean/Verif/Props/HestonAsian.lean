import Verif.Model.HestonAsian
import Verif.Spec.HestonAsian
import Verif.Props.HestonOption
import Mathlib.Analysis.SpecialFunctions.Trigonometric.DerivHyp
import Mathlib.Analysis.SpecialFunctions.Complex.LogDeriv
import Mathlib.Algebra.BigOperators.Intervals

/-! # C102: Asian options in the model of Heston -/

namespace Props

open Model Complex
open scoped BigOperators

namespace HestonAsian

theorem solves_affine (k theta sigma rho g : ℝ) (c : ℂ) (E D : ℝ → ℂ) (E' D' : ℂ) (t x v : ℝ) (hE : HasDerivAt E E' t) (hD : HasDerivAt D D' t)
    (h0 : E' + g * c + k * theta * D t = 0) (h1 : D' - c / 2 - k * D t + c ^ 2 / 2 + rho * sigma * c * D t + sigma ^ 2 / 2 * D t ^ 2 = 0) :
    Spec.SolvesHestonDrift k theta sigma rho g (fun t x v => exp (c * x + (E t + D t * v))) t x v := by
  have hf : ∀ y w : ℝ, HasDerivAt (fun z : ℝ => exp (c * z + (E t + D t * w))) (c * exp (c * y + (E t + D t * w))) y := by
    intro y w
    have h1 : HasDerivAt (fun z : ℝ => c * z + (E t + D t * w)) c y := by
      have := ((hasDerivAt_id y).ofReal_comp.const_mul c).add_const (E t + D t * w)
      simpa using this
    exact h1.cexp.congr_deriv (mul_comm _ _)
  have hg : ∀ y w : ℝ, HasDerivAt (fun z : ℝ => exp (c * y + (E t + D t * z))) (D t * exp (c * y + (E t + D t * w))) w := by
    intro y w
    have h1 : HasDerivAt (fun z : ℝ => c * y + (E t + D t * z)) (D t) w := by
      have := (((hasDerivAt_id w).ofReal_comp.const_mul (D t)).const_add (E t)).const_add (c * y)
      simpa using this
    exact h1.cexp.congr_deriv (mul_comm _ _)
  refine ⟨(E' + D' * v) * exp (c * x + (E t + D t * v)), fun y w => c * exp (c * y + (E t + D t * w)), fun y w => D t * exp (c * y + (E t + D t * w)),
    c * (c * exp (c * x + (E t + D t * v))), c * (D t * exp (c * x + (E t + D t * v))), D t * (D t * exp (c * x + (E t + D t * v))), ?_, hf, hg, ?_, ?_, ?_, ?_⟩
  · exact ((hE.add (hD.mul_const (v : ℂ))).const_add (c * x)).cexp.congr_deriv (mul_comm _ _)
  · exact (hf x v).const_mul c
  · exact (hg x v).const_mul c
  · exact (hg x v).const_mul (D t)
  · dsimp only
    push_cast
    generalize exp (c * x + (E t + D t * v)) = X
    linear_combination X * h0 + X * v * h1

variable (h : Model.HestonAsian)

theorem root_sq (z : ℂ) : h.root z ^ 2 = (h.params.meanReversion : ℂ) ^ 2 - 2 * z * (h.params.volvol : ℂ) ^ 2 := by
  unfold Model.HestonAsian.root
  exact cpow_nat_inv_pow _ two_ne_zero

theorem f_zero (z1 z2 : ℂ) : h.f z1 z2 0 = 1 := by simp [Model.HestonAsian.f]

theorem fTilde_zero (z1 z2 : ℂ) : h.fTilde z1 z2 0 = 1 / 2 * (h.params.meanReversion - z2 * (h.params.volvol : ℂ) ^ 2) := by simp [Model.HestonAsian.fTilde]

theorem hasDerivAt_arg (x : ℂ) (tau : ℝ) : HasDerivAt (fun t : ℝ => 1 / 2 * (t : ℂ) * x) (1 / 2 * x) tau := by
  have := ((hasDerivAt_id tau).ofReal_comp.const_mul (1 / 2 : ℂ)).mul_const x
  simpa using this

theorem f_deriv (z1 z2 : ℂ) (hr : h.root z1 ≠ 0) (tau : ℝ) : HasDerivAt (h.f z1 z2) (h.fTilde z1 z2 tau) tau := by
  have ha := hasDerivAt_arg (h.root z1) tau
  have hc := (Complex.hasDerivAt_cosh _).comp tau ha
  have hs := (Complex.hasDerivAt_sinh _).comp tau ha
  refine (hc.add ((hs.const_mul (h.params.meanReversion - z2 * (h.params.volvol : ℂ) ^ 2)).div_const (h.root z1))).congr_deriv ?_
  unfold Model.HestonAsian.fTilde
  field_simp

theorem fTilde_deriv (z1 z2 : ℂ) (hr : h.root z1 ≠ 0) (tau : ℝ) : HasDerivAt (h.fTilde z1 z2) (1 / 4 * h.root z1 ^ 2 * h.f z1 z2 tau) tau := by
  have ha := hasDerivAt_arg (h.root z1) tau
  have hc := (Complex.hasDerivAt_cosh _).comp tau ha
  have hs := (Complex.hasDerivAt_sinh _).comp tau ha
  refine ((hs.const_mul (1 / 2 * h.root z1)).add ((hc.const_mul (h.params.meanReversion - z2 * (h.params.volvol : ℂ) ^ 2)).const_mul (1 / 2))).congr_deriv ?_
  unfold Model.HestonAsian.f
  field_simp
  ring

/-- The coefficient of the variance on one interval. -/
noncomputable def coef (z1 z2 : ℂ) (tau : ℝ) : ℂ :=
  h.params.meanReversion / (h.params.volvol : ℂ) ^ 2 - 2 * h.fTilde z1 z2 tau / (h.f z1 z2 tau * (h.params.volvol : ℂ) ^ 2)

/-- The integral of the coefficient times mean reversion and mean. -/
noncomputable def level (z1 z2 : ℂ) (tau : ℝ) : ℂ :=
  (h.params.meanReversion : ℂ) * h.params.theta * (h.params.meanReversion * tau / (h.params.volvol : ℂ) ^ 2 - 2 / (h.params.volvol : ℂ) ^ 2 * log (h.f z1 z2 tau))

theorem coef_zero (z1 z2 : ℂ) (hs : h.params.volvol ≠ 0) : coef h z1 z2 0 = z2 := by
  have hs' : (h.params.volvol : ℂ) ≠ 0 := by exact_mod_cast hs
  unfold coef
  rw [f_zero, fTilde_zero]
  field_simp
  ring

theorem level_zero (z1 z2 : ℂ) : level h z1 z2 0 = 0 := by
  unfold level
  rw [f_zero]
  simp

end HestonAsian

/-- C102. On each interval the coefficient of the variance solves the equation of Riccati and the other one is its integral. -/
theorem C102_riccati (h : Model.HestonAsian) (z1 z2 : ℂ) (hr : h.root z1 ≠ 0) (hs : h.params.volvol ≠ 0) (tau : ℝ) (hf : h.f z1 z2 tau ≠ 0) :
    HasDerivAt (HestonAsian.coef h z1 z2) (z1 - h.params.meanReversion * HestonAsian.coef h z1 z2 tau +
      (h.params.volvol : ℂ) ^ 2 / 2 * HestonAsian.coef h z1 z2 tau ^ 2) tau ∧
    (h.f z1 z2 tau ∈ slitPlane → HasDerivAt (HestonAsian.level h z1 z2) (h.params.meanReversion * h.params.theta * HestonAsian.coef h z1 z2 tau) tau) := by
  have hs' : (h.params.volvol : ℂ) ≠ 0 := by exact_mod_cast hs
  have hF := HestonAsian.f_deriv h z1 z2 hr tau
  have hT := HestonAsian.fTilde_deriv h z1 z2 hr tau
  have hq := HestonAsian.root_sq h z1
  constructor
  · have h1 := ((hT.const_mul 2).div (hF.mul_const ((h.params.volvol : ℂ) ^ 2)) (mul_ne_zero hf (pow_ne_zero _ hs'))).const_sub
      ((h.params.meanReversion : ℂ) / (h.params.volvol : ℂ) ^ 2)
    refine h1.congr_deriv ?_
    unfold HestonAsian.coef
    rw [hq]
    generalize h.fTilde z1 z2 tau = T at *
    generalize h.f z1 z2 tau = F at *
    field_simp
    ring
  · intro hm
    have h2 := ((((hasDerivAt_id tau).ofReal_comp.const_mul (h.params.meanReversion : ℂ)).div_const ((h.params.volvol : ℂ) ^ 2)).sub
      ((hF.clog_real hm).const_mul (2 / (h.params.volvol : ℂ) ^ 2))).const_mul ((h.params.meanReversion : ℂ) * h.params.theta)
    refine h2.congr_deriv ?_
    unfold HestonAsian.coef
    generalize h.fTilde z1 z2 tau = T at *
    generalize h.f z1 z2 tau = F at *
    field_simp
    simp

namespace HestonAsian
variable (h : Model.HestonAsian) (s w : ℂ)

theorem list_sum_range (n : Nat) (g : Nat → ℂ) : ((List.range n).map g).sum = ∑ j ∈ Finset.range n, g j := by
  induction n with
  | zero => simp
  | succ n ih => rw [List.range_succ, List.map_append, List.sum_append, ih, Finset.sum_range_succ]; simp

theorem tau_zero : h.tau 0 = 0 := rfl

theorem tau_last : h.tau (h.times.length + 1) = h.expiry := by simp [Model.HestonAsian.tau]

theorem tau_time (j : Nat) (hj : j < h.times.length) : h.tau (j + 1) = h.times[j] := by
  simp only [Model.HestonAsian.tau, List.getD_cons_succ]
  rw [List.getD_eq_getElem?_getD, List.getElem?_append_left hj, List.getElem?_eq_getElem hj, Option.getD_some]

theorem sum_tau : ∑ j ∈ Finset.Ico 1 (h.times.length + 1), h.tau j = h.times.sum := by
  rw [Finset.sum_Ico_eq_sum_range, Nat.add_sub_cancel, Finset.sum_range, ← Fin.sum_univ_getElem]
  refine Finset.sum_congr rfl fun j _ => ?_
  rw [add_comm, tau_time h j j.2]

theorem omegaTilde_last : h.omegaTilde s w (h.times.length + 1) = h.params.rho / h.params.volvol * w := by
  unfold Model.HestonAsian.omegaTilde
  rw [Nat.sub_self, Model.HestonAsian.omegaLoop, Model.HestonAsian.omega, if_neg (by omega), if_neg]
  unfold Model.HestonAsian.n
  omega

theorem omegaTilde_step (q : Nat) (hq : q ≤ h.times.length) :
    h.omegaTilde s w q = h.omega s w q + coef h (h.z s w q) (h.omegaTilde s w (q + 1)) (h.dTau q) := by
  unfold Model.HestonAsian.omegaTilde
  rw [show h.times.length + 1 - q = (h.times.length - q) + 1 by omega, Model.HestonAsian.omegaLoop,
    show h.times.length + 1 - (q + 1) = h.times.length - q by omega, show h.times.length - (h.times.length - q) = q by omega]
  simp only [coef]
  ring

/-- The weight of the logarithm of the spot after `q` sampling times. -/
noncomputable def weight (q : Nat) : ℂ := ((h.times.length : ℂ) - q) * s / h.n + w

theorem z_eq (q : Nat) (hn : h.n ≠ 0) (hs : h.params.volvol ≠ 0) :
    h.z s w q = (h.params.rho * h.params.meanReversion / h.params.volvol - 1 / 2) * weight h s w q +
      1 / 2 * (1 - (h.params.rho : ℂ) ^ 2) * weight h s w q ^ 2 := by
  have hn' : (h.n : ℂ) ≠ 0 := by exact_mod_cast hn
  have hs' : (h.params.volvol : ℂ) ≠ 0 := by exact_mod_cast hs
  have hk : ((h.n : ℂ) - ((h.fixingCount : ℂ) + 1 + q) + 1) * s + h.n * w = h.n * weight h s w q := by
    unfold weight
    have : (h.n : ℂ) = h.times.length + h.fixingCount := by
      unfold Model.HestonAsian.n
      push_cast
      rfl
    field_simp
    rw [this]
    ring
  unfold Model.HestonAsian.z
  simp only [hk]
  field_simp

/-- What is known of the exponent after interval `q`. -/
noncomputable def rest (q : Nat) : ℂ :=
  ∑ j ∈ Finset.Ico (q + 1) (h.times.length + 1),
    (s / h.n * h.tau j * h.modDrift + level h (h.z s w j) (h.omegaTilde s w (j + 1)) (h.dTau j))

/-- The transform on interval `q`. -/
noncomputable def value (q : Nat) (t x v : ℝ) : ℂ :=
  exp (weight h s w q * x + ((w * h.expiry * h.modDrift + rest h s w q - weight h s w q * h.modDrift * t +
    level h (h.z s w q) (h.omegaTilde s w (q + 1)) (h.tau (q + 1) - t)) +
    (coef h (h.z s w q) (h.omegaTilde s w (q + 1)) (h.tau (q + 1) - t) - h.params.rho / h.params.volvol * weight h s w q) * v))

theorem phi_eq (hn : h.n ≠ 0) : h.phi s w = value h s w 0 0 (Real.log h.spot) h.params.variance := by
  have hn' : (h.n : ℂ) ≠ 0 := by exact_mod_cast hn
  unfold Model.HestonAsian.phi value
  rw [omegaTilde_step h s w 0 (Nat.zero_le _)]
  have h1 : (h.n : ℂ) - h.fixingCount = h.times.length := by
    unfold Model.HestonAsian.n
    push_cast
    ring
  have hw : weight h s w 0 = s * ((h.n : ℂ) - h.fixingCount) / h.n + w := by
    rw [h1, weight]
    push_cast
    ring
  have hsum : rest h s w 0 + level h (h.z s w 0) (h.omegaTilde s w 1) (h.dTau 0) = s * (h.times.sum : ℝ) / h.n * h.modDrift +
      ((h.params.meanReversion : ℂ) ^ 2 * h.params.theta * (h.expiry : ℝ) / (h.params.volvol : ℂ) ^ 2 -
      2 * h.params.meanReversion * h.params.theta / (h.params.volvol : ℂ) ^ 2 *
        ((List.range (h.times.length + 1)).map fun q => log (h.f (h.z s w q) (h.omegaTilde s w (q + 1)) (h.dTau q))).sum) := by
    have e1 : rest h s w 0 + level h (h.z s w 0) (h.omegaTilde s w 1) (h.dTau 0) = s / h.n * (h.times.sum : ℝ) * h.modDrift +
        ∑ j ∈ Finset.range (h.times.length + 1), level h (h.z s w j) (h.omegaTilde s w (j + 1)) (h.dTau j) := by
      unfold rest
      rw [Finset.sum_add_distrib, ← Finset.sum_mul, ← Finset.mul_sum, ← Complex.ofReal_sum, zero_add, sum_tau, Finset.range_eq_Ico,
        Finset.sum_eq_sum_Ico_succ_bot (Nat.succ_pos _)]
      ring
    rw [e1]
    have e2 : ∑ j ∈ Finset.range (h.times.length + 1), h.dTau j = h.expiry := by
      unfold Model.HestonAsian.dTau
      rw [Finset.sum_range_sub, tau_last, tau_zero, sub_zero]
    have e3 : ∑ j ∈ Finset.range (h.times.length + 1), level h (h.z s w j) (h.omegaTilde s w (j + 1)) (h.dTau j) =
        (h.params.meanReversion : ℂ) * h.params.theta * (h.params.meanReversion / (h.params.volvol : ℂ) ^ 2) * (∑ j ∈ Finset.range (h.times.length + 1), h.dTau j : ℝ) -
        (h.params.meanReversion : ℂ) * h.params.theta * (2 / (h.params.volvol : ℂ) ^ 2) *
          ∑ j ∈ Finset.range (h.times.length + 1), log (h.f (h.z s w j) (h.omegaTilde s w (j + 1)) (h.dTau j)) := by
      rw [Complex.ofReal_sum, Finset.mul_sum, Finset.mul_sum, ← Finset.sum_sub_distrib]
      refine Finset.sum_congr rfl fun j _ => ?_
      unfold level
      ring
    rw [e3, e2, list_sum_range]
    ring
  unfold Model.HestonAsian.a
  simp only [← hw, sub_zero]
  have ht : h.tau (0 + 1) - 0 = h.dTau 0 := by
    unfold Model.HestonAsian.dTau
    rw [tau_zero]
  have ho : h.omega s w 0 = 0 := by simp [Model.HestonAsian.omega]
  rw [sub_zero] at ht
  rw [ht, ho]
  refine congrArg exp ?_
  push_cast at hsum ⊢
  linear_combination -hsum

end HestonAsian

/-- C102. `phi` is the transform of the sampled logarithm of the spot: between the sampling times it solves the backward equation of the model, if no value of `f`
on the interval is a negative number or zero. -/
theorem C102_transform_partial (h : Model.HestonAsian) (s w : ℂ) (hn : h.n ≠ 0) (hs : h.params.volvol ≠ 0)
    (hr : ∀ q ≤ h.times.length, h.root (h.z s w q) ≠ 0)
    (hf : ∀ q ≤ h.times.length, ∀ t, 0 ≤ t → t ≤ h.dTau q → h.f (h.z s w q) (h.omegaTilde s w (q + 1)) t ∈ slitPlane) :
    ∃ U, Spec.IsSampledTransform h.params.meanReversion h.params.theta h.params.volvol h.params.rho (h.discountRate - h.dividendRate) h.tau h.times.length h.n
      s w U ∧ h.phi s w = U 0 0 (Real.log h.spot) h.params.variance := by
  have hs' : (h.params.volvol : ℂ) ≠ 0 := by exact_mod_cast hs
  have hn' : (h.n : ℂ) ≠ 0 := by exact_mod_cast hn
  refine ⟨HestonAsian.value h s w, ⟨?_, ?_, ?_⟩, HestonAsian.phi_eq h s w hn⟩
  · intro x v
    unfold HestonAsian.value HestonAsian.rest HestonAsian.weight
    rw [HestonAsian.tau_last, sub_self h.expiry, HestonAsian.level_zero, HestonAsian.coef_zero h _ _ hs, HestonAsian.omegaTilde_last, Finset.Ico_self, Finset.sum_empty]
    refine congrArg exp ?_
    ring
  · intro q hq x v
    unfold HestonAsian.value
    rw [sub_self, HestonAsian.level_zero, HestonAsian.coef_zero h _ _ hs, HestonAsian.omegaTilde_step h s w (q + 1) (by omega), ← exp_add]
    have e1 : HestonAsian.rest h s w q = s / h.n * h.tau (q + 1) * h.modDrift +
        HestonAsian.level h (h.z s w (q + 1)) (h.omegaTilde s w (q + 1 + 1)) (h.dTau (q + 1)) + HestonAsian.rest h s w (q + 1) := by
      unfold HestonAsian.rest
      rw [Finset.sum_eq_sum_Ico_succ_bot (by omega)]
    have e2 : HestonAsian.weight h s w q = HestonAsian.weight h s w (q + 1) + s / h.n := by
      unfold HestonAsian.weight
      push_cast
      ring
    have e3 : h.omega s w (q + 1) = h.params.rho / h.params.volvol * (s / h.n) := by
      unfold Model.HestonAsian.omega
      rw [if_neg (by omega), if_pos (by unfold Model.HestonAsian.n; omega)]
      field_simp
    have e4 : h.tau (q + 1 + 1) - h.tau (q + 1) = h.dTau (q + 1) := rfl
    rw [e1, e2, e3, e4]
    refine congrArg exp ?_
    ring
  · intro q hq t x v h1 h2
    have hslit := hf q hq (h.tau (q + 1) - t) (by linarith) (by unfold Model.HestonAsian.dTau; linarith)
    have hne := slitPlane_ne_zero hslit
    obtain ⟨d1, d2⟩ := C102_riccati h (h.z s w q) (h.omegaTilde s w (q + 1)) (hr q hq) hs (h.tau (q + 1) - t) hne
    have hst : HasDerivAt (fun t : ℝ => h.tau (q + 1) - t) (-1) t := by simpa using (hasDerivAt_id t).const_sub (h.tau (q + 1))
    have hB := (d1.scomp t hst).sub_const (h.params.rho / h.params.volvol * HestonAsian.weight h s w q)
    have hA := (d2 hslit).scomp t hst
    have hE := ((((hasDerivAt_id t).ofReal_comp.const_mul (HestonAsian.weight h s w q * h.modDrift)).const_sub
      (w * h.expiry * h.modDrift + HestonAsian.rest h s w q))).add hA
    refine HestonAsian.solves_affine h.params.meanReversion h.params.theta h.params.volvol h.params.rho (h.discountRate - h.dividendRate) (HestonAsian.weight h s w q)
      _ _ _ _ t x v hE hB ?_ ?_
    · simp only [Function.comp, neg_one_smul, Complex.ofReal_one, mul_one]
      unfold Model.HestonAsian.modDrift
      push_cast
      field_simp
      ring
    · simp only [Function.comp, neg_one_smul]
      have hz := HestonAsian.z_eq h s w q hn hs
      generalize HestonAsian.coef h (h.z s w q) (h.omegaTilde s w (q + 1)) (h.tau (q + 1) - t) = B at *
      rw [hz]
      field_simp
      ring

namespace HestonAsian
variable (h : Model.HestonAsian)

theorem root_pos (z : ℂ) (X : ℝ) (hX : 0 < X) (hz : (X : ℂ) ^ 2 = (h.params.meanReversion : ℂ) ^ 2 - 2 * z * (h.params.volvol : ℂ) ^ 2) : h.root z = X := by
  have h1 := root_sq h z
  rw [← hz] at h1
  rcases sq_eq_sq_iff_eq_or_eq_neg.mp h1 with h2 | h2
  · exact h2
  · exfalso
    have h3 : 0 ≤ (h.root z).re := Heston.cpow_half_re_nonneg _
    rw [h2, neg_re, ofReal_re] at h3
    linarith

/-- The square of the root in terms of the weight of the logarithm of the spot. -/
theorem root_weight (s w : ℂ) (q : Nat) (hn : h.n ≠ 0) (hs : h.params.volvol ≠ 0) :
    (h.params.meanReversion : ℂ) ^ 2 - 2 * h.z s w q * (h.params.volvol : ℂ) ^ 2 =
      (h.params.meanReversion - h.params.rho * h.params.volvol * weight h s w q) ^ 2 +
        (h.params.volvol : ℂ) ^ 2 * (weight h s w q * (1 - weight h s w q)) := by
  have hs' : (h.params.volvol : ℂ) ≠ 0 := by exact_mod_cast hs
  rw [z_eq h s w q hn hs]
  field_simp
  ring

theorem cosh_gt_sinh (x : ℝ) : 0 < Real.cosh x - Real.sinh x := by
  rw [Real.cosh_sub_sinh]
  exact Real.exp_pos _

/-- On an interval with a real weight in the unit interval, `f` is positive and the coefficient stays below the bound. -/
theorem real_interval (z : ℂ) (X c om t : ℝ) (hX : 0 < X) (hs : 0 < h.params.volvol) (hroot : h.root z = X)
    (hXc : X ^ 2 = (h.params.meanReversion - h.params.rho * h.params.volvol * c) ^ 2 + h.params.volvol ^ 2 * (c * (1 - c))) (hc0 : 0 ≤ c) (hc1 : c ≤ 1)
    (hom : om ≤ h.params.rho / h.params.volvol * c) (ht : 0 ≤ t) :
    (∃ F : ℝ, 0 < F ∧ h.f z om t = F) ∧ ∃ b : ℝ, coef h z om t = b ∧ b ≤ h.params.rho / h.params.volvol * c := by
  obtain ⟨k, hk⟩ : ∃ k, k = h.params.meanReversion := ⟨_, rfl⟩
  obtain ⟨v, hv⟩ : ∃ v, v = h.params.volvol := ⟨_, rfl⟩
  obtain ⟨P, hP⟩ : ∃ P, P = k - h.params.rho * v * c := ⟨_, rfl⟩
  obtain ⟨D, hD⟩ : ∃ D, D = k - om * v ^ 2 := ⟨_, rfl⟩
  rw [← hk, ← hv, ← hP] at hXc
  rw [← hv] at hs hom
  have hDP : P ≤ D := by
    rw [hP, hD]
    have : om * v ^ 2 ≤ h.params.rho / v * c * v ^ 2 := mul_le_mul_of_nonneg_right hom (by positivity)
    have e : h.params.rho / v * c * v ^ 2 = h.params.rho * v * c := by field_simp
    linarith
  have hPX : |P| ≤ X := by
    refine abs_le_of_sq_le_sq ?_ hX.le
    have : 0 ≤ v ^ 2 * (c * (1 - c)) := mul_nonneg (sq_nonneg _) (mul_nonneg hc0 (by linarith))
    linarith
  obtain ⟨S, hS⟩ : ∃ S, S = Real.sinh (1 / 2 * t * X) := ⟨_, rfl⟩
  obtain ⟨C, hC⟩ : ∃ C, C = Real.cosh (1 / 2 * t * X) := ⟨_, rfl⟩
  have hS0 : 0 ≤ S := by
    rw [hS]
    exact Real.sinh_nonneg_iff.2 (by positivity)
  have hCS : S < C := by
    have := cosh_gt_sinh (1 / 2 * t * X)
    rw [← hS, ← hC] at this
    linarith
  have hf : h.f z om t = ((C + D * S / X : ℝ) : ℂ) := by
    unfold Model.HestonAsian.f
    rw [hroot, hC, hS, hD, hk, hv]
    push_cast
    rfl
  have hft : h.fTilde z om t = ((1 / 2 * (X * S + D * C) : ℝ) : ℂ) := by
    unfold Model.HestonAsian.fTilde
    rw [hroot, hC, hS, hD, hk, hv]
    push_cast
    ring
  have hF : 0 < C + D * S / X := by
    have h1 : -S ≤ D * S / X := by
      rw [le_div_iff₀ hX]
      have : -X ≤ D := by linarith [neg_abs_le P]
      nlinarith
    linarith
  refine ⟨⟨_, hF, hf⟩, k / v ^ 2 - 2 * (1 / 2 * (X * S + D * C)) / ((C + D * S / X) * v ^ 2), ?_, ?_⟩
  · unfold coef
    rw [hf, hft, ← hk, ← hv]
    push_cast
    rfl
  · have key : P * (C + D * S / X) ≤ X * S + D * C := by
      have e : X * S + D * C - P * (C + D * S / X) = (X ^ 2 - P * D) / X * S + (D - P) * C := by
        field_simp
        ring
      have : 0 ≤ (X ^ 2 - P * D) / X * S + (D - P) * C := by
        have hX2 : P ^ 2 ≤ X ^ 2 := by
          have := sq_le_sq' (by linarith [abs_nonneg P]) hPX
          rwa [sq_abs] at this
        have h1 : -((D - P) * S) ≤ (X ^ 2 - P * D) / X * S := by
          rw [← neg_mul]
          refine mul_le_mul_of_nonneg_right ?_ hS0
          rw [le_div_iff₀ hX]
          have hPle := le_abs_self P
          nlinarith [mul_nonneg (sub_nonneg.2 hDP) (by linarith : (0 : ℝ) ≤ X - P)]
        have h2 : 0 ≤ (D - P) * (C - S) := mul_nonneg (by linarith) (by linarith)
        nlinarith
      linarith
    have e1 : 2 * (1 / 2 * (X * S + D * C)) / ((C + D * S / X) * v ^ 2) = (X * S + D * C) / (C + D * S / X) / v ^ 2 := by
      rw [div_div]
      ring
    rw [e1]
    have e2 : P ≤ (X * S + D * C) / (C + D * S / X) := by rwa [le_div_iff₀ hF]
    rw [← sub_div, div_le_iff₀ (by positivity)]
    have e3 : h.params.rho / h.params.volvol * c * v ^ 2 = h.params.rho * v * c := by
      rw [← hv]
      field_simp
    rw [e3]
    linarith

/-- The weight for the mean. -/
noncomputable def meanWeight (q : Nat) : ℝ := ((h.times.length : ℝ) - q) / h.n

theorem weight_one (q : Nat) : weight h 1 0 q = (meanWeight h q : ℂ) := by
  unfold weight meanWeight
  push_cast
  ring

theorem meanWeight_bounds (q : Nat) (hq : q ≤ h.times.length) (hn : h.n ≠ 0) : 0 ≤ meanWeight h q ∧ meanWeight h q ≤ 1 := by
  have hn' : (0 : ℝ) < h.n := by exact_mod_cast Nat.pos_of_ne_zero hn
  have hq' : (q : ℝ) ≤ h.times.length := by exact_mod_cast hq
  unfold meanWeight
  refine ⟨div_nonneg (by linarith) hn'.le, ?_⟩
  rw [div_le_one hn']
  unfold Model.HestonAsian.n
  push_cast
  have : (0 : ℝ) ≤ h.fixingCount := by positivity
  have : (0 : ℝ) ≤ q := by positivity
  linarith

/-- The root is positive for the mean, except for `mean_reversion = rho * volvol` without past fixings. -/
theorem real_root (q : Nat) (hq : q ≤ h.times.length) (hn : h.n ≠ 0) (hs : 0 < h.params.volvol) (hk : 0 < h.params.meanReversion)
    (hne : h.fixingCount = 0 → h.params.meanReversion ≠ h.params.rho * h.params.volvol) :
    ∃ X : ℝ, 0 < X ∧ h.root (h.z 1 0 q) = X ∧ X ^ 2 = (h.params.meanReversion - h.params.rho * h.params.volvol * meanWeight h q) ^ 2 +
      h.params.volvol ^ 2 * (meanWeight h q * (1 - meanWeight h q)) := by
  obtain ⟨h0, h1⟩ := meanWeight_bounds h q hq hn
  have hn' : (0 : ℝ) < h.n := by exact_mod_cast Nat.pos_of_ne_zero hn
  have hpos : 0 < (h.params.meanReversion - h.params.rho * h.params.volvol * meanWeight h q) ^ 2 +
      h.params.volvol ^ 2 * (meanWeight h q * (1 - meanWeight h q)) := by
    rcases h0.eq_or_lt with e | h0
    · rw [← e]
      simp only [mul_zero, sub_zero, zero_mul, add_zero]
      positivity
    rcases h1.eq_or_lt with e | h1
    · rw [e]
      have hfix : h.fixingCount = 0 := by
        unfold meanWeight at e
        rw [div_eq_one_iff_eq hn'.ne'] at e
        unfold Model.HestonAsian.n at e
        push_cast at e
        have hz : (h.fixingCount : ℝ) + q = 0 := by linarith
        have : h.fixingCount + q = 0 := by exact_mod_cast hz
        omega
      have := sub_ne_zero.2 (hne hfix)
      rw [mul_one, sub_self, mul_zero, mul_zero, add_zero]
      positivity
    · have : 0 < h.params.volvol ^ 2 * (meanWeight h q * (1 - meanWeight h q)) := mul_pos (by positivity) (mul_pos h0 (by linarith))
      have := sq_nonneg (h.params.meanReversion - h.params.rho * h.params.volvol * meanWeight h q)
      linarith
  refine ⟨Real.sqrt _, Real.sqrt_pos.2 hpos, ?_, Real.sq_sqrt hpos.le⟩
  refine root_pos h _ _ (Real.sqrt_pos.2 hpos) ?_
  rw [root_weight h 1 0 q hn hs.ne', weight_one, ← Complex.ofReal_pow, Real.sq_sqrt hpos.le]
  push_cast
  ring

theorem real_omega (hn : h.n ≠ 0) (hs : 0 < h.params.volvol) (hk : 0 < h.params.meanReversion)
    (hne : h.fixingCount = 0 → h.params.meanReversion ≠ h.params.rho * h.params.volvol) (hd : ∀ q ≤ h.times.length, 0 ≤ h.dTau q) (q : Nat) (hq : q ≤ h.times.length) :
    ∃ om : ℝ, h.omegaTilde 1 0 (q + 1) = om ∧ om ≤ h.params.rho / h.params.volvol * meanWeight h q := by
  obtain ⟨j, hj⟩ : ∃ j, j = h.times.length - q := ⟨_, rfl⟩
  induction j generalizing q with
  | zero =>
    have e : q = h.times.length := by omega
    subst e
    rw [omegaTilde_last]
    refine ⟨0, by simp, ?_⟩
    simp [meanWeight]
  | succ j ih =>
    obtain ⟨om, h1, h2⟩ := ih (q + 1) (by omega) (by omega)
    obtain ⟨X, hX, hroot, hXc⟩ := real_root h (q + 1) (by omega) hn hs hk hne
    obtain ⟨h0, h01⟩ := meanWeight_bounds h (q + 1) (by omega) hn
    obtain ⟨_, b, hb1, hb2⟩ := real_interval h _ X _ om (h.dTau (q + 1)) hX hs hroot hXc h0 h01 h2 (hd _ (by omega))
    rw [omegaTilde_step h 1 0 (q + 1) (by omega), h1, hb1]
    have ho : h.omega 1 0 (q + 1) = ((h.params.rho / (h.params.volvol * h.n) : ℝ) : ℂ) := by
      unfold Model.HestonAsian.omega
      rw [if_neg (by omega), if_pos (by unfold Model.HestonAsian.n; omega)]
      push_cast
      ring
    refine ⟨h.params.rho / (h.params.volvol * h.n) + b, by rw [ho]; push_cast; rfl, ?_⟩
    have e : h.params.rho / h.params.volvol * meanWeight h q = h.params.rho / (h.params.volvol * h.n) + h.params.rho / h.params.volvol * meanWeight h (q + 1) := by
      unfold meanWeight
      have hn' : (h.n : ℝ) ≠ 0 := by exact_mod_cast hn
      have := hs.ne'
      push_cast
      field_simp
      ring
    rw [e]
    linarith

theorem real_f (hn : h.n ≠ 0) (hs : 0 < h.params.volvol) (hk : 0 < h.params.meanReversion)
    (hne : h.fixingCount = 0 → h.params.meanReversion ≠ h.params.rho * h.params.volvol) (hd : ∀ q ≤ h.times.length, 0 ≤ h.dTau q) (q : Nat) (hq : q ≤ h.times.length)
    (t : ℝ) (ht : 0 ≤ t) :
    (∃ F : ℝ, 0 < F ∧ h.f (h.z 1 0 q) (h.omegaTilde 1 0 (q + 1)) t = F) ∧ ∃ b : ℝ, coef h (h.z 1 0 q) (h.omegaTilde 1 0 (q + 1)) t = b := by
  obtain ⟨om, h1, h2⟩ := real_omega h hn hs hk hne hd q hq
  obtain ⟨X, hX, hroot, hXc⟩ := real_root h q hq hn hs hk hne
  obtain ⟨h0, h01⟩ := meanWeight_bounds h q hq hn
  rw [h1]
  obtain ⟨hF, b, hb, _⟩ := real_interval h _ X _ om t hX hs hroot hXc h0 h01 h2 ht
  exact ⟨hF, b, hb⟩

theorem level_real (z1 z2 : ℂ) (t F : ℝ) (hF : 0 < F) (hf : h.f z1 z2 t = F) : ∃ r : ℝ, level h z1 z2 t = r := by
  refine ⟨h.params.meanReversion * h.params.theta * (h.params.meanReversion * t / h.params.volvol ^ 2 - 2 / h.params.volvol ^ 2 * Real.log F), ?_⟩
  unfold level
  rw [hf, ← Complex.ofReal_log hF.le]
  push_cast
  ring

end HestonAsian

/-- C102. The mean of the averages of the future spots needs no condition on `f`: `phi(1, 0)` is a positive number and the transform of the model, unless
`mean_reversion = rho * volvol` and there is no past fixing. -/
theorem C102_forward (h : Model.HestonAsian) (hn : h.n ≠ 0) (hs : 0 < h.params.volvol) (hk : 0 < h.params.meanReversion)
    (hne : h.fixingCount = 0 → h.params.meanReversion ≠ h.params.rho * h.params.volvol) (hd : ∀ q ≤ h.times.length, 0 ≤ h.dTau q) :
    ∃ U, Spec.IsSampledTransform h.params.meanReversion h.params.theta h.params.volvol h.params.rho (h.discountRate - h.dividendRate) h.tau h.times.length h.n
      1 0 U ∧ ∃ F : ℝ, 0 < F ∧ h.forward = some F ∧ U 0 0 (Real.log h.spot) h.params.variance = F := by
  have hf := HestonAsian.real_f h hn hs hk hne hd
  have hroot : ∀ q ≤ h.times.length, h.root (h.z 1 0 q) ≠ 0 := by
    intro q hq
    obtain ⟨X, hX, e, _⟩ := HestonAsian.real_root h q hq hn hs hk hne
    rw [e]
    exact_mod_cast hX.ne'
  obtain ⟨U, hU, hphi⟩ := C102_transform_partial h 1 0 hn hs.ne' hroot (fun q hq t ht _ => by
    obtain ⟨⟨F, hF, e⟩, _⟩ := hf q hq t ht
    rw [e]
    exact Or.inl (by simpa using hF))
  refine ⟨U, hU, ?_⟩
  have hphi2 : ∃ r : ℝ, h.phi 1 0 = exp r := by
    rw [HestonAsian.phi_eq h 1 0 hn]
    have hl : ∀ q ≤ h.times.length, ∃ r : ℝ, HestonAsian.level h (h.z 1 0 q) (h.omegaTilde 1 0 (q + 1)) (h.dTau q) = r := by
      intro q hq
      obtain ⟨⟨F, hF, e⟩, _⟩ := hf q hq (h.dTau q) (hd q hq)
      exact HestonAsian.level_real h _ _ _ F hF e
    choose! l hl using hl
    have hrest : HestonAsian.rest h 1 0 0 =
        ((∑ j ∈ Finset.Ico 1 (h.times.length + 1), (1 / (h.n : ℝ) * h.tau j * h.modDrift + l j) : ℝ) : ℂ) := by
      unfold HestonAsian.rest
      rw [Complex.ofReal_sum]
      refine Finset.sum_congr rfl fun j hj => ?_
      rw [hl j (by have := (Finset.mem_Ico.1 hj).2; omega)]
      push_cast
      ring
    obtain ⟨_, b, hb⟩ := hf 0 (Nat.zero_le _) (h.dTau 0) (hd 0 (Nat.zero_le _))
    have hl0 := hl 0 (Nat.zero_le _)
    have ht : h.tau (0 + 1) - 0 = h.dTau 0 := by
      unfold Model.HestonAsian.dTau
      rw [HestonAsian.tau_zero]
    unfold HestonAsian.value
    rw [ht, hl0, hb, hrest, HestonAsian.weight_one]
    refine ⟨HestonAsian.meanWeight h 0 * Real.log h.spot + (((∑ j ∈ Finset.Ico 1 (h.times.length + 1), (1 / (h.n : ℝ) * h.tau j * h.modDrift + l j)) + l 0) +
      (b - h.params.rho / h.params.volvol * HestonAsian.meanWeight h 0) * h.params.variance), congrArg exp ?_⟩
    push_cast
    ring
  obtain ⟨r, hr⟩ := hphi2
  refine ⟨Real.exp r, Real.exp_pos r, ?_, ?_⟩
  · unfold Model.HestonAsian.forward
    rw [if_neg (by push Not; exact hroot), hr, ← Complex.ofReal_exp, Complex.ofReal_re]
  · rw [← hphi, hr, Complex.ofReal_exp]

/-- C102. If `mean_reversion = rho * volvol` and there is no past fixing, the price is NaN. -/
theorem C102_forward_deviates (h : Model.HestonAsian) (ht : h.times ≠ []) (hf : h.fixingCount = 0) (hs : h.params.volvol ≠ 0)
    (hk : h.params.meanReversion = h.params.rho * h.params.volvol) : h.forward = none := by
  have hn : h.n ≠ 0 := by
    unfold Model.HestonAsian.n
    have := List.length_pos_iff.2 ht
    omega
  refine if_pos ⟨0, Nat.zero_le _, ?_⟩
  have h1 := HestonAsian.root_sq h (h.z 1 0 0)
  have hw : HestonAsian.weight h 1 0 0 = 1 := by
    rw [HestonAsian.weight_one, HestonAsian.meanWeight]
    have : (h.times.length : ℝ) ≠ 0 := by
      have := List.length_pos_iff.2 ht
      positivity
    simp [Model.HestonAsian.n, hf, this]
  rw [HestonAsian.root_weight h 1 0 0 hn hs, hw, hk] at h1
  push_cast at h1
  ring_nf at h1
  exact pow_eq_zero_iff two_ne_zero |>.1 h1

end Props
