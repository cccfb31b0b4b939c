import Verif.Props.HestonAsian
import Mathlib.Analysis.Real.Pi.Bounds
import Mathlib.Analysis.SpecialFunctions.Complex.Arg

/-! # C102: Asian options with one sampling time and European options in the model of Heston -/

namespace Props

open Model Complex
open scoped BigOperators

namespace HestonAsian

/-- The handler for one sampling time at the expiry. -/
noncomputable def single (p : HestonOptionParams) (spot r q strike T : ℝ) : Model.HestonAsian := ⟨p, spot, r, q, strike, T, [T], 0⟩

/-- The continuous logarithm of `f`. -/
noncomputable def longLog (p : HestonOptionParams) (u T : ℝ) : ℂ := 1 / 2 * T * p.d u + log ((1 - p.h u T) / (1 - p.g u))

variable (p : HestonOptionParams) (spot r q strike T u : ℝ)

theorem single_weight : weight (single p spot r q strike T) (u * I) 0 0 = u * I := by
  simp [weight, single, Model.HestonAsian.n]

theorem single_root (hs : p.volvol ≠ 0) : (single p spot r q strike T).root ((single p spot r q strike T).z (u * I) 0 0) = p.d u := by
  unfold Model.HestonAsian.root HestonOptionParams.d
  dsimp only
  congr 1
  rw [root_weight _ (u * I) 0 0 (by simp [single, Model.HestonAsian.n]) hs, single_weight]
  simp only [single, HestonOptionParams.s]
  have hI : I ^ 2 = -1 := I_sq
  linear_combination (-(p.volvol : ℂ) ^ 2 * u ^ 2) * hI

theorem single_omega (hs : p.volvol ≠ 0) : (single p spot r q strike T).omegaTilde (u * I) 0 1 = p.rho / p.volvol * (u * I) := by
  rw [omegaTilde_step _ _ _ 1 (by simp [single])]
  have hd : (single p spot r q strike T).dTau 1 = 0 := by simp [single, Model.HestonAsian.dTau, Model.HestonAsian.tau]
  have hl := omegaTilde_last (single p spot r q strike T) (u * I) 0
  simp only [single, List.length_singleton] at hl
  rw [hd, coef_zero _ _ _ hs]
  simp only [single] at hl ⊢
  rw [hl]
  simp [Model.HestonAsian.omega, Model.HestonAsian.n]

theorem single_f (hp : HestonValid p) (a b : ℂ) (ha : a = exp (1 / 2 * T * p.d u)) (hb : b = exp (-(1 / 2 * T * p.d u))) :
    (single p spot r q strike T).f ((single p spot r q strike T).z (u * I) 0 0) ((single p spot r q strike T).omegaTilde (u * I) 0 1) T =
      (a + b) / 2 + (p.meanReversion - p.s u) * ((a - b) / 2) / p.d u ∧
    (single p spot r q strike T).fTilde ((single p spot r q strike T).z (u * I) 0 0) ((single p spot r q strike T).omegaTilde (u * I) 0 1) T =
      1 / 2 * p.d u * ((a - b) / 2) + 1 / 2 * ((p.meanReversion - p.s u) * ((a + b) / 2)) := by
  have hs := hp.volvol_pos.ne'
  have hs' : (p.volvol : ℂ) ≠ 0 := by exact_mod_cast hs
  have e : (p.meanReversion : ℂ) - p.rho / p.volvol * (u * I) * (p.volvol : ℂ) ^ 2 = p.meanReversion - p.s u := by
    unfold HestonOptionParams.s
    field_simp
  unfold Model.HestonAsian.f Model.HestonAsian.fTilde
  rw [single_root p spot r q strike T u hs, single_omega p spot r q strike T u hs]
  have hpar : (single p spot r q strike T).params = p := rfl
  rw [hpar, e, Complex.cosh, Complex.sinh, ← ha, ← hb]
  exact ⟨rfl, rfl⟩

theorem exp_longLog (hp : HestonValid p) (hT : 0 ≤ T) :
    exp (longLog p u T) =
      (single p spot r q strike T).f ((single p spot r q strike T).z (u * I) 0 0) ((single p spot r q strike T).omegaTilde (u * I) 0 1) T := by
  obtain ⟨h1, h2, h3⟩ := C82_no_branch_cut p hp u T hT
  obtain ⟨a, ha⟩ : ∃ a, a = exp (1 / 2 * T * p.d u) := ⟨_, rfl⟩
  obtain ⟨b, hb⟩ : ∃ b, b = exp (-(1 / 2 * T * p.d u)) := ⟨_, rfl⟩
  rw [(single_f p spot r q strike T u hp a b ha hb).1]
  unfold longLog
  rw [exp_add, exp_log (slitPlane_ne_zero h1), Heston.ratio p hp, ← ha]
  have hab : a * b = 1 := by
    rw [ha, hb, ← exp_add, add_neg_cancel, exp_zero]
  have he : exp (-p.d u * T) = b ^ 2 := by
    rw [hb, ← exp_nat_mul]
    congr 1
    push_cast
    ring
  have hd := Heston.d_ne p hp u
  rw [he]
  push_cast
  field_simp
  linear_combination ((p.d u) * b - (p.meanReversion - p.s u) * b) * hab

end HestonAsian

/-- C102. With one sampling time at the expiry `phi` is the characteristic function of the European option (C82) times a factor, which is one exactly if the
principal logarithm of `f` is the continuous one. -/
theorem C102_single (p : HestonOptionParams) (hp : HestonValid p) (spot r q strike T u : ℝ) (hT : 0 ≤ T) :
    (HestonAsian.single p spot r q strike T).phi (u * I) 0 =
      exp (u * I * (Real.log spot + (r - q) * T)) * p.charFun T u *
        exp (2 * p.meanReversion * p.theta / (p.volvol : ℂ) ^ 2 * (HestonAsian.longLog p u T - log (exp (HestonAsian.longLog p u T)))) := by
  have hs := hp.volvol_pos.ne'
  have hs' : (p.volvol : ℂ) ≠ 0 := by exact_mod_cast hs
  obtain ⟨a, ha⟩ : ∃ a, a = exp (1 / 2 * T * p.d u) := ⟨_, rfl⟩
  obtain ⟨b, hb⟩ : ∃ b, b = exp (-(1 / 2 * T * p.d u)) := ⟨_, rfl⟩
  obtain ⟨hf1, hf2⟩ := HestonAsian.single_f p spot r q strike T u hp a b ha hb
  have hfe := HestonAsian.exp_longLog p spot r q strike T u hp hT
  rw [HestonAsian.phi_eq _ _ _ (by simp [HestonAsian.single, Model.HestonAsian.n])]
  unfold HestonAsian.value
  rw [HestonAsian.single_weight]
  have ht : (HestonAsian.single p spot r q strike T).tau (0 + 1) - 0 = T := by simp [HestonAsian.single, Model.HestonAsian.tau]
  have hd1 : (HestonAsian.single p spot r q strike T).dTau 1 = 0 := by simp [HestonAsian.single, Model.HestonAsian.dTau, Model.HestonAsian.tau]
  have hrest : HestonAsian.rest (HestonAsian.single p spot r q strike T) (u * I) 0 0 = u * I * T * ((HestonAsian.single p spot r q strike T).modDrift : ℝ) := by
    unfold HestonAsian.rest
    rw [show (HestonAsian.single p spot r q strike T).times.length + 1 = 2 from rfl, Finset.sum_Ico_eq_sum_range, Finset.sum_range_one]
    simp only [add_zero, zero_add]
    rw [hd1, HestonAsian.level_zero]
    simp [HestonAsian.single, Model.HestonAsian.n, Model.HestonAsian.tau]
  rw [ht, hrest]
  have hcoef : HestonAsian.coef (HestonAsian.single p spot r q strike T) ((HestonAsian.single p spot r q strike T).z (u * I) 0 0)
      ((HestonAsian.single p spot r q strike T).omegaTilde (u * I) 0 (0 + 1)) T - p.rho / p.volvol * (u * I) = p.dNew u T := by
    unfold HestonAsian.coef
    rw [zero_add, hf2, hf1]
    have hne : (a + b) / 2 + (p.meanReversion - p.s u) * ((a - b) / 2) / p.d u ≠ 0 := by
      rw [← hf1, ← hfe]
      exact exp_ne_zero _
    have hab : a * b = 1 := by
      rw [ha, hb, ← exp_add, add_neg_cancel, exp_zero]
    have he : exp (-p.d u * T) = b ^ 2 := by
      rw [hb, ← exp_nat_mul]
      congr 1
      push_cast
      ring
    obtain ⟨_, h2, h3⟩ := C82_no_branch_cut p hp u T hT
    have hd := Heston.d_ne p hp u
    have hbd := Heston.beta_add_d_ne p hp u
    unfold HestonOptionParams.dNew
    dsimp only
    unfold HestonOptionParams.h HestonOptionParams.g at h2 ⊢
    rw [he] at h2 ⊢
    have hes : (p.rho : ℂ) / p.volvol * (u * I) = p.s u / (p.volvol : ℂ) ^ 2 := by
      unfold HestonOptionParams.s
      field_simp
    have hpar : (HestonAsian.single p spot r q strike T).params = p := rfl
    rw [hes, hpar]
    obtain ⟨be, hbe⟩ : ∃ be, be = (p.meanReversion : ℂ) - p.s u := ⟨_, rfl⟩
    have hk : (p.meanReversion : ℂ) = be + p.s u := by rw [hbe]; ring
    rw [← hbe] at hne h2 hbd ⊢
    rw [hk]
    generalize p.d u = d at *
    generalize p.s u = s at *
    have hb0 : b ≠ 0 := by
      intro h0
      rw [h0, mul_zero] at hab
      exact zero_ne_one hab
    have hne2 : d * (a + b) + be * (a - b) ≠ 0 := by
      intro h0
      apply hne
      have : (a + b) / 2 + be * ((a - b) / 2) / d = (d * (a + b) + be * (a - b)) / (2 * d) := by
        field_simp
      rw [this, h0, zero_div]
    have hne3 : (be + d) - (be - d) * b ^ 2 ≠ 0 := by
      intro h0
      apply h2
      field_simp
      linear_combination h0
    have e1 : (be + s) / (p.volvol : ℂ) ^ 2 - 2 * (1 / 2 * d * ((a - b) / 2) + 1 / 2 * (be * ((a + b) / 2))) /
        (((a + b) / 2 + be * ((a - b) / 2) / d) * (p.volvol : ℂ) ^ 2) - s / (p.volvol : ℂ) ^ 2 =
        (be ^ 2 - d ^ 2) * (a - b) / (d * (a + b) + be * (a - b)) / (p.volvol : ℂ) ^ 2 := by
      have : (a + b) / 2 + be * ((a - b) / 2) / d = (d * (a + b) + be * (a - b)) / (2 * d) := by
        field_simp
      rw [this]
      field_simp
      ring
    have e2 : (be - d) / (p.volvol : ℂ) ^ 2 * ((1 - b ^ 2) / (1 - (be - d) / (be + d) * b ^ 2)) =
        (be ^ 2 - d ^ 2) * (1 - b ^ 2) / ((be + d) - (be - d) * b ^ 2) / (p.volvol : ℂ) ^ 2 := by
      have : 1 - (be - d) / (be + d) * b ^ 2 = ((be + d) - (be - d) * b ^ 2) / (be + d) := by
        field_simp
      rw [this]
      field_simp
      ring
    rw [e1, e2]
    congr 1
    rw [div_eq_div_iff hne2 hne3]
    linear_combination ((be ^ 2 - d ^ 2) * (2 * d * b)) * hab
  have hpar : (HestonAsian.single p spot r q strike T).params = p := rfl
  have hlevel : HestonAsian.level (HestonAsian.single p spot r q strike T) ((HestonAsian.single p spot r q strike T).z (u * I) 0 0)
      ((HestonAsian.single p spot r q strike T).omegaTilde (u * I) 0 (0 + 1)) T =
      (p.meanReversion : ℂ) * p.theta * (p.meanReversion * T / (p.volvol : ℂ) ^ 2 - 2 / (p.volvol : ℂ) ^ 2 * log (exp (HestonAsian.longLog p u T))) := by
    unfold HestonAsian.level
    rw [zero_add, ← hfe, hpar]
  rw [hpar, hcoef, hlevel, HestonOptionParams.charFun, ← exp_add, ← exp_add]
  refine congrArg exp ?_
  have hspot : (HestonAsian.single p spot r q strike T).spot = spot := rfl
  rw [hspot]
  generalize log (exp (HestonAsian.longLog p u T)) = Lg
  unfold HestonAsian.longLog HestonOptionParams.c
  dsimp only
  generalize log ((1 - p.h u T) / (1 - p.g u)) = M
  have hmod : ((HestonAsian.single p spot r q strike T).modDrift : ℂ) = r - q - p.rho * p.meanReversion * p.theta / p.volvol := by
    unfold Model.HestonAsian.modDrift HestonAsian.single
    push_cast
    rfl
  rw [hmod]
  have hsu : p.s u = p.rho * p.volvol * (u * I) := rfl
  rw [hsu]
  push_cast
  field_simp
  ring

/-- C102. With one sampling time the transform is that of the European option as long as the continuous logarithm of `f` stays in the principal strip. -/
theorem C102_single_partial (p : HestonOptionParams) (hp : HestonValid p) (spot r q strike T u : ℝ) (hT : 0 ≤ T)
    (h1 : -Real.pi < (HestonAsian.longLog p u T).im) (h2 : (HestonAsian.longLog p u T).im ≤ Real.pi) :
    (HestonAsian.single p spot r q strike T).phi (u * I) 0 = exp (u * I * (Real.log spot + (r - q) * T)) * p.charFun T u := by
  rw [C102_single p hp spot r q strike T u hT, log_exp h1 h2]
  simp

/-- Parameters with the root `1 + i / 3` at `u = 2 / 3`. -/
noncomputable def branchParams (v : ℝ) : HestonOptionParams := ⟨v, 2 / 3, 3 / 20, 1, 0⟩

theorem branchParams_valid (v : ℝ) : HestonValid (branchParams v) := ⟨by norm_num [branchParams], by norm_num [branchParams], by norm_num [branchParams]⟩

theorem branch_s (v : ℝ) : (branchParams v).s (2 / 3) = 0 := by simp [HestonOptionParams.s, branchParams]

theorem branch_d (v : ℝ) : (branchParams v).d (2 / 3) = 1 + 1 / 3 * I := by
  have h := Heston.d_sq (branchParams v) (2 / 3)
  have hre := (Heston.d_re (branchParams v) (branchParams_valid v) (2 / 3)).1
  rw [branch_s] at h
  have h2 : (branchParams v).d (2 / 3) ^ 2 = (1 + 1 / 3 * I) ^ 2 := by
    rw [h]
    simp only [branchParams]
    push_cast
    have hI : I ^ 2 = -1 := I_sq
    linear_combination (-1 / 9 : ℂ) * hI
  rcases sq_eq_sq_iff_eq_or_eq_neg.mp h2 with h3 | h3
  · exact h3
  · exfalso
    rw [h3] at hre
    norm_num at hre

/-- C102. With a long interval the principal logarithm in `phi` is not the continuous one: here `phi` differs from the characteristic function of the model
(C82) by a factor, although the option is the European one. -/
theorem C102_branch_deviates (v spot r q strike : ℝ) :
    (HestonAsian.single (branchParams v) spot r q strike 30).phi ((2 / 3 : ℝ) * I) 0 =
      exp ((2 / 3 : ℝ) * I * (Real.log spot + (r - q) * (30 : ℝ))) * (branchParams v).charFun 30 (2 / 3) * exp (2 * Real.pi * I / 5) ∧
    (HestonAsian.single (branchParams v) spot r q strike 30).phi ((2 / 3 : ℝ) * I) 0 ≠
      exp ((2 / 3 : ℝ) * I * (Real.log spot + (r - q) * (30 : ℝ))) * (branchParams v).charFun 30 (2 / 3) := by
  have hp := branchParams_valid v
  have hpi := Real.pi_gt_three
  have hpi2 := Real.pi_lt_d2
  have hL : (HestonAsian.longLog (branchParams v) (2 / 3) 30).im =
      5 + arg ((1 - (branchParams v).h (2 / 3) 30) / (1 - (branchParams v).g (2 / 3))) := by
    unfold HestonAsian.longLog
    rw [branch_d, add_im, log_im]
    congr 1
    norm_num
  have hre : 0 < ((1 - (branchParams v).h (2 / 3) 30) / (1 - (branchParams v).g (2 / 3))).re := by
    rw [Heston.ratio _ hp, branch_s, branch_d]
    obtain ⟨e, he⟩ : ∃ e : ℂ, e = exp (-(1 + 1 / 3 * I) * (30 : ℝ)) := ⟨_, rfl⟩
    have hn : ‖e‖ ≤ 1 := by
      rw [he, norm_exp]
      refine Real.exp_le_one_iff.2 ?_
      norm_num
    have h1 := abs_re_le_norm e
    have h2 := abs_im_le_norm e
    rw [abs_le] at h1 h2
    rw [← he]
    have hq : (((branchParams v).meanReversion : ℂ) - 0) / (1 + 1 / 3 * I) = 3 / 5 - 1 / 5 * I := by
      have hne : (1 : ℂ) + 1 / 3 * I ≠ 0 := by
        intro h0
        have := congrArg re h0
        norm_num at this
      rw [div_eq_iff hne]
      simp only [branchParams]
      have hI : I ^ 2 = -1 := I_sq
      push_cast
      linear_combination (1 / 15 : ℂ) * hI
    rw [hq, re_ofReal_mul]
    have : ((1 + e) + (3 / 5 - 1 / 5 * I) * (1 - e)).re = 1 + e.re + (3 / 5 * (1 - e.re) - 1 / 5 * e.im) := by
      simp
    rw [this]
    nlinarith
  have harg := abs_arg_lt_pi_div_two_iff.2 (Or.inl hre)
  rw [abs_lt] at harg
  have hlog : log (exp (HestonAsian.longLog (branchParams v) (2 / 3) 30)) = HestonAsian.longLog (branchParams v) (2 / 3) 30 - 2 * Real.pi * I := by
    have e : exp (HestonAsian.longLog (branchParams v) (2 / 3) 30) = exp (HestonAsian.longLog (branchParams v) (2 / 3) 30 - 2 * Real.pi * I) := by
      rw [exp_sub, exp_two_pi_mul_I, div_one]
    have him : (HestonAsian.longLog (branchParams v) (2 / 3) 30 - 2 * Real.pi * I).im = (HestonAsian.longLog (branchParams v) (2 / 3) 30).im - 2 * Real.pi := by
      simp
    rw [e, log_exp]
    · rw [him, hL]
      linarith [harg.1]
    · rw [him, hL]
      linarith [harg.2]
  have key := C102_single (branchParams v) hp spot r q strike 30 (2 / 3) (by norm_num)
  have hfac : exp (2 * ((branchParams v).meanReversion : ℂ) * (branchParams v).theta / ((branchParams v).volvol : ℂ) ^ 2 *
      (HestonAsian.longLog (branchParams v) (2 / 3) 30 - log (exp (HestonAsian.longLog (branchParams v) (2 / 3) 30)))) = exp (2 * Real.pi * I / 5) := by
    rw [hlog]
    refine congrArg exp ?_
    simp only [branchParams]
    push_cast
    ring
  rw [hfac] at key
  refine ⟨key, ?_⟩
  rw [key]
  intro h0
  have hne : exp ((2 / 3 : ℝ) * I * (Real.log spot + (r - q) * (30 : ℝ))) * (branchParams v).charFun 30 (2 / 3) ≠ 0 :=
    mul_ne_zero (exp_ne_zero _) (exp_ne_zero _)
  have h1 : exp (2 * Real.pi * I / 5) = 1 := mul_left_cancel₀ hne (h0.trans (mul_one _).symm)
  rw [exp_eq_one_iff] at h1
  obtain ⟨n, hn⟩ := h1
  have hpi0 : (2 * Real.pi * I : ℂ) ≠ 0 := two_pi_I_ne_zero
  have h2 : (n : ℂ) * 5 = 1 := by
    refine mul_right_cancel₀ hpi0 ?_
    linear_combination -5 * hn
  have h3 : n * 5 = 1 := by exact_mod_cast h2
  omega

end Props
