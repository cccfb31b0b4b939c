import Verif.Model.HestonOption
import Verif.Spec.HestonOption
import Verif.Lemmas.HestonTrap
import Mathlib.Analysis.SpecialFunctions.Complex.LogDeriv
import Mathlib.Analysis.SpecialFunctions.ExpDeriv
import Mathlib.Analysis.Calculus.Deriv.Inv
import Mathlib.Analysis.Calculus.MeanValue
import Mathlib.Analysis.Calculus.Deriv.MeanValue

/-! # C82: European options in the model of Heston -/

namespace Props

open Model Complex

/-- The parameters for which the statements on the characteristic function hold. -/
structure HestonValid (p : HestonOptionParams) : Prop where
  meanReversion_pos : 0 < p.meanReversion
  volvol_pos : 0 < p.volvol
  rho_le : |p.rho| ≤ 1

namespace Heston

theorem d_sq (p : HestonOptionParams) (u : ℝ) :
    p.d u ^ 2 = (p.meanReversion - p.s u) ^ 2 + (p.volvol : ℂ) ^ 2 * ((u : ℂ) ^ 2 + u * I) := by
  unfold HestonOptionParams.d
  simp only []
  rw [cpow_nat_inv_pow _ (by norm_num : (2 : ℕ) ≠ 0)]
  ring

theorem cpow_half_re_nonneg (z : ℂ) : 0 ≤ (z ^ (((2 : ℕ) : ℂ)⁻¹)).re := by
  by_cases hz : z = 0
  · subst hz; rw [zero_cpow (by norm_num)]; simp
  rw [cpow_def_of_ne_zero hz, exp_re]
  refine mul_nonneg (Real.exp_pos _).le ?_
  have : (log z * (((2 : ℕ) : ℂ)⁻¹)).im = arg z / 2 := by
    have h : (((2 : ℕ) : ℂ)⁻¹) = ((1 / 2 : ℝ) : ℂ) := by push_cast; norm_num
    rw [h, im_mul_ofReal, log_im]; ring
  rw [this]
  exact Real.cos_nonneg_of_neg_pi_div_two_le_of_le (by linarith [neg_pi_lt_arg z]) (by linarith [arg_le_pi z])

theorem s_re (p : HestonOptionParams) (u : ℝ) : (p.s u).re = 0 := by unfold HestonOptionParams.s; simp

theorem s_im (p : HestonOptionParams) (u : ℝ) : (p.s u).im = p.rho * p.volvol * u := by unfold HestonOptionParams.s; simp

theorem d_re (p : HestonOptionParams) (hp : HestonValid p) (u : ℝ) : 0 < (p.d u).re ∧ |(p.d u).im| < (p.d u).re := by
  have h0 : 0 ≤ (p.d u).re := by unfold HestonOptionParams.d; exact cpow_half_re_nonneg _
  have h := congrArg re (d_sq p u)
  have hr : ((p.meanReversion - p.s u) ^ 2 + (p.volvol : ℂ) ^ 2 * ((u : ℂ) ^ 2 + u * I)).re =
      p.meanReversion ^ 2 + (1 - p.rho ^ 2) * (p.volvol * u) ^ 2 := by
    have e1 : ((p.meanReversion - p.s u) ^ 2).re = p.meanReversion ^ 2 - (p.rho * p.volvol * u) ^ 2 := by
      rw [pow_two, mul_re, sub_re, sub_im, s_re, s_im]; simp; ring
    have e2 : ((p.volvol : ℂ) ^ 2 * ((u : ℂ) ^ 2 + u * I)).re = p.volvol ^ 2 * u ^ 2 := by
      have : ((p.volvol : ℂ) ^ 2) = ((p.volvol ^ 2 : ℝ) : ℂ) := by push_cast; ring
      rw [this, re_ofReal_mul, add_re]
      have : ((u : ℂ) ^ 2) = ((u ^ 2 : ℝ) : ℂ) := by push_cast; ring
      rw [this, ofReal_re]; simp
    rw [add_re, e1, e2]; ring
  rw [hr, pow_two, mul_re] at h
  have hk := hp.meanReversion_pos
  have hrho : p.rho ^ 2 ≤ 1 := (sq_le_one_iff_abs_le_one _).mpr hp.rho_le
  have hpos : 0 < p.meanReversion ^ 2 + (1 - p.rho ^ 2) * (p.volvol * u) ^ 2 :=
    add_pos_of_pos_of_nonneg (by positivity) (mul_nonneg (by linarith) (sq_nonneg _))
  have hlt : (p.d u).im ^ 2 < (p.d u).re ^ 2 := by nlinarith
  have h1 : |(p.d u).im| < (p.d u).re := by
    have := sq_lt_sq.mp hlt
    rwa [abs_of_nonneg h0] at this
  exact ⟨lt_of_le_of_lt (abs_nonneg _) h1, h1⟩

theorem beta_re (p : HestonOptionParams) (u : ℝ) : ((p.meanReversion : ℂ) - p.s u).re = p.meanReversion := by
  rw [sub_re, s_re, ofReal_re, sub_zero]

theorem d_ne (p : HestonOptionParams) (hp : HestonValid p) (u : ℝ) : p.d u ≠ 0 := by
  intro h0
  have := (d_re p hp u).1
  rw [h0] at this
  simp at this

theorem beta_add_d_ne (p : HestonOptionParams) (hp : HestonValid p) (u : ℝ) : (p.meanReversion : ℂ) - p.s u + p.d u ≠ 0 := by
  intro h0
  have h := congrArg re h0
  rw [add_re, beta_re, zero_re] at h
  have := (d_re p hp u).1
  have := hp.meanReversion_pos
  linarith

theorem one_sub_g (p : HestonOptionParams) (hp : HestonValid p) (u : ℝ) :
    1 - p.g u = 2 * p.d u / ((p.meanReversion : ℂ) - p.s u + p.d u) := by
  have := beta_add_d_ne p hp u
  unfold HestonOptionParams.g
  field_simp
  ring

theorem one_sub_g_ne (p : HestonOptionParams) (hp : HestonValid p) (u : ℝ) : 1 - p.g u ≠ 0 := by
  rw [one_sub_g p hp]
  exact div_ne_zero (mul_ne_zero two_ne_zero (d_ne p hp u)) (beta_add_d_ne p hp u)

theorem ratio (p : HestonOptionParams) (hp : HestonValid p) (u t : ℝ) :
    (1 - p.h u t) / (1 - p.g u) = ((1 / 2 : ℝ) : ℂ) *
      ((1 + exp (-p.d u * t)) + ((p.meanReversion : ℂ) - p.s u) / p.d u * (1 - exp (-p.d u * t))) := by
  have h1 := beta_add_d_ne p hp u
  have h2 := d_ne p hp u
  rw [one_sub_g p hp]
  unfold HestonOptionParams.h HestonOptionParams.g
  push_cast
  field_simp
  ring

end Heston

/-- The argument of the logarithm never meets the branch cut, so that the principal logarithm is the continuous one
("the little Heston trap"). -/
theorem C82_no_branch_cut (p : HestonOptionParams) (hp : HestonValid p) (u t : ℝ) (ht : 0 ≤ t) :
    (1 - p.h u t) / (1 - p.g u) ∈ slitPlane ∧ 1 - p.h u t ≠ 0 ∧ 1 - p.g u ≠ 0 := by
  have h1 : (1 - p.h u t) / (1 - p.g u) ∈ slitPlane := by
    rw [Heston.ratio p hp]
    have h := HestonTrap.mem_slitPlane (β := (p.meanReversion : ℂ) - p.s u) (by rw [Heston.beta_re]; exact hp.meanReversion_pos)
      (Heston.d_re p hp u).1 (Heston.d_re p hp u).2 ht
    rw [mem_slitPlane_iff] at h ⊢
    rw [re_ofReal_mul, im_ofReal_mul]
    rcases h with h | h
    · left; linarith
    · right; intro h0; apply h; linarith
  refine ⟨h1, ?_, Heston.one_sub_g_ne p hp u⟩
  intro h0
  rw [h0, zero_div] at h1
  exact zero_notMem_slitPlane h1

namespace Heston

theorem hasDerivAt_exp (d : ℂ) (t : ℝ) : HasDerivAt (fun t : ℝ => exp (-d * t)) (-d * exp (-d * t)) t := by
  have h1 : HasDerivAt (fun z : ℂ => exp (-d * z)) (exp (-d * t) * (-d * 1)) (t : ℂ) :=
    ((hasDerivAt_id (t : ℂ)).const_mul (-d)).cexp
  have := h1.comp_ofReal
  rw [mul_one, mul_comm] at this
  exact this

theorem hasDerivAt_h (p : HestonOptionParams) (u t : ℝ) : HasDerivAt (fun t => p.h u t) (-p.d u * p.h u t) t := by
  have := (hasDerivAt_exp (p.d u) t).const_mul (p.g u)
  refine HasDerivAt.congr_deriv this ?_
  unfold HestonOptionParams.h
  ring

theorem key (p : HestonOptionParams) (hp : HestonValid p) (u t : ℝ) :
    p.h u t * ((p.meanReversion : ℂ) - p.s u + p.d u) = ((p.meanReversion : ℂ) - p.s u - p.d u) * exp (-p.d u * t) := by
  have := beta_add_d_ne p hp u
  unfold HestonOptionParams.h HestonOptionParams.g
  field_simp

end Heston

/-- The exponents of the characteristic function solve the equations of Riccati. -/
theorem C82_riccati (p : HestonOptionParams) (hp : HestonValid p) (u : ℝ) :
    Spec.IsHestonExponents p.meanReversion p.theta p.volvol p.rho u (fun t => p.c u t) (fun t => p.dNew u t) := by
  refine ⟨?_, ?_, ?_, ?_⟩
  · have : p.h u 0 = p.g u := by unfold HestonOptionParams.h; simp
    unfold HestonOptionParams.c
    simp only [this]
    rw [div_self (Heston.one_sub_g_ne p hp u)]
    simp
  · unfold HestonOptionParams.dNew; simp
  · intro t ht
    obtain ⟨h1, h2, h3⟩ := C82_no_branch_cut p hp u t ht
    have hv : (p.volvol : ℂ) ≠ 0 := by exact_mod_cast hp.volvol_pos.ne'
    have hlog : HasDerivAt (fun t : ℝ => log ((1 - p.h u t) / (1 - p.g u))) (p.d u * p.h u t / (1 - p.h u t)) t := by
      have hq : HasDerivAt (fun t : ℝ => (1 - p.h u t) / (1 - p.g u)) (-(-p.d u * p.h u t) / (1 - p.g u)) t :=
        ((Heston.hasDerivAt_h p u t).const_sub 1).div_const _
      have := hq.clog_real h1
      convert this using 1
      field_simp
    have hlin : HasDerivAt (fun t : ℝ => ((p.meanReversion : ℂ) - p.s u - p.d u) * (t : ℂ)) ((p.meanReversion : ℂ) - p.s u - p.d u) t := by
      have := (hasDerivAt_id t).ofReal_comp.const_mul ((p.meanReversion : ℂ) - p.s u - p.d u)
      simpa using this
    have := (hlin.sub (hlog.const_mul 2)).const_mul ((p.meanReversion : ℂ) * p.theta / (p.volvol : ℂ) ^ 2)
    refine HasDerivAt.congr_deriv this ?_
    unfold HestonOptionParams.dNew
    simp only []
    have hk := Heston.key p hp u t
    generalize exp (-p.d u * t) = w at *
    generalize p.h u t = h at *
    generalize p.d u = d at *
    generalize p.s u = s at *
    field_simp
    linear_combination (-(p.meanReversion : ℂ) * p.theta) * hk
  · intro t ht
    obtain ⟨h1, h2, h3⟩ := C82_no_branch_cut p hp u t ht
    have hv : (p.volvol : ℂ) ≠ 0 := by exact_mod_cast hp.volvol_pos.ne'
    have := ((((Heston.hasDerivAt_exp (p.d u) t).const_sub 1).div ((Heston.hasDerivAt_h p u t).const_sub 1) h2).const_mul
      (((p.meanReversion : ℂ) - p.s u - p.d u) / (p.volvol : ℂ) ^ 2))
    refine HasDerivAt.congr_deriv this ?_
    unfold HestonOptionParams.dNew
    simp only []
    have hk := Heston.key p hp u t
    have hd := Heston.d_sq p u
    have hs : (p.rho : ℂ) * p.volvol * (u * I) = p.s u := rfl
    rw [hs]
    generalize exp (-p.d u * t) = w at *
    generalize p.h u t = h at *
    generalize p.d u = d at *
    generalize p.s u = s at *
    generalize (u : ℂ) ^ 2 + u * I = U at *
    field_simp
    linear_combination ((p.meanReversion : ℂ) - s - d) * (w - h) * hk - (1 - h) ^ 2 * hd

/-- Exponentials `e^{iux + C(T - t) + D(T - t) v}` with exponents that solve the equations of Riccati solve the backward equation. -/
theorem Heston.affine (k theta sigma rho u : ℝ) (C D : ℝ → ℂ) (h : Spec.IsHestonExponents k theta sigma rho u C D) (T t x v : ℝ)
    (ht : t ≤ T) :
    Spec.SolvesHeston k theta sigma rho (fun t x v => exp (u * I * x + (C (T - t) + D (T - t) * v))) t x v := by
  have hf : ∀ y w : ℝ, HasDerivAt (fun z : ℝ => exp (u * I * z + (C (T - t) + D (T - t) * w)))
      (u * I * exp (u * I * y + (C (T - t) + D (T - t) * w))) y := by
    intro y w
    have h1 : HasDerivAt (fun z : ℝ => (u : ℂ) * I * z + (C (T - t) + D (T - t) * w)) ((u : ℂ) * I) y := by
      have := ((hasDerivAt_id y).ofReal_comp.const_mul ((u : ℂ) * I)).add_const (C (T - t) + D (T - t) * w)
      simpa using this
    refine h1.cexp.congr_deriv (mul_comm _ _)
  have hg : ∀ y w : ℝ, HasDerivAt (fun z : ℝ => exp (u * I * y + (C (T - t) + D (T - t) * z)))
      (D (T - t) * exp (u * I * y + (C (T - t) + D (T - t) * w))) w := by
    intro y w
    have h1 : HasDerivAt (fun z : ℝ => (u : ℂ) * I * y + (C (T - t) + D (T - t) * z)) (D (T - t)) w := by
      have := (((hasDerivAt_id w).ofReal_comp.const_mul (D (T - t))).const_add (C (T - t))).const_add ((u : ℂ) * I * y)
      simpa using this
    refine h1.cexp.congr_deriv (mul_comm _ _)
  refine ⟨-(k * theta * D (T - t) + (sigma ^ 2 / 2 * D (T - t) ^ 2 + (rho * sigma * (u * I) - k) * D (T - t) -
      ((u : ℂ) ^ 2 + u * I) / 2) * v) * exp (u * I * x + (C (T - t) + D (T - t) * v)),
    fun y w => u * I * exp (u * I * y + (C (T - t) + D (T - t) * w)), fun y w => D (T - t) * exp (u * I * y + (C (T - t) + D (T - t) * w)),
    u * I * (u * I * exp (u * I * x + (C (T - t) + D (T - t) * v))),
    u * I * (D (T - t) * exp (u * I * x + (C (T - t) + D (T - t) * v))),
    D (T - t) * (D (T - t) * exp (u * I * x + (C (T - t) + D (T - t) * v))), ?_, hf, hg, ?_, ?_, ?_, ?_⟩
  · have hs : HasDerivAt (fun s : ℝ => T - s) (-1) t := by simpa using (hasDerivAt_id t).const_sub T
    have hC := (h.C_deriv (T - t) (by linarith)).scomp t hs
    have hD := (h.D_deriv (T - t) (by linarith)).scomp t hs
    have h1 := ((hC.add (hD.mul_const (v : ℂ))).const_add ((u : ℂ) * I * x)).cexp
    refine h1.congr_deriv ?_
    simp only [Function.comp, Pi.add_apply]
    rw [neg_one_smul, neg_one_smul]
    ring
  · exact (hf x v).const_mul ((u : ℂ) * I)
  · exact (hg x v).const_mul ((u : ℂ) * I)
  · exact (hg x v).const_mul (D (T - t))
  · dsimp only
    push_cast
    generalize exp (u * I * x + (C (T - t) + D (T - t) * v)) = E
    have hI : I ^ 2 = -1 := I_sq
    linear_combination ((v : ℂ) / 2 * u ^ 2 * E) * hI

/-- `e^{iux}` times the characteristic function of the code is a solution of the backward equation of the model, with terminal value
`e^{iux}`: it is the conditional characteristic function of the logarithm of the spot divided by the forward. -/
theorem C82_backward_equation (p : HestonOptionParams) (hp : HestonValid p) (u T : ℝ) :
    (∀ t x v : ℝ, t ≤ T → Spec.SolvesHeston p.meanReversion p.theta p.volvol p.rho
      (fun t x v => exp (u * I * x) * HestonOptionParams.charFun { p with variance := v } (T - t) u) t x v) ∧
    ∀ x v : ℝ, exp (u * I * x) * HestonOptionParams.charFun { p with variance := v } (T - T) u = exp (u * I * x) := by
  constructor
  · intro t x v ht
    have h := Heston.affine _ _ _ _ u _ _ (C82_riccati p hp u) T t x v ht
    have e : (fun t x v : ℝ => exp (u * I * x) * HestonOptionParams.charFun { p with variance := v } (T - t) u) =
        fun t x v : ℝ => exp (u * I * x + (p.c u (T - t) + p.dNew u (T - t) * v)) := by
      funext t x v
      rw [exp_add (u * I * x)]
      rfl
    rw [e]
    exact h
  · intro x v
    have h := C82_riccati p hp u
    have h1 : p.c u 0 = 0 := h.C_zero
    have h2 : p.dNew u 0 = 0 := h.D_zero
    have : HestonOptionParams.charFun { p with variance := v } (T - T) u = exp (p.c u (T - T) + p.dNew u (T - T) * v) := rfl
    rw [this, sub_self, h1, h2]
    simp

/-- At zero the characteristic function of the code is one. -/
theorem C82_at_zero (p : HestonOptionParams) (hp : HestonValid p) (t : ℝ) : p.charFun t 0 = 1 := by
  have hs : p.s 0 = 0 := by unfold HestonOptionParams.s; simp
  have hd : p.d 0 = p.meanReversion := by
    have h := Heston.d_sq p 0
    rw [hs] at h
    simp only [sub_zero, ofReal_zero, zero_mul, add_zero, ne_eq, OfNat.ofNat_ne_zero, not_false_eq_true, zero_pow, mul_zero] at h
    rcases sq_eq_sq_iff_eq_or_eq_neg.mp h with h | h
    · exact h
    · exfalso
      have h1 := (Heston.d_re p hp 0).1
      rw [h, neg_re, ofReal_re] at h1
      have := hp.meanReversion_pos
      linarith
  have hb : (p.meanReversion : ℂ) - p.s 0 - p.d 0 = 0 := by rw [hs, hd]; ring
  have hg : p.g 0 = 0 := by unfold HestonOptionParams.g; rw [hb, zero_div]
  have hh : p.h 0 t = 0 := by unfold HestonOptionParams.h; rw [hg, zero_mul]
  unfold HestonOptionParams.charFun HestonOptionParams.c HestonOptionParams.dNew
  simp only [hb, hg, hh]
  simp

theorem Heston.hasDerivAt_re {f : ℝ → ℂ} {f' : ℂ} {t : ℝ} (h : HasDerivAt f f' t) : HasDerivAt (fun t => (f t).re) f'.re t :=
  (reCLM.hasFDerivAt.comp_hasDerivAt t h)

/-- The real part of the exponent multiplying the variance is nowhere positive. -/
theorem Heston.exponents_nonpos (k theta sigma rho u : ℝ) (C D : ℝ → ℂ) (h : Spec.IsHestonExponents k theta sigma rho u C D)
    (hk : 0 ≤ k) (hθ : 0 ≤ theta) (hσ : 0 < sigma) (hρ : |rho| ≤ 1) (t : ℝ) (ht : 0 ≤ t) : (C t).re ≤ 0 ∧ (D t).re ≤ 0 := by
  have hre : ∀ s : ℝ, 0 ≤ s → HasDerivAt (fun t => (D t).re) (sigma ^ 2 / 2 * ((D s).re ^ 2 - (D s).im ^ 2) - k * (D s).re -
      rho * sigma * u * (D s).im - u ^ 2 / 2) s := by
    intro s hs
    have h1 := (Heston.hasDerivAt_re (h.D_deriv s hs))
    refine h1.congr_deriv ?_
    have e1 : (sigma : ℂ) ^ 2 / 2 = ((sigma ^ 2 / 2 : ℝ) : ℂ) := by push_cast; ring
    have e2 : ((rho : ℂ) * sigma * (u * I) - k) = ((-k : ℝ) : ℂ) + ((rho * sigma * u : ℝ) : ℂ) * I := by push_cast; ring
    have e3 : ((u : ℂ) ^ 2 + u * I) / 2 = ((u ^ 2 / 2 : ℝ) : ℂ) + ((u / 2 : ℝ) : ℂ) * I := by push_cast; ring
    rw [e1, e2, e3]
    simp only [add_re, sub_re, re_ofReal_mul, mul_re, pow_two, ofReal_re, ofReal_im, I_re, I_im, add_im, mul_im]
    ring
  have hD : ∀ t : ℝ, 0 ≤ t → (D t).re ≤ 0 := by
    intro T hT
    by_contra hpos
    push Not at hpos
    -- compare with the function `δ e^{σ² s}`, for `δ` small
    obtain ⟨δ, hδ, hδ1, hδ2⟩ : ∃ δ : ℝ, 0 < δ ∧ δ * Real.exp (sigma ^ 2 * T) ≤ 1 ∧ δ * Real.exp (sigma ^ 2 * T) < (D T).re := by
      refine ⟨min 1 ((D T).re / 2) / Real.exp (sigma ^ 2 * T), by positivity, ?_, ?_⟩
      · rw [div_mul_cancel₀ _ (Real.exp_pos _).ne']; exact min_le_left _ _
      · rw [div_mul_cancel₀ _ (Real.exp_pos _).ne']; exact lt_of_le_of_lt (min_le_right _ _) (by linarith)
    have hB : ∀ s : ℝ, HasDerivAt (fun s => δ * Real.exp (sigma ^ 2 * s)) (sigma ^ 2 * (δ * Real.exp (sigma ^ 2 * s))) s := by
      intro s
      have := (((hasDerivAt_id s).const_mul (sigma ^ 2)).exp).const_mul δ
      refine this.congr_deriv ?_
      simp only [id]
      ring
    have hle := image_le_of_deriv_right_lt_deriv_boundary' (a := 0) (b := T) (f := fun s => (D s).re)
      (f' := fun s => sigma ^ 2 / 2 * ((D s).re ^ 2 - (D s).im ^ 2) - k * (D s).re - rho * sigma * u * (D s).im - u ^ 2 / 2)
      (B := fun s => δ * Real.exp (sigma ^ 2 * s)) (B' := fun s => sigma ^ 2 * (δ * Real.exp (sigma ^ 2 * s)))
      (fun s hs => (hre s hs.1).continuousAt.continuousWithinAt) (fun s hs => (hre s hs.1).hasDerivWithinAt)
      (by simp only [h.D_zero, zero_re]; positivity) (fun s _ => (hB s).continuousAt.continuousWithinAt)
      (fun s _ => (hB s).hasDerivWithinAt) (by
        intro s hs he
        have hs1 : δ * Real.exp (sigma ^ 2 * s) ≤ 1 := by
          refine le_trans ?_ hδ1
          refine mul_le_mul_of_nonneg_left (Real.exp_le_exp.mpr ?_) hδ.le
          exact mul_le_mul_of_nonneg_left hs.2.le (by positivity)
        have hs0 : 0 < δ * Real.exp (sigma ^ 2 * s) := by positivity
        rw [← he] at hs1 hs0 ⊢
        generalize (D s).re = x at *
        generalize (D s).im = y at *
        have hq : 0 ≤ (sigma * y + rho * u) ^ 2 + (1 - rho ^ 2) * u ^ 2 :=
          add_nonneg (sq_nonneg _) (mul_nonneg (by have := (sq_le_one_iff_abs_le_one _).mpr hρ; linarith) (sq_nonneg _))
        have h1 : sigma ^ 2 / 2 * x ^ 2 ≤ sigma ^ 2 / 2 * x := mul_le_mul_of_nonneg_left (by nlinarith) (by positivity)
        have h2 : 0 ≤ k * x := by positivity
        have h3 : 0 < sigma ^ 2 * x := by positivity
        nlinarith)
      (x := T) ⟨hT, le_refl T⟩
    linarith
  refine ⟨?_, hD t ht⟩
  have hC : ∀ s : ℝ, 0 ≤ s → HasDerivAt (fun t => (C t).re) (k * theta * (D s).re) s := by
    intro s hs
    refine (Heston.hasDerivAt_re (h.C_deriv s hs)).congr_deriv ?_
    rw [mul_assoc, re_ofReal_mul, re_ofReal_mul]; ring
  have hanti : AntitoneOn (fun t => (C t).re) (Set.Ici 0) := by
    refine antitoneOn_of_deriv_nonpos (convex_Ici 0) (fun s hs => (hC s hs).continuousAt.continuousWithinAt)
      (fun s hs => (hC s (by rw [interior_Ici] at hs; exact hs.le)).differentiableAt.differentiableWithinAt) ?_
    intro s hs
    rw [interior_Ici] at hs
    rw [(hC s hs.le).deriv]
    exact mul_nonpos_of_nonneg_of_nonpos (mul_nonneg hk hθ) (hD s hs.le)
  have := hanti (Set.mem_Ici.mpr (le_refl 0)) (Set.mem_Ici.mpr ht) ht
  simp only [h.C_zero, zero_re] at this
  exact this

/-- The characteristic function of the code is bounded by one. -/
theorem C82_bounded (p : HestonOptionParams) (hp : HestonValid p) (hθ : 0 ≤ p.theta) (hv : 0 ≤ p.variance) (u t : ℝ) (ht : 0 ≤ t) :
    ‖p.charFun t u‖ ≤ 1 := by
  obtain ⟨h1, h2⟩ := Heston.exponents_nonpos _ _ _ _ u _ _ (C82_riccati p hp u) hp.meanReversion_pos.le hθ hp.volvol_pos hp.rho_le t ht
  unfold HestonOptionParams.charFun
  rw [norm_exp, Real.exp_le_one_iff, add_re, re_mul_ofReal]
  have := mul_nonpos_of_nonpos_of_nonneg h2 hv
  linarith

end Props
