import Verif.Props.AmericanApprox
import Verif.Lemmas.Bivariate

/-!
# Property theorems C76: the bivariate normal distribution of the 2002 approximation
-/

namespace Props
open Model Spec Lemmas ProbabilityTheory MeasureTheory

/-- The integrand of the code. -/
noncomputable def cbndIntegrand (dh dk rho x : ℝ) : ℝ :=
  Real.exp ((dh * dk * Real.sin (Real.arcsin rho * (x + 1) / 2) - (dh ^ 2 + dk ^ 2) / 2) /
    (1 - Real.sin (Real.arcsin rho * (x + 1) / 2) ^ 2))

theorem cbnd_eq (dh dk rho : ℝ) : cbnd dh dk rho =
    ((gaussLegendre (cbndIntegrand dh dk rho) (-1) 1 20).getD 0) * Real.arcsin rho / (4 * Real.pi) + normalCdf dh * normalCdf dk := by
  unfold cbnd
  dsimp only
  rw [neg_neg, neg_neg, ncdf_eq, ncdf_eq]
  congr 4
  congr 1
  funext x
  unfold cbndIntegrand
  congr 1
  rw [one_mul]
  congr 1 <;> ring

/-- C76: up to the error of the quadrature rule, the code's bivariate distribution function is the probability that two standard normal
variables with correlation `rho` are below `dh` and `dk`. (The documentation says above.) -/
theorem C76_cbnd (dh dk rho : ℝ) (h : |rho| < 1) :
    cbnd dh dk rho = ((gaussianReal 0 1).prod (gaussianReal 0 1)).real
        {p : ℝ × ℝ | p.1 ≤ dh ∧ p.1 * rho + p.2 * Real.sqrt (1 - rho ^ 2) ≤ dk} +
      Real.arcsin rho / (4 * Real.pi) *
        ((gaussLegendre (cbndIntegrand dh dk rho) (-1) 1 20).getD 0 - ∫ x in (-1 : ℝ)..1, cbndIntegrand dh dk rho x) := by
  obtain ⟨hl, hu⟩ := abs_lt.1 h
  have hsin : Real.sin (Real.arcsin rho) = rho := Real.sin_arcsin hl.le hu.le
  have hcos : Real.cos (Real.arcsin rho) = Real.sqrt (1 - rho ^ 2) := Real.cos_arcsin rho
  have h1 : -(Real.pi / 2) < Real.arcsin rho := Real.neg_pi_div_two_lt_arcsin.2 hl
  have h2 : Real.arcsin rho < Real.pi / 2 := Real.arcsin_lt_pi_div_two.2 hu
  have hc : 0 < Real.cos (Real.arcsin rho) := Real.cos_pos_of_mem_Ioo ⟨h1, h2⟩
  have hP := bivariateAt_probability dh dk (Real.arcsin rho) hc
  rw [hsin, hcos] at hP
  rw [cbnd_eq, ← hP, bivariateAt_eq dh dk _ h1 h2]
  have hsub : ∫ y in (0 : ℝ)..(Real.arcsin rho), 1 / (2 * Real.pi) * Real.exp (-(dh ^ 2 - 2 * dk * dh * Real.sin y + dk ^ 2) / (2 * Real.cos y ^ 2)) =
      Real.arcsin rho / (4 * Real.pi) * ∫ x in (-1 : ℝ)..1, cbndIntegrand dh dk rho x := by
    have hs := intervalIntegral.mul_integral_comp_mul_add (a := -1) (b := 1)
      (f := fun y => 1 / (2 * Real.pi) * Real.exp (-(dh ^ 2 - 2 * dk * dh * Real.sin y + dk ^ 2) / (2 * Real.cos y ^ 2)))
      (Real.arcsin rho / 2) (Real.arcsin rho / 2)
    have e1 : Real.arcsin rho / 2 * -1 + Real.arcsin rho / 2 = 0 := by ring
    have e2 : Real.arcsin rho / 2 * 1 + Real.arcsin rho / 2 = Real.arcsin rho := by ring
    rw [e1, e2] at hs
    rw [← hs, intervalIntegral.integral_const_mul]
    have e3 : ∀ x : ℝ, Real.exp (-(dh ^ 2 - 2 * dk * dh * Real.sin (Real.arcsin rho / 2 * x + Real.arcsin rho / 2) + dk ^ 2) /
        (2 * Real.cos (Real.arcsin rho / 2 * x + Real.arcsin rho / 2) ^ 2)) = cbndIntegrand dh dk rho x := by
      intro x
      unfold cbndIntegrand
      have e : Real.arcsin rho / 2 * x + Real.arcsin rho / 2 = Real.arcsin rho * (x + 1) / 2 := by ring
      rw [e, ← Real.cos_sq']
      congr 1
      rw [show -(dh ^ 2 - 2 * dk * dh * Real.sin (Real.arcsin rho * (x + 1) / 2) + dk ^ 2) =
        2 * (dh * dk * Real.sin (Real.arcsin rho * (x + 1) / 2) - (dh ^ 2 + dk ^ 2) / 2) by ring, mul_div_mul_left _ _ (by norm_num)]
    simp only [e3]
    ring
  rw [hsub]
  ring

/-- C76: for uncorrelated variables it is exactly the product of the distribution functions, and it is symmetric. -/
theorem C76_cbnd_cases (dh dk rho : ℝ) : cbnd dh dk 0 = normalCdf dh * normalCdf dk ∧ cbnd dh dk rho = cbnd dk dh rho := by
  constructor
  · rw [cbnd_eq, Real.arcsin_zero]
    ring
  · rw [cbnd_eq, cbnd_eq]
    have : cbndIntegrand dh dk rho = cbndIntegrand dk dh rho := by
      funext x
      unfold cbndIntegrand
      rw [mul_comm dh dk, add_comm (dh ^ 2)]
    rw [this]
    ring

/-- At the origin with correlation zero the value is one quarter. -/
example : cbnd 0 0 0 = 1 / 4 := by
  rw [(C76_cbnd_cases 0 0 0).1, normalCdf_zero]; norm_num

end Props
