import Verif.Spec.BlackScholesEquation
import Verif.Lemmas.Normal
import Verif.Lemmas.ImpliedVol
import Mathlib.Analysis.SpecialFunctions.Pow.Deriv
import Mathlib.Analysis.SpecialFunctions.Log.Deriv
import Mathlib.Analysis.SpecialFunctions.Sqrt

/-! Solutions of the Black-Scholes equation. -/

namespace Lemmas
open Model Spec Filter Topology

theorem bsAt_add {r b sigma : ℝ} {u v : ℝ → ℝ → ℝ} {s t : ℝ} (hu : BlackScholesAt r b sigma u s t) (hv : BlackScholesAt r b sigma v s t) :
    BlackScholesAt r b sigma (fun s t => u s t + v s t) s t := by
  obtain ⟨us, uss, ut, h1, h2, h3, h4⟩ := hu
  obtain ⟨vs, vss, vt, g1, g2, g3, g4⟩ := hv
  refine ⟨fun y => us y + vs y, uss + vss, ut + vt, ?_, h2.add g2, h3.add g3, ?_⟩
  · filter_upwards [h1, g1] with y hy gy using hy.add gy
  · rw [h4, g4]; ring

theorem bsAt_const_mul {r b sigma : ℝ} {u : ℝ → ℝ → ℝ} {s t : ℝ} (c : ℝ) (hu : BlackScholesAt r b sigma u s t) :
    BlackScholesAt r b sigma (fun s t => c * u s t) s t := by
  obtain ⟨us, uss, ut, h1, h2, h3, h4⟩ := hu
  refine ⟨fun y => c * us y, c * uss, c * ut, ?_, h2.const_mul c, h3.const_mul c, ?_⟩
  · filter_upwards [h1] with y hy using hy.const_mul c
  · rw [h4]; ring

theorem bsAt_sub {r b sigma : ℝ} {u v : ℝ → ℝ → ℝ} {s t : ℝ} (hu : BlackScholesAt r b sigma u s t) (hv : BlackScholesAt r b sigma v s t) :
    BlackScholesAt r b sigma (fun s t => u s t - v s t) s t := by
  have := bsAt_add hu (bsAt_const_mul (-1) hv)
  have e : (fun s t => u s t - v s t) = fun s t => u s t + -1 * v s t := by funext s t; ring
  rw [e]; exact this

theorem bsAt_congr {r b sigma : ℝ} {u v : ℝ → ℝ → ℝ} {s t : ℝ} (hs : 0 < s) (ht : 0 < t) (h : ∀ s t, 0 < s → 0 < t → u s t = v s t)
    (hv : BlackScholesAt r b sigma v s t) : BlackScholesAt r b sigma u s t := by
  obtain ⟨vs, vss, vt, g1, g2, g3, g4⟩ := hv
  refine ⟨vs, vss, vt, ?_, g2, ?_, by rw [g4, h s t hs ht]⟩
  · filter_upwards [g1, Ioi_mem_nhds hs] with y gy hy
    refine gy.congr_of_eventuallyEq ?_
    filter_upwards [Ioi_mem_nhds (show (0 : ℝ) < y from hy)] with z hz using h z t hz ht
  · refine g3.congr_of_eventuallyEq ?_
    filter_upwards [Ioi_mem_nhds ht] with z hz using h s z hs hz

/-- Power solutions. -/
theorem bsAt_rpow (r b sigma gamma : ℝ) (s t : ℝ) (hs : 0 < s)
    (h : sigma ^ 2 / 2 * (gamma * (gamma - 1)) + b * gamma - r = 0) : BlackScholesAt r b sigma (fun s _ => s ^ gamma) s t := by
  have d : ∀ y : ℝ, 0 < y → ∀ c : ℝ, HasDerivAt (fun y => y ^ c) (c * y ^ (c - 1)) y := fun y hy c =>
    Real.hasDerivAt_rpow_const (Or.inl hy.ne')
  refine ⟨fun y => gamma * y ^ (gamma - 1), gamma * ((gamma - 1) * s ^ (gamma - 1 - 1)), 0, ?_, (d s hs _).const_mul _,
    hasDerivAt_const _ _, ?_⟩
  · filter_upwards [Ioi_mem_nhds hs] with y hy using d y hy gamma
  · beta_reduce
    rw [Real.rpow_sub_one hs.ne' (gamma - 1), Real.rpow_sub_one hs.ne' gamma]
    field_simp
    linear_combination (-2 * s ^ gamma) * h

/-- A power of the spot received at expiry if the spot is then on one side of a level (`e = 1`: above, `e = -1`: below). -/
noncomputable def powerBinary (r b sigma gamma c e s t : ℝ) : ℝ :=
  Real.exp ((-r + gamma * b + gamma * (gamma - 1) * sigma ^ 2 / 2) * t) * s ^ gamma *
    normalCdf (e * (Real.log s - c + (b + (gamma - 1 / 2) * sigma ^ 2) * t) / (sigma * Real.sqrt t))

theorem powerBinary_solves (r b sigma gamma c e s t : ℝ) (hsig : 0 < sigma) (he : e ^ 2 = 1) (hs : 0 < s) (ht : 0 < t) :
    BlackScholesAt r b sigma (powerBinary r b sigma gamma c e) s t := by
  set m := b + (gamma - 1 / 2) * sigma ^ 2 with hm
  set l := -r + gamma * b + gamma * (gamma - 1) * sigma ^ 2 / 2 with hl
  have hq : 0 < Real.sqrt t := Real.sqrt_pos.2 ht
  set q := Real.sqrt t with hqd
  have hqq : t = q ^ 2 := (Real.sq_sqrt ht.le).symm
  let z : ℝ → ℝ := fun y => e * (Real.log y - c + m * t) / (sigma * q)
  have dz : ∀ y, 0 < y → HasDerivAt z (e / (sigma * q) / y) y := by
    intro y hy
    have := ((((Real.hasDerivAt_log hy.ne').sub_const c).add_const (m * t)).const_mul e).div_const (sigma * q)
    refine this.congr_deriv ?_
    field_simp
  have dp : ∀ y : ℝ, 0 < y → ∀ c : ℝ, HasDerivAt (fun y => y ^ c) (c * y ^ (c - 1)) y := fun y hy c =>
    Real.hasDerivAt_rpow_const (Or.inl hy.ne')
  have dN : ∀ y, 0 < y → HasDerivAt (fun y => normalCdf (z y)) (phi (z y) * (e / (sigma * q) / y)) y := fun y hy =>
    (normalCdf_hasDerivAt (z y)).comp y (dz y hy)
  have dphi : ∀ y, 0 < y → HasDerivAt (fun y => phi (z y)) (-z y * phi (z y) * (e / (sigma * q) / y)) y := fun y hy =>
    (phi_hasDerivAt (z y)).comp y (dz y hy)
  refine ⟨fun y => Real.exp (l * t) * (gamma * y ^ (gamma - 1) * normalCdf (z y) + e / (sigma * q) * (y ^ (gamma - 1) * phi (z y))),
    Real.exp (l * t) * (gamma * ((gamma - 1) * s ^ (gamma - 1 - 1)) * normalCdf (z s) +
      gamma * s ^ (gamma - 1) * (phi (z s) * (e / (sigma * q) / s)) +
      e / (sigma * q) * ((gamma - 1) * s ^ (gamma - 1 - 1) * phi (z s) + s ^ (gamma - 1) * (-z s * phi (z s) * (e / (sigma * q) / s)))),
    l * Real.exp (l * t) * s ^ gamma * normalCdf (z s) + Real.exp (l * t) * s ^ gamma *
      (phi (z s) * (e * m / (sigma * q) - e * (Real.log s - c + m * t) / (sigma * q) / (2 * t))), ?_, ?_, ?_, ?_⟩
  · filter_upwards [Ioi_mem_nhds hs] with y hy
    have hy : 0 < y := hy
    have := ((dp y hy gamma).mul (dN y hy)).const_mul (Real.exp (l * t))
    unfold powerBinary
    refine HasDerivAt.congr_deriv (f' := Real.exp (l * t) * (gamma * y ^ (gamma - 1) * normalCdf (z y) + y ^ gamma * (phi (z y) * (e / (sigma * q) / y)))) ?_ ?_
    · refine this.congr_of_eventuallyEq (Eventually.of_forall fun w => ?_)
      simp only [z, Pi.mul_apply]
      ring
    · rw [Real.rpow_sub_one hy.ne' gamma]; field_simp
  · exact ((((dp s hs (gamma - 1)).const_mul gamma).mul (dN s hs)).add
      (((dp s hs (gamma - 1)).mul (dphi s hs)).const_mul (e / (sigma * q)))).const_mul (Real.exp (l * t))
  · have d1 : HasDerivAt (fun t => Real.exp (l * t) * s ^ gamma) (l * Real.exp (l * t) * s ^ gamma) t := by
      have := (((hasDerivAt_id t).const_mul l).exp).mul_const (s ^ gamma)
      refine this.congr_deriv ?_
      simp only [id]; ring
    have d2 : HasDerivAt (fun t => e * (Real.log s - c + m * t) / (sigma * Real.sqrt t))
        (e * m / (sigma * q) - e * (Real.log s - c + m * t) / (sigma * q) / (2 * t)) t := by
      have h1 := (((hasDerivAt_id t).const_mul m).const_add (Real.log s - c)).const_mul e
      have h2 := (Real.hasDerivAt_sqrt ht.ne').const_mul sigma
      have := h1.div h2 (mul_pos hsig hq).ne'
      refine this.congr_deriv ?_
      simp only [id, ← hqd]
      rw [hqq]
      field_simp
    exact d1.mul ((normalCdf_hasDerivAt (z s)).comp t d2)
  · have eu : powerBinary r b sigma gamma c e s t = Real.exp (l * t) * s ^ gamma * normalCdf (z s) := rfl
    rw [eu]
    beta_reduce
    rw [Real.rpow_sub_one hs.ne' (gamma - 1), Real.rpow_sub_one hs.ne' gamma]
    have ez : e * (Real.log s - c + m * t) / (sigma * q) = z s := rfl
    rw [ez]
    generalize hN : normalCdf (z s) = N
    generalize hP : phi (z s) = P
    generalize hZ : z s = Z
    generalize hE : Real.exp (l * t) = E
    generalize hS : s ^ gamma = S
    rw [hm, hl, hqq]
    have he' : e ^ 2 = 1 := he
    field_simp
    linear_combination (E * S * P * Z * sigma) * he'
end Lemmas

namespace Lemmas
open Model Spec Filter Topology

theorem ratio_atTop (a m sigma : ℝ) (hsig : 0 < sigma) (ha : 0 < a) :
    Tendsto (fun t => (a + m * t) / (sigma * Real.sqrt t)) (𝓝[>] 0) atTop := by
  have h1 : Tendsto (fun t : ℝ => a + m * t) (𝓝[>] 0) (𝓝 a) := by
    have : Continuous fun t : ℝ => a + m * t := by fun_prop
    have := (this.tendsto 0).mono_left (nhdsWithin_le_nhds (s := Set.Ioi 0))
    simpa using this
  have h2 : Tendsto (fun t : ℝ => sigma * Real.sqrt t) (𝓝[>] 0) (𝓝[>] 0) := by
    refine tendsto_nhdsWithin_iff.2 ⟨?_, ?_⟩
    · have : Continuous fun t : ℝ => sigma * Real.sqrt t := by fun_prop
      have := (this.tendsto 0).mono_left (nhdsWithin_le_nhds (s := Set.Ioi 0))
      simpa using this
    · filter_upwards [self_mem_nhdsWithin] with t ht
      exact mul_pos hsig (Real.sqrt_pos.2 ht)
  exact h1.pos_mul_atTop ha h2.inv_tendsto_nhdsGT_zero

theorem powerBinary_in (r b sigma gamma c e s : ℝ) (hsig : 0 < sigma) (h : 0 < e * (Real.log s - c)) :
    Tendsto (fun t => powerBinary r b sigma gamma c e s t) (𝓝[>] 0) (𝓝 (s ^ gamma)) := by
  have h1 : Tendsto (fun t : ℝ => Real.exp ((-r + gamma * b + gamma * (gamma - 1) * sigma ^ 2 / 2) * t) * s ^ gamma) (𝓝[>] 0)
      (𝓝 (s ^ gamma)) := by
    have : Continuous fun t : ℝ => Real.exp ((-r + gamma * b + gamma * (gamma - 1) * sigma ^ 2 / 2) * t) * s ^ gamma := by fun_prop
    have := (this.tendsto 0).mono_left (nhdsWithin_le_nhds (s := Set.Ioi 0))
    simpa using this
  have h2 := normalCdf_atTop.comp (ratio_atTop (e * (Real.log s - c)) (e * (b + (gamma - 1 / 2) * sigma ^ 2)) sigma hsig h)
  have h3 := h1.mul h2
  rw [mul_one] at h3
  refine h3.congr fun t => ?_
  unfold powerBinary
  simp only [Function.comp]
  congr 2
  ring

theorem powerBinary_out (r b sigma gamma c e s : ℝ) (hsig : 0 < sigma) (h : e * (Real.log s - c) < 0) :
    Tendsto (fun t => powerBinary r b sigma gamma c e s t) (𝓝[>] 0) (𝓝 0) := by
  have h1 : Tendsto (fun t : ℝ => Real.exp ((-r + gamma * b + gamma * (gamma - 1) * sigma ^ 2 / 2) * t) * s ^ gamma) (𝓝[>] 0)
      (𝓝 (s ^ gamma)) := by
    have : Continuous fun t : ℝ => Real.exp ((-r + gamma * b + gamma * (gamma - 1) * sigma ^ 2 / 2) * t) * s ^ gamma := by fun_prop
    have := (this.tendsto 0).mono_left (nhdsWithin_le_nhds (s := Set.Ioi 0))
    simpa using this
  have h2 := normalCdf_atBot.comp (tendsto_neg_atTop_atBot.comp
    (ratio_atTop (-(e * (Real.log s - c))) (-(e * (b + (gamma - 1 / 2) * sigma ^ 2))) sigma hsig (by linarith)))
  have h3 := h1.mul h2
  rw [mul_zero] at h3
  refine h3.congr fun t => ?_
  unfold powerBinary
  simp only [Function.comp]
  congr 2
  ring

end Lemmas
