import Verif.Lemmas.Normal
import Verif.Model.ImpliedVol
import Mathlib.Analysis.Calculus.Deriv.MeanValue
import Mathlib.Analysis.SpecialFunctions.Log.Deriv
import Mathlib.Analysis.SpecialFunctions.Sqrt
import Mathlib.Topology.Order.IntermediateValue

/-! Call prices as functions of the standard deviation. -/

namespace Lemmas
open Model Spec Filter Topology Set

/-- Black's call as a function of the standard deviation. -/
noncomputable def blackCall (F K s : ℝ) : ℝ :=
  F * normalCdf ((Real.log F - Real.log K) / s + s / 2) - K * normalCdf ((Real.log F - Real.log K) / s + s / 2 - s)

/-- Bachelier's call as a function of the standard deviation. -/
noncomputable def bachelierCall (F K s : ℝ) : ℝ := (F - K) * normalCdf ((F - K) / s) + s * phi ((F - K) / s)

theorem black_density (F K s : ℝ) (hF : 0 < F) (hK : 0 < K) (hs : s ≠ 0) :
    K * phi ((Real.log F - Real.log K) / s + s / 2 - s) = F * phi ((Real.log F - Real.log K) / s + s / 2) := by
  rw [phi_eq, phi_eq]
  have e : Real.exp (-((Real.log F - Real.log K) / s + s / 2 - s) ^ 2 / 2) =
      F / K * Real.exp (-((Real.log F - Real.log K) / s + s / 2) ^ 2 / 2) := by
    rw [show F / K = Real.exp (Real.log F - Real.log K) by rw [Real.exp_sub, Real.exp_log hF, Real.exp_log hK],
      ← Real.exp_add]
    congr 1
    field_simp
    ring
  rw [e]
  field_simp

theorem blackCall_hasDerivAt (F K s : ℝ) (hF : 0 < F) (hK : 0 < K) (hs : s ≠ 0) :
    HasDerivAt (blackCall F K) (F * phi ((Real.log F - Real.log K) / s + s / 2)) s := by
  have h1 : HasDerivAt (fun s => (Real.log F - Real.log K) / s + s / 2) (-(Real.log F - Real.log K) / s ^ 2 + 1 / 2) s := by
    have := ((hasDerivAt_const s (Real.log F - Real.log K)).div (hasDerivAt_id s) hs).add ((hasDerivAt_id s).div_const 2)
    refine this.congr_deriv ?_
    simp
  have h2 : HasDerivAt (fun s => (Real.log F - Real.log K) / s + s / 2 - s)
      (-(Real.log F - Real.log K) / s ^ 2 + 1 / 2 - 1) s := h1.sub (hasDerivAt_id s)
  have h3 := (((normalCdf_hasDerivAt _).comp s h1).const_mul F).sub (((normalCdf_hasDerivAt _).comp s h2).const_mul K)
  refine h3.congr_deriv ?_
  have := black_density F K s hF hK hs
  linear_combination (-(-(Real.log F - Real.log K) / s ^ 2 + 1 / 2 - 1)) * this

theorem bachelierCall_hasDerivAt (F K s : ℝ) (hs : s ≠ 0) :
    HasDerivAt (bachelierCall F K) (phi ((F - K) / s)) s := by
  have h1 : HasDerivAt (fun s => (F - K) / s) (-(F - K) / s ^ 2) s := by
    have := (hasDerivAt_const s (F - K)).div (hasDerivAt_id s) hs
    refine this.congr_deriv ?_
    simp
  have h3 := (((normalCdf_hasDerivAt _).comp s h1).const_mul (F - K)).add
    ((hasDerivAt_id s).mul ((phi_hasDerivAt _).comp s h1))
  refine h3.congr_deriv ?_
  simp only [Function.comp, id]
  field_simp
  ring

theorem strictMonoOn_of_deriv {f f' : ℝ → ℝ} (h : ∀ s, 0 < s → HasDerivAt f (f' s) s) (hp : ∀ s, 0 < s → 0 < f' s) :
    StrictMonoOn f (Ioi 0) := by
  apply strictMonoOn_of_deriv_pos (convex_Ioi 0)
  · intro s hs; exact (h s hs).continuousAt.continuousWithinAt
  · intro s hs
    rw [interior_Ioi] at hs
    rw [(h s hs).deriv]; exact hp s hs

theorem blackCall_strictMonoOn (F K : ℝ) (hF : 0 < F) (hK : 0 < K) : StrictMonoOn (blackCall F K) (Ioi 0) :=
  strictMonoOn_of_deriv (fun s hs => blackCall_hasDerivAt F K s hF hK (ne_of_gt hs)) (fun _ _ => mul_pos hF (phi_pos _))

theorem bachelierCall_strictMonoOn (F K : ℝ) : StrictMonoOn (bachelierCall F K) (Ioi 0) :=
  strictMonoOn_of_deriv (fun s hs => bachelierCall_hasDerivAt F K s (ne_of_gt hs)) (fun _ _ => phi_pos _)

theorem normalCdf_atTop : Tendsto normalCdf atTop (𝓝 1) := ProbabilityTheory.tendsto_cdf_atTop _
theorem normalCdf_atBot : Tendsto normalCdf atBot (𝓝 0) := ProbabilityTheory.tendsto_cdf_atBot _

theorem tendsto_id_right : Tendsto (fun s : ℝ => s) (𝓝[>] 0) (𝓝 0) := tendsto_nhdsWithin_of_tendsto_nhds tendsto_id

theorem tendsto_div_right_pos {L : ℝ} (hL : 0 < L) : Tendsto (fun s : ℝ => L / s) (𝓝[>] 0) atTop := by
  simp only [div_eq_mul_inv]
  exact tendsto_inv_nhdsGT_zero.const_mul_atTop hL

theorem tendsto_div_right_neg {L : ℝ} (hL : L < 0) : Tendsto (fun s : ℝ => L / s) (𝓝[>] 0) atBot := by
  simp only [div_eq_mul_inv]
  exact tendsto_inv_nhdsGT_zero.const_mul_atTop_of_neg hL

theorem blackCall_zero (F K : ℝ) (hF : 0 < F) (hK : 0 < K) :
    Tendsto (blackCall F K) (𝓝[>] 0) (𝓝 (max (F - K) 0)) := by
  unfold blackCall
  have hs2 : Tendsto (fun s : ℝ => s / 2) (𝓝[>] 0) (𝓝 0) := by simpa using tendsto_id_right.div_const 2
  have hs3 : Tendsto (fun s : ℝ => s / 2 - s) (𝓝[>] 0) (𝓝 0) := by simpa using hs2.sub tendsto_id_right
  simp only [add_sub_assoc]
  rcases lt_trichotomy (Real.log F - Real.log K) 0 with h | h | h
  · have hlt : F < K := (Real.log_lt_log_iff hF hK).mp (by linarith)
    have t := tendsto_div_right_neg h
    have := ((normalCdf_atBot.comp (t.atBot_add hs2)).const_mul F).sub
      ((normalCdf_atBot.comp (t.atBot_add hs3)).const_mul K)
    rw [max_eq_right (by linarith)]
    simpa using this
  · have heq : F = K := Real.log_injOn_pos hF hK (by linarith)
    have c := normalCdf_continuous.tendsto 0
    have := ((c.comp hs2).const_mul F).sub ((c.comp hs3).const_mul K)
    rw [heq] at this ⊢
    simpa using this
  · have hlt : K < F := (Real.log_lt_log_iff hK hF).mp (by linarith)
    have t := tendsto_div_right_pos h
    have := ((normalCdf_atTop.comp (t.atTop_add hs2)).const_mul F).sub
      ((normalCdf_atTop.comp (t.atTop_add hs3)).const_mul K)
    rw [max_eq_left (by linarith)]
    simpa using this

theorem blackCall_top (F K : ℝ) : Tendsto (blackCall F K) atTop (𝓝 F) := by
  unfold blackCall
  have t : Tendsto (fun s : ℝ => (Real.log F - Real.log K) / s) atTop (𝓝 0) := tendsto_const_nhds.div_atTop tendsto_id
  have h1 : Tendsto (fun s : ℝ => s / 2) atTop atTop := tendsto_id.atTop_div_const (by norm_num)
  have h2 : Tendsto (fun s : ℝ => s / 2 - s) atTop atBot := by
    have : (fun s : ℝ => s / 2 - s) = fun s => -(s / 2) := by ext s; ring
    rw [this]; exact tendsto_neg_atTop_atBot.comp h1
  simp only [add_sub_assoc]
  have := ((normalCdf_atTop.comp (t.add_atTop h1)).const_mul F).sub ((normalCdf_atBot.comp (t.add_atBot h2)).const_mul K)
  simpa using this

theorem phi_le (x : ℝ) : phi x ≤ phi 0 := by
  rw [phi_eq, phi_eq]
  apply mul_le_mul_of_nonneg_left _ (by positivity)
  apply Real.exp_le_exp.mpr
  nlinarith [sq_nonneg x]

theorem bachelierCall_zero (F K : ℝ) : Tendsto (bachelierCall F K) (𝓝[>] 0) (𝓝 (max (F - K) 0)) := by
  unfold bachelierCall
  have hphi : Tendsto (fun s : ℝ => s * phi ((F - K) / s)) (𝓝[>] 0) (𝓝 0) := by
    refine squeeze_zero' (g := fun s => s * phi 0) ?_ ?_ ?_
    · filter_upwards [self_mem_nhdsWithin] with s hs
      exact mul_nonneg (le_of_lt hs) (phi_pos _).le
    · filter_upwards [self_mem_nhdsWithin] with s hs
      exact mul_le_mul_of_nonneg_left (phi_le _) (le_of_lt hs)
    · simpa using tendsto_id_right.mul_const (phi 0)
  rcases lt_trichotomy (F - K) 0 with h | h | h
  · have := ((normalCdf_atBot.comp (tendsto_div_right_neg h)).const_mul (F - K)).add hphi
    rw [max_eq_right h.le]
    simpa using this
  · rw [h] at hphi ⊢
    simpa using hphi
  · have := ((normalCdf_atTop.comp (tendsto_div_right_pos h)).const_mul (F - K)).add hphi
    rw [max_eq_left h.le]
    simpa using this

theorem bachelierCall_top (F K : ℝ) : Tendsto (bachelierCall F K) atTop atTop := by
  unfold bachelierCall
  have t : Tendsto (fun s : ℝ => (F - K) / s) atTop (𝓝 0) := tendsto_const_nhds.div_atTop tendsto_id
  have h1 := ((normalCdf_continuous.tendsto 0).comp t).const_mul (F - K)
  have h2 : Tendsto (fun s : ℝ => s * phi ((F - K) / s)) atTop atTop :=
    tendsto_id.atTop_mul_pos (phi_pos 0) ((phi_continuous.tendsto 0).comp t)
  exact h1.add_atTop h2

/-- A strictly increasing continuous function on `(0, ∞)` takes every value between its limits exactly once. -/
theorem existsUnique_between {f : ℝ → ℝ} {a p : ℝ} (hc : ContinuousOn f (Ioi 0)) (hm : StrictMonoOn f (Ioi 0))
    (h0 : Tendsto f (𝓝[>] 0) (𝓝 a)) (ha : a < p) (hb : ∃ᶠ s in atTop, p < f s) : ∃! s, 0 < s ∧ f s = p := by
  obtain ⟨x, hx1, hx2⟩ : ∃ x, 0 < x ∧ f x < p := by
    have := (h0.eventually (gt_mem_nhds ha)).and self_mem_nhdsWithin
    obtain ⟨x, hx⟩ := this.exists
    exact ⟨x, hx.2, hx.1⟩
  obtain ⟨y, hy1, hy2⟩ : ∃ y, p < f y ∧ 0 < y := (hb.and_eventually (eventually_gt_atTop 0)).exists
  have hsub : uIcc x y ⊆ Ioi 0 := by
    intro z hz
    exact lt_of_lt_of_le (lt_min hx1 hy2) hz.1
  have hmem : p ∈ uIcc (f x) (f y) := mem_uIcc.mpr (Or.inl ⟨hx2.le, hy1.le⟩)
  obtain ⟨s, hs, hsp⟩ := intermediate_value_uIcc (hc.mono hsub) hmem
  refine ⟨s, ⟨hsub hs, hsp⟩, ?_⟩
  rintro t ⟨ht, htp⟩
  exact hm.injOn ht (hsub hs) (htp.trans hsp.symm)

theorem monotone_lower {f : ℝ → ℝ} {a : ℝ} (hm : StrictMonoOn f (Ioi 0)) (h0 : Tendsto f (𝓝[>] 0) (𝓝 a)) (s : ℝ)
    (hs : 0 < s) : a < f s := by
  have h : a ≤ f (s / 2) := by
    refine le_of_tendsto h0 ?_
    filter_upwards [Ioo_mem_nhdsGT (show (0 : ℝ) < s / 2 by linarith)] with x hx
    exact (hm hx.1 (show (0 : ℝ) < s / 2 by linarith) hx.2).le
  exact lt_of_le_of_lt h (hm (show (0 : ℝ) < s / 2 by linarith) hs (by linarith))

theorem blackCall_gt (F K s : ℝ) (hF : 0 < F) (hK : 0 < K) (hs : 0 < s) : max (F - K) 0 < blackCall F K s :=
  monotone_lower (blackCall_strictMonoOn F K hF hK) (blackCall_zero F K hF hK) s hs

theorem bachelierCall_gt (F K s : ℝ) (hs : 0 < s) : max (F - K) 0 < bachelierCall F K s :=
  monotone_lower (bachelierCall_strictMonoOn F K) (bachelierCall_zero F K) s hs

/-- With the standard deviation negated the formulas give minus the put. -/
theorem blackCall_neg (F K s : ℝ) : blackCall F K (-s) = F - K - blackCall F K s := by
  unfold blackCall
  rw [show (Real.log F - Real.log K) / -s + -s / 2 = -((Real.log F - Real.log K) / s + s / 2) by rw [div_neg]; ring,
    show -((Real.log F - Real.log K) / s + s / 2) - -s = -((Real.log F - Real.log K) / s + s / 2 - s) by ring,
    normalCdf_neg, normalCdf_neg]
  ring

theorem bachelierCall_neg (F K s : ℝ) : bachelierCall F K (-s) = F - K - bachelierCall F K s := by
  unfold bachelierCall
  rw [div_neg, normalCdf_neg, phi_neg]
  ring

end Lemmas
