import Verif.Model.MonotoneConvex
import Mathlib.Analysis.Calculus.Deriv.Pow
import Mathlib.Analysis.Calculus.Deriv.Add
import Mathlib.Analysis.Calculus.Deriv.Mul
import Mathlib.Analysis.Calculus.Deriv.Comp
import Mathlib.Tactic.Linarith
import Mathlib.Tactic.FieldSimp
import Mathlib.Tactic.Ring
import Mathlib.Tactic.NormNum
import Mathlib.Tactic.Positivity

/-! The adjustment of the monotone convex method on the unit interval. -/

namespace Lemmas
open Model

theorem hasDerivAt_cube_max (e x : ℝ) : HasDerivAt (fun u => (max u e - e) ^ 3) (3 * (max x e - e) ^ 2) x := by
  have hq : ∀ y : ℝ, HasDerivAt (fun u => (u - e) ^ 3) (3 * (y - e) ^ 2) y := by
    intro y
    have := ((hasDerivAt_id y).sub_const e).pow 3
    refine HasDerivAt.congr_deriv this ?_
    simp
  rcases lt_trichotomy x e with h | h | h
  · rw [max_eq_right h.le]
    have : (fun u => (max u e - e) ^ 3) =ᶠ[nhds x] fun _ => (0 : ℝ) := by
      filter_upwards [Iio_mem_nhds h] with u hu
      rw [max_eq_right (le_of_lt hu)]
      simp
    refine HasDerivAt.congr_of_eventuallyEq ?_ this
    simpa using hasDerivAt_const x (0 : ℝ)
  · subst h
    rw [max_self]
    have h1 : HasDerivWithinAt (fun u => (max u x - x) ^ 3) (3 * (x - x) ^ 2) (Set.Iic x) x := by
      have : HasDerivWithinAt (fun _ : ℝ => (0 : ℝ)) (3 * (x - x) ^ 2) (Set.Iic x) x := by
        simpa using hasDerivWithinAt_const x (Set.Iic x) (0 : ℝ)
      refine this.congr (fun u hu => ?_) (by simp)
      rw [max_eq_right hu]
      simp
    have h2 : HasDerivWithinAt (fun u => (max u x - x) ^ 3) (3 * (x - x) ^ 2) (Set.Ici x) x := by
      refine (hq x).hasDerivWithinAt.congr (fun u hu => ?_) (by simp)
      rw [max_eq_left hu]
    have := h1.union h2
    rwa [Set.Iic_union_Ici, hasDerivWithinAt_univ] at this
  · rw [max_eq_left h.le]
    refine (hq x).congr_of_eventuallyEq ?_
    filter_upwards [Ioi_mem_nhds h] with u hu
    rw [max_eq_left (le_of_lt hu)]

theorem hasDerivAt_cube_min (e x : ℝ) : HasDerivAt (fun u => (e - min u e) ^ 3) (-(3 * (e - min x e) ^ 2)) x := by
  have h := (hasDerivAt_cube_max (-e) (-x)).comp x (hasDerivAt_neg x)
  have key : ∀ u : ℝ, max (-u) (-e) - -e = e - min u e := by
    intro u
    rw [max_neg_neg]; ring
  have h2 : ((fun u => (max u (-e) - -e) ^ 3) ∘ Neg.neg) = fun u => (e - min u e) ^ 3 := by
    funext u
    simp only [Function.comp_apply, key]
  rw [h2, key] at h
  simpa using h

/-- On the unit interval the adjustment is a continuous function with its antiderivative, unless its left value is zero and its
right value is not. -/
theorem adjustment_spec (g0 g1 : ℝ) (h : g0 ≠ 0 ∨ g1 = 0) :
    ∃ v I : ℝ → ℝ, Continuous v ∧ (∀ x, HasDerivAt I (v x) x) ∧
      (∀ x, 0 ≤ x → x ≤ 1 → mcAdjustment g0 g1 x = some (v x, I x)) ∧
      I 0 = 0 ∧ I 1 = 0 ∧ (g1 ≠ 0 ∨ g0 = 0 → v 0 = g0) ∧ v 1 = g1 := by
  by_cases ho : g0 = 0 ∧ g1 = 0
  · refine ⟨fun _ => 0, fun _ => 0, continuous_const, fun x => hasDerivAt_const x 0, ?_, rfl, rfl, fun _ => ho.1.symm, ho.2.symm⟩
    intro x _ _
    unfold mcAdjustment
    simp only [if_pos ho]
  have hg0 : g0 ≠ 0 := by
    rcases h with h | h
    · exact h
    · exact fun hc => ho ⟨hc, h⟩
  by_cases h4 : (g0 ≥ 0 ∧ g1 > 0) ∨ (g0 ≤ 0 ∧ g1 < 0)
  · -- region 4
    have hsum : g0 + g1 ≠ 0 := by
      rcases h4 with ⟨a, b⟩ | ⟨a, b⟩
      · exact (by linarith : 0 < g0 + g1).ne'
      · exact (by linarith : g0 + g1 < 0).ne
    have hg1 : g1 ≠ 0 := by
      rcases h4 with ⟨a, b⟩ | ⟨a, b⟩
      · exact b.ne'
      · exact b.ne
    have he1 : 1 - g1 / (g0 + g1) = g0 / (g0 + g1) := by field_simp; ring
    set eta := g1 / (g0 + g1) with heta
    have hpos : 0 < eta ∧ 0 < 1 - eta := by
      rw [he1, heta]
      rcases h4 with ⟨a, b⟩ | ⟨a, b⟩
      · have a' : 0 < g0 := lt_of_le_of_ne a (Ne.symm hg0)
        exact ⟨by positivity, by positivity⟩
      · have a' : g0 < 0 := lt_of_le_of_ne a hg0
        exact ⟨div_pos_of_neg_of_neg b (by linarith), div_pos_of_neg_of_neg a' (by linarith)⟩
    set shift := -(1 / 2) * (eta * g0 + (1 - eta) * g1) with hshift
    refine ⟨fun x => shift + (g0 - shift) * ((eta - min x eta) / eta) ^ 2 + (g1 - shift) * ((max x eta - eta) / (1 - eta)) ^ 2,
      fun x => shift * x + (g0 - shift) * eta * (1 - ((eta - min x eta) / eta) ^ 3) / 3 +
        (g1 - shift) * (1 - eta) * ((max x eta - eta) / (1 - eta)) ^ 3 / 3, ?_, ?_, ?_, ?_, ?_, ?_, ?_⟩
    · fun_prop
    · intro x
      have d1 := ((hasDerivAt_cube_min eta x).div_const (eta ^ 3)).const_sub 1 |>.const_mul ((g0 - shift) * eta) |>.div_const 3
      have d2 := ((hasDerivAt_cube_max eta x).div_const ((1 - eta) ^ 3)).const_mul ((g1 - shift) * (1 - eta)) |>.div_const 3
      have d3 := ((hasDerivAt_id x).const_mul shift).add d1 |>.add d2
      have hA := hpos.1.ne'
      have hB := hpos.2.ne'
      have hfun : (fun x => shift * x + (g0 - shift) * eta * (1 - ((eta - min x eta) / eta) ^ 3) / 3 +
          (g1 - shift) * (1 - eta) * ((max x eta - eta) / (1 - eta)) ^ 3 / 3) =
          fun x => shift * x + (g0 - shift) * eta * (1 - (eta - min x eta) ^ 3 / eta ^ 3) / 3 +
          (g1 - shift) * (1 - eta) * ((max x eta - eta) ^ 3 / (1 - eta) ^ 3) / 3 := by
        funext u
        simp only [div_pow (eta - min u eta), div_pow (max u eta - eta)]
      rw [hfun]
      refine HasDerivAt.congr_deriv d3 ?_
      field_simp
    · intro x _ _
      unfold mcAdjustment
      simp only [if_neg ho]
      have : (mcRegion4 g0 g1 x).1 = true := by simp only [mcRegion4, decide_eq_true_eq]; exact h4
      rw [if_pos this]
      unfold mcRegion4 divNan
      simp only [if_neg hsum, ← heta, Option.bind_eq_bind, Option.bind_some, if_neg hpos.1.ne', if_neg hpos.2.ne',
        Option.pure_def, ← hshift]
    · have := hpos.1
      simp only [min_eq_left hpos.1.le, max_eq_right hpos.1.le]
      field_simp
      ring
    · have hle : eta ≤ 1 := by linarith [hpos.2]
      simp only [min_eq_right hle, max_eq_left hle]
      rw [div_self hpos.2.ne', hshift]
      simp only [sub_self, zero_div]
      ring
    · intro _
      simp only [min_eq_left hpos.1.le, max_eq_right hpos.1.le]
      rw [sub_zero, div_self hpos.1.ne']
      simp
    · have hle : eta ≤ 1 := by linarith [hpos.2]
      simp only [min_eq_right hle, max_eq_left hle]
      rw [div_self hpos.2.ne']
      simp
  by_cases h3 : (g1 ≤ 0 ∧ g0 + 2 * g1 > 0) ∨ (g1 ≥ 0 ∧ g0 + 2 * g1 < 0)
  · -- region 3
    have hd : g1 - g0 ≠ 0 := by
      rcases h3 with ⟨a, b⟩ | ⟨a, b⟩
      · exact (by linarith : g1 - g0 < 0).ne
      · exact (by linarith : 0 < g1 - g0).ne'
    set eta := 3 * g1 / (g1 - g0) with heta
    have hrange : 0 ≤ eta ∧ eta ≤ 1 := by
      rw [heta]
      rcases h3 with ⟨a, b⟩ | ⟨a, b⟩
      · have hd' : g1 - g0 < 0 := by linarith
        exact ⟨div_nonneg_of_nonpos (by linarith) hd'.le, by rw [div_le_one_of_neg hd']; linarith⟩
      · have hd' : 0 < g1 - g0 := by linarith
        exact ⟨div_nonneg (by linarith) hd'.le, by rw [div_le_one hd']; linarith⟩
    have hval : ∀ x, mcAdjustment g0 g1 x = (mcRegion3 (g0 + 2 * g1) g0 g1 x).2 := by
      intro x
      unfold mcAdjustment
      simp only [if_neg ho]
      have f4 : ¬ (mcRegion4 g0 g1 x).1 = true := by simp only [mcRegion4, decide_eq_true_eq]; exact h4
      have t3 : (mcRegion3 (g0 + 2 * g1) g0 g1 x).1 = true := by simp only [mcRegion3, decide_eq_true_eq]; exact h3
      rw [if_neg f4, if_pos t3]
    by_cases hg1 : g1 = 0
    · have he0 : eta = 0 := by rw [heta, hg1]; simp
      refine ⟨fun _ => 0, fun _ => 0, continuous_const, fun x => hasDerivAt_const x 0, ?_, rfl, rfl, ?_, hg1.symm⟩
      · intro x hx0 _
        rw [hval]
        unfold mcRegion3 divNan
        simp only [if_neg hd, ← heta, he0, Option.bind_eq_bind, Option.bind_some, Option.pure_def]
        rw [if_pos trivial, hg1]
        simp
      · intro hc
        rcases hc with hc | hc
        · exact absurd hg1 hc
        · exact absurd hc hg0
    · have hepos : 0 < eta := lt_of_le_of_ne hrange.1 (by rw [heta]; exact (div_ne_zero (mul_ne_zero three_ne_zero hg1) hd).symm)
      have heq : eta * (g0 - g1) = -3 * g1 := by rw [heta]; field_simp; ring
      refine ⟨fun x => g1 + (g0 - g1) * ((eta - min x eta) / eta) ^ 2,
        fun x => g1 * x + eta * (g0 - g1) / 3 * (1 - ((eta - min x eta) / eta) ^ 3), ?_, ?_, ?_, ?_, ?_, ?_, ?_⟩
      · fun_prop
      · intro x
        have d1 := ((hasDerivAt_cube_min eta x).div_const (eta ^ 3)).const_sub 1 |>.const_mul (eta * (g0 - g1) / 3)
        have d3 := ((hasDerivAt_id x).const_mul g1).add d1
        have hfun : (fun x => g1 * x + eta * (g0 - g1) / 3 * (1 - ((eta - min x eta) / eta) ^ 3)) =
            fun x => g1 * x + eta * (g0 - g1) / 3 * (1 - (eta - min x eta) ^ 3 / eta ^ 3) := by
          funext u
          rw [div_pow]
        rw [hfun]
        refine HasDerivAt.congr_deriv d3 ?_
        have := hepos.ne'
        field_simp
      · intro x _ _
        rw [hval]
        unfold mcRegion3 divNan
        simp only [if_neg hd, ← heta, Option.bind_eq_bind, Option.bind_some, Option.pure_def, if_neg hepos.ne', Option.getD_some]
      · simp only [min_eq_left hrange.1, sub_zero]
        rw [div_self hepos.ne']
        simp
      · simp only [min_eq_right hrange.2, sub_self, zero_div, heq]
        ring
      · intro _
        simp only [min_eq_left hrange.1, sub_zero]
        rw [div_self hepos.ne']
        ring
      · simp only [min_eq_right hrange.2, sub_self, zero_div]
        ring
  by_cases h2 : (g0 < 0 ∧ g1 + 2 * g0 ≥ 0) ∨ (g0 > 0 ∧ g1 + 2 * g0 ≤ 0)
  · -- region 2
    have hd : g1 - g0 ≠ 0 := by
      rcases h2 with ⟨a, b⟩ | ⟨a, b⟩
      · exact (by linarith : 0 < g1 - g0).ne'
      · exact (by linarith : g1 - g0 < 0).ne
    set eta := (g1 + 2 * g0) / (g1 - g0) with heta
    have he1 : (g1 - g0) * (1 - eta) = -3 * g0 := by rw [heta]; field_simp; ring
    have hrange : 0 ≤ eta ∧ 0 < 1 - eta := by
      have e2 : 1 - eta = -3 * g0 / (g1 - g0) := by rw [eq_div_iff hd, ← he1]; ring
      rw [e2, heta]
      rcases h2 with ⟨a, b⟩ | ⟨a, b⟩
      · have hd' : 0 < g1 - g0 := by linarith
        exact ⟨div_nonneg b hd'.le, div_pos (by linarith) hd'⟩
      · have hd' : g1 - g0 < 0 := by linarith
        exact ⟨div_nonneg_of_nonpos b hd'.le, div_pos_of_neg_of_neg (by linarith) hd'⟩
    refine ⟨fun x => g0 + (g1 - g0) * ((max x eta - eta) / (1 - eta)) ^ 2,
      fun x => g0 * x + (g1 - g0) * (1 - eta) / 3 * ((max x eta - eta) / (1 - eta)) ^ 3, ?_, ?_, ?_, ?_, ?_, ?_, ?_⟩
    · fun_prop
    · intro x
      have d2 := ((hasDerivAt_cube_max eta x).div_const ((1 - eta) ^ 3)).const_mul ((g1 - g0) * (1 - eta) / 3)
      have d3 := ((hasDerivAt_id x).const_mul g0).add d2
      have hfun : (fun x => g0 * x + (g1 - g0) * (1 - eta) / 3 * ((max x eta - eta) / (1 - eta)) ^ 3) =
          fun x => g0 * x + (g1 - g0) * (1 - eta) / 3 * ((max x eta - eta) ^ 3 / (1 - eta) ^ 3) := by
        funext u
        rw [div_pow]
      rw [hfun]
      refine HasDerivAt.congr_deriv d3 ?_
      have := hrange.2.ne'
      field_simp
    · intro x _ _
      unfold mcAdjustment
      simp only [if_neg ho]
      have f4 : ¬ (mcRegion4 g0 g1 x).1 = true := by simp only [mcRegion4, decide_eq_true_eq]; exact h4
      have f3 : ¬ (mcRegion3 (g0 + 2 * g1) g0 g1 x).1 = true := by simp only [mcRegion3, decide_eq_true_eq]; exact h3
      have t2 : (mcRegion2 (g1 + 2 * g0) g0 g1 x).1 = true := by simp only [mcRegion2, decide_eq_true_eq]; exact h2
      rw [if_neg f4, if_neg f3, if_pos t2]
      unfold mcRegion2 divNan
      simp only [if_neg hd, ← heta, Option.bind_eq_bind, Option.bind_some, Option.pure_def, if_neg hrange.2.ne']
    · simp only [max_eq_right hrange.1, sub_self, zero_div]
      ring
    · simp only [max_eq_left (show eta ≤ 1 by linarith [hrange.2]), he1]
      rw [div_self hrange.2.ne']
      ring
    · intro _
      simp only [max_eq_right hrange.1, sub_self, zero_div]
      ring
    · simp only [max_eq_left (show eta ≤ 1 by linarith [hrange.2])]
      rw [div_self hrange.2.ne']
      ring
  · -- region 1
    have h1 : (g1 + 2 * g0 < 0 ∧ g0 + 2 * g1 ≥ 0) ∨ (g1 + 2 * g0 > 0 ∧ g0 + 2 * g1 ≤ 0) := by
      by_contra hc
      push Not at h2 h3 h4 hc
      rcases lt_or_gt_of_ne hg0 with hneg | hpos
      · have a1 := h2.1 hneg
        have a2 := h4.2 hneg.le
        have a3 := hc.1 a1
        linarith [h3.2 a2]
      · have a1 := h2.2 hpos
        have a2 := h4.1 hpos.le
        have a3 := hc.2 a1
        linarith [h3.1 a2]
    refine ⟨fun x => (3 * (g0 + g1) * x + -2 * (g1 + 2 * g0)) * x + g0, fun x => x * (1 - x) * (g0 * (1 - x) - g1 * x), ?_, ?_, ?_,
      by simp, by simp, fun _ => by simp, by ring⟩
    · fun_prop
    · intro x
      have a := hasDerivAt_id x
      have b := a.const_sub 1
      have d := (a.mul b).mul ((b.const_mul g0).sub (a.const_mul g1))
      refine HasDerivAt.congr_deriv d ?_
      simp only [id_eq, Pi.mul_apply, Pi.sub_apply]
      ring
    · intro x _ _
      unfold mcAdjustment
      simp only [if_neg ho]
      have f4 : ¬ (mcRegion4 g0 g1 x).1 = true := by simp only [mcRegion4, decide_eq_true_eq]; exact h4
      have f3 : ¬ (mcRegion3 (g0 + 2 * g1) g0 g1 x).1 = true := by simp only [mcRegion3, decide_eq_true_eq]; exact h3
      have f2 : ¬ (mcRegion2 (g1 + 2 * g0) g0 g1 x).1 = true := by simp only [mcRegion2, decide_eq_true_eq]; exact h2
      have t1 : (mcRegion1 (g1 + 2 * g0) (g0 + 2 * g1) g0 g1 x).1 = true := by simp only [mcRegion1, decide_eq_true_eq]; exact h1
      rw [if_neg f4, if_neg f3, if_neg f2, if_pos t1]
      unfold mcRegion1
      simp

/-- The excluded case. -/
theorem adjustment_nan (g1 x : ℝ) (h : g1 ≠ 0) : mcAdjustment 0 g1 x = none := by
  unfold mcAdjustment
  have h4 : (mcRegion4 0 g1 x).1 = true := by
    simp only [mcRegion4, decide_eq_true_eq, ge_iff_le, le_refl, true_and, gt_iff_lt]
    exact (lt_or_gt_of_ne h).symm
  simp only [h, and_false, if_false, h4, if_true]
  unfold mcRegion4 divNan
  simp [h]

end Lemmas
