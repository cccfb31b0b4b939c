import Mathlib.Analysis.Calculus.MeanValue
import Mathlib.Analysis.Calculus.Deriv.MeanValue
import Mathlib.Topology.Order.MonotoneConvergence
import Mathlib.Logic.Function.Iterate
import Mathlib.Tactic.Linarith
import Mathlib.Tactic.Ring
import Mathlib.Tactic.FieldSimp

/-! # Damped Newton steps for functions with a monotone derivative -/

namespace Lemmas
open Filter Topology Set

/-- A Newton step scaled by `D`. -/
noncomputable def dampedStep (f g : ℝ → ℝ) (D x : ℝ) : ℝ := x - D * (f x / g x)

variable {f g : ℝ → ℝ} {D r x0 : ℝ}

/-- The mean value theorem in the form used below. -/
theorem slope_between {u w : ℝ} (huw : u < w) (hf : ∀ x ∈ Icc u w, HasDerivAt f (g x) x) :
    ∃ c ∈ Icc u w, f w - f u = g c * (w - u) := by
  obtain ⟨c, hc, he⟩ := exists_hasDerivAt_eq_slope f g huw
    (fun x hx => (hf x hx).continuousAt.continuousWithinAt) (fun x hx => hf x (Ioo_subset_Icc_self hx))
  refine ⟨c, Ioo_subset_Icc_self hc, ?_⟩
  rw [he, div_mul_cancel₀ _ (sub_pos.mpr huw).ne']

theorem dampedStep_above (hD0 : 0 < D) (hD1 : D ≤ 1) (hf : ∀ x ∈ Icc r x0, HasDerivAt f (g x) x)
    (hg : ∀ x ∈ Icc r x0, 0 < g x) (hm : MonotoneOn g (Icc r x0)) (h0 : f r = 0) {x : ℝ} (hx : x ∈ Icc r x0) :
    0 ≤ f x ∧ r ≤ dampedStep f g D x ∧ dampedStep f g D x ≤ x := by
  have hgx := hg x hx
  have hb : 0 ≤ f x ∧ f x ≤ g x * (x - r) := by
    rcases hx.1.eq_or_lt with he | hl
    · rw [← he, h0]; simp
    · obtain ⟨c, hc, he⟩ := slope_between hl (fun y hy => hf y ⟨hy.1, hy.2.trans hx.2⟩)
      have hcI : c ∈ Icc r x0 := ⟨hc.1, hc.2.trans hx.2⟩
      rw [h0, sub_zero] at he
      rw [he]
      exact ⟨mul_nonneg (hg c hcI).le (by linarith), mul_le_mul_of_nonneg_right (hm hcI hx hc.2) (by linarith)⟩
  have hq0 : 0 ≤ f x / g x := div_nonneg hb.1 hgx.le
  have hq1 : f x / g x ≤ x - r := by rw [div_le_iff₀ hgx]; linarith [hb.2, mul_comm (g x) (x - r)]
  unfold dampedStep
  have : D * (f x / g x) ≤ 1 * (f x / g x) := mul_le_mul_of_nonneg_right hD1 hq0
  exact ⟨hb.1, by linarith, by linarith [mul_nonneg hD0.le hq0]⟩

/-- From above, where the derivative increases, the iterates decrease to the root. -/
theorem dampedStep_descend (hr : r ≤ x0) (hD0 : 0 < D) (hD1 : D ≤ 1) (hf : ∀ x ∈ Icc r x0, HasDerivAt f (g x) x)
    (hg : ∀ x ∈ Icc r x0, 0 < g x) (hm : MonotoneOn g (Icc r x0)) (h0 : f r = 0) :
    (∀ n, (dampedStep f g D)^[n] x0 ∈ Icc r x0) ∧ Tendsto (fun n => (dampedStep f g D)^[n] x0) atTop (𝓝 r) := by
  set x : ℕ → ℝ := fun n => (dampedStep f g D)^[n] x0 with hxdef
  have hs : ∀ n, x (n + 1) = dampedStep f g D (x n) := fun n => Function.iterate_succ_apply' _ _ _
  have hI : ∀ n, x n ∈ Icc r x0 := by
    intro n
    induction n with
    | zero => exact ⟨hr, le_rfl⟩
    | succ n ih =>
      have := dampedStep_above hD0 hD1 hf hg hm h0 ih
      rw [hs]; exact ⟨this.2.1, this.2.2.trans ih.2⟩
  refine ⟨hI, ?_⟩
  have ha : Antitone x := antitone_nat_of_succ_le fun n => by
    rw [hs]; exact (dampedStep_above hD0 hD1 hf hg hm h0 (hI n)).2.2
  obtain ⟨l, hl⟩ : ∃ l, Tendsto x atTop (𝓝 l) :=
    ⟨_, tendsto_atTop_ciInf ha ⟨r, by rintro _ ⟨n, rfl⟩; exact (hI n).1⟩⟩
  have hlI : l ∈ Icc r x0 := isClosed_Icc.mem_of_tendsto hl (Eventually.of_forall hI)
  have hfl : Tendsto (fun n => f (x n)) atTop (𝓝 (f l)) := (hf l hlI).continuousAt.tendsto.comp hl
  have hstep : Tendsto (fun n => g x0 / D * (x n - x (n + 1))) atTop (𝓝 0) := by
    have := (hl.sub (hl.comp (tendsto_add_atTop_nat 1))).const_mul (g x0 / D)
    simpa using this
  have hf0 : Tendsto (fun n => f (x n)) atTop (𝓝 0) := by
    refine squeeze_zero (fun n => (dampedStep_above hD0 hD1 hf hg hm h0 (hI n)).1) (fun n => ?_) hstep
    have hfx := (dampedStep_above hD0 hD1 hf hg hm h0 (hI n)).1
    have hgn := hg _ (hI n)
    rw [hs]
    unfold dampedStep
    have : g x0 / D * (x n - (x n - D * (f (x n) / g (x n)))) = g x0 * (f (x n) / g (x n)) := by field_simp; ring
    rw [this]
    calc f (x n) = g (x n) * (f (x n) / g (x n)) := by field_simp
      _ ≤ g x0 * (f (x n) / g (x n)) :=
        mul_le_mul_of_nonneg_right (hm (hI n) ⟨hr, le_rfl⟩ (hI n).2) (div_nonneg hfx hgn.le)
  have hfl0 : f l = 0 := tendsto_nhds_unique hfl hf0
  rcases hlI.1.eq_or_lt with he | hlt
  · rw [he]; exact hl
  · obtain ⟨c, hc, he⟩ := slope_between hlt (fun y hy => hf y ⟨hy.1, hy.2.trans hlI.2⟩)
    have := mul_pos (hg c ⟨hc.1, hc.2.trans hlI.2⟩) (sub_pos.mpr hlt)
    rw [hfl0, h0] at he
    linarith

theorem dampedStep_neg (x : ℝ) :
    dampedStep (fun y => -f (-y)) (fun y => g (-y)) D (-x) = -dampedStep f g D x := by
  unfold dampedStep
  simp only [neg_neg, neg_div]
  ring

theorem dampedStep_iterate_neg (n : ℕ) (x : ℝ) :
    (dampedStep (fun y => -f (-y)) (fun y => g (-y)) D)^[n] (-x) = -(dampedStep f g D)^[n] x := by
  induction n with
  | zero => rfl
  | succ n ih => rw [Function.iterate_succ_apply', Function.iterate_succ_apply', ih, dampedStep_neg]

/-- From below, where the derivative decreases, the iterates increase to the root. -/
theorem dampedStep_ascend (hr : x0 ≤ r) (hD0 : 0 < D) (hD1 : D ≤ 1) (hf : ∀ x ∈ Icc x0 r, HasDerivAt f (g x) x)
    (hg : ∀ x ∈ Icc x0 r, 0 < g x) (hm : AntitoneOn g (Icc x0 r)) (h0 : f r = 0) :
    (∀ n, (dampedStep f g D)^[n] x0 ∈ Icc x0 r) ∧ Tendsto (fun n => (dampedStep f g D)^[n] x0) atTop (𝓝 r) := by
  have hI : ∀ y, y ∈ Icc (-r) (-x0) → -y ∈ Icc x0 r := fun y hy => ⟨by linarith [hy.2], by linarith [hy.1]⟩
  obtain ⟨h1, h2⟩ := dampedStep_descend (f := fun y => -f (-y)) (g := fun y => g (-y)) (neg_le_neg hr) hD0 hD1
    (fun y hy => by
      have := ((hf (-y) (hI y hy)).comp y (hasDerivAt_neg y)).neg
      refine HasDerivAt.congr_deriv (f' := -(g (-y) * -1)) this (by ring))
    (fun y hy => hg _ (hI y hy))
    (fun y hy z hz hyz => hm (hI z hz) (hI y hy) (neg_le_neg hyz))
    (by simp [h0])
  constructor
  · intro n
    have := h1 n
    rw [dampedStep_iterate_neg] at this
    exact ⟨by linarith [this.2], by linarith [this.1]⟩
  · have := h2.neg
    simpa [dampedStep_iterate_neg] using this

/-- If the derivative increases on the whole half line, the iterates tend to the root from every positive start. -/
theorem dampedStep_global (hr : 0 < r) (hx0 : 0 < x0) (hD0 : 0 < D) (hD1 : D ≤ 1)
    (hf : ∀ x, 0 < x → HasDerivAt f (g x) x) (hg : ∀ x, 0 < x → 0 < g x) (hm : MonotoneOn g (Ioi 0)) (h0 : f r = 0) :
    (∀ n, 0 < (dampedStep f g D)^[n] x0) ∧ Tendsto (fun n => (dampedStep f g D)^[n] x0) atTop (𝓝 r) := by
  have hdesc : ∀ y, r ≤ y → (∀ n, (dampedStep f g D)^[n] y ∈ Icc r y) ∧
      Tendsto (fun n => (dampedStep f g D)^[n] y) atTop (𝓝 r) := fun y hy =>
    dampedStep_descend hy hD0 hD1 (fun x hx => hf x (hr.trans_le hx.1)) (fun x hx => hg x (hr.trans_le hx.1))
      (hm.mono fun x hx => hr.trans_le hx.1) h0
  have hneg : ∀ y, 0 < y → y < r → f y < 0 := by
    intro y hy hyr
    obtain ⟨c, hc, he⟩ := slope_between hyr (fun x hx => hf x (hy.trans_le hx.1))
    have := mul_pos (hg c (hy.trans_le hc.1)) (sub_pos.mpr hyr)
    rw [h0] at he
    linarith
  have hup : ∀ y, 0 < y → y < r → y ≤ dampedStep f g D y := by
    intro y hy hyr
    unfold dampedStep
    have : D * (f y / g y) ≤ 0 :=
      mul_nonpos_of_nonneg_of_nonpos hD0.le (div_nonpos_of_nonpos_of_nonneg (hneg y hy hyr).le (hg y hy).le)
    linarith
  set x : ℕ → ℝ := fun n => (dampedStep f g D)^[n] x0 with hxdef
  have hs : ∀ n, x (n + 1) = dampedStep f g D (x n) := fun n => Function.iterate_succ_apply' _ _ _
  have hpos : ∀ n, min x0 r ≤ x n := by
    intro n
    induction n with
    | zero => exact min_le_left _ _
    | succ n ih =>
      have hp : 0 < x n := (lt_min hx0 hr).trans_le ih
      rw [hs]
      rcases lt_or_ge (x n) r with hlt | hge
      · exact ih.trans (hup _ hp hlt)
      · exact (min_le_right _ _).trans ((hdesc _ hge).1 1).1
  have hp : ∀ n, 0 < x n := fun n => (lt_min hx0 hr).trans_le (hpos n)
  refine ⟨hp, ?_⟩
  by_cases hex : ∃ n, r ≤ x n
  · obtain ⟨n, hn⟩ := hex
    rw [← tendsto_add_atTop_iff_nat n]
    refine (hdesc _ hn).2.congr fun m => ?_
    rw [hxdef]
    exact (Function.iterate_add_apply _ m n x0).symm
  · push Not at hex
    have hmon : Monotone x := monotone_nat_of_le_succ fun n => by rw [hs]; exact hup _ (hp n) (hex n)
    obtain ⟨l, hl⟩ : ∃ l, Tendsto x atTop (𝓝 l) :=
      ⟨_, tendsto_atTop_ciSup hmon ⟨r, by rintro _ ⟨n, rfl⟩; exact (hex n).le⟩⟩
    have hl1 : x0 ≤ l := ge_of_tendsto' hl fun n => hmon (Nat.zero_le n)
    have hl2 : l ≤ r := le_of_tendsto' hl fun n => (hex n).le
    have hlp : 0 < l := hx0.trans_le hl1
    have hfl : Tendsto (fun n => -f (x n)) atTop (𝓝 (-f l)) := ((hf l hlp).continuousAt.tendsto.comp hl).neg
    have hstep : Tendsto (fun n => g r / D * (x (n + 1) - x n)) atTop (𝓝 0) := by
      have := ((hl.comp (tendsto_add_atTop_nat 1)).sub hl).const_mul (g r / D)
      simpa using this
    have hf0 : Tendsto (fun n => -f (x n)) atTop (𝓝 0) := by
      refine squeeze_zero (fun n => by linarith [hneg _ (hp n) (hex n)]) (fun n => ?_) hstep
      have hgn := hg _ (hp n)
      have hfx : 0 ≤ -f (x n) := by linarith [hneg _ (hp n) (hex n)]
      rw [hs]
      unfold dampedStep
      have : g r / D * ((x n - D * (f (x n) / g (x n))) - x n) = g r * (-f (x n) / g (x n)) := by field_simp; ring
      rw [this]
      calc -f (x n) = g (x n) * (-f (x n) / g (x n)) := by field_simp
        _ ≤ g r * (-f (x n) / g (x n)) :=
          mul_le_mul_of_nonneg_right (hm (hp n) hr (hex n).le) (div_nonneg hfx hgn.le)
    have hfl0 : -f l = 0 := tendsto_nhds_unique hfl hf0
    rcases hl2.eq_or_lt with he | hlt
    · rw [← he]; exact hl
    · have := hneg l hlp hlt
      linarith

end Lemmas
