import Verif.Lemmas.BinomialLimit
import Mathlib.Analysis.SpecialFunctions.Complex.LogDeriv
import Mathlib.Analysis.Calculus.DSlope
import Mathlib.Topology.MetricSpace.Lipschitz

/-! # Trees of binomial moves: exercise dates and limits -/

namespace Lemmas
open MeasureTheory ProbabilityTheory Filter Complex
open scoped Topology

/-! ## The limit law when the number of moves is a part of all moves -/

theorem tendsto_one_add_pow_exp_of_steps {N : ℕ → ℕ} {g : ℕ → ℂ} {t : ℂ} (hN : Tendsto N atTop atTop) (hg : Tendsto (fun n => (N n : ℂ) * g n) atTop (𝓝 t)) :
    Tendsto (fun n => (1 + g n) ^ N n) atTop (𝓝 (cexp t)) := by
  have hNc : Tendsto (fun n => ((N n : ℂ))⁻¹) atTop (𝓝 0) := by
    have : Tendsto (fun n : ℕ => ((n : ℂ))⁻¹) atTop (𝓝 0) := tendsto_inv_atTop_nhds_zero_nat (𝕜 := ℂ)
    exact this.comp hN
  have hpos : ∀ᶠ n in atTop, (N n : ℂ) ≠ 0 := by
    filter_upwards [hN.eventually_gt_atTop 0] with n hn
    exact_mod_cast hn.ne'
  have hg0 : Tendsto g atTop (𝓝 0) := by
    have := hNc.mul hg
    rw [zero_mul] at this
    refine this.congr' ?_
    filter_upwards [hpos] with n hn
    rw [inv_mul_cancel_left₀ hn]
  have hder : HasDerivAt (fun z : ℂ => Complex.log (1 + z)) 1 0 := by
    have h1 : HasDerivAt Complex.log ((1 + 0 : ℂ))⁻¹ (1 + 0) := (Complex.hasStrictDerivAt_log (by simp)).hasDerivAt
    have h2 : HasDerivAt (fun z : ℂ => 1 + z) 1 0 := by simpa using (hasDerivAt_id (0 : ℂ)).const_add 1
    have := h1.comp (0 : ℂ) h2
    simpa [Function.comp_def] using this
  have hcont : ContinuousAt (dslope (fun z : ℂ => Complex.log (1 + z)) 0) 0 := continuousAt_dslope_same.2 hder.differentiableAt
  have hslope : Tendsto (fun n => dslope (fun z : ℂ => Complex.log (1 + z)) 0 (g n)) atTop (𝓝 1) := by
    have := hcont.tendsto.comp hg0
    rwa [dslope_same, hder.deriv] at this
  have hlog : ∀ z : ℂ, Complex.log (1 + z) = z * dslope (fun z : ℂ => Complex.log (1 + z)) 0 z := by
    intro z
    have := sub_smul_dslope (fun z : ℂ => Complex.log (1 + z)) 0 z
    simp only [sub_zero, smul_eq_mul, add_zero, Complex.log_one] at this
    exact this.symm
  have hmain : Tendsto (fun n => (N n : ℂ) * Complex.log (1 + g n)) atTop (𝓝 t) := by
    have := hg.mul hslope
    rw [mul_one] at this
    refine this.congr fun n => ?_
    rw [hlog (g n)]
    ring
  refine ((Complex.continuous_exp.tendsto t).comp hmain).congr' ?_
  have hne : ∀ᶠ n in atTop, 1 + g n ≠ 0 := by
    have h1 : Tendsto (fun n => 1 + g n) atTop (𝓝 (1 + 0)) := hg0.const_add 1
    exact h1.eventually_ne (by simp)
  filter_upwards [hne] with n hn
  simp only [Function.comp]
  rw [Complex.exp_nat_mul, Complex.exp_log hn]

theorem tendsto_move_pow_steps (c v t : ℝ) (N : ℕ → ℕ) (hN : Tendsto N atTop atTop) (d : ℕ → ℝ) (hd0 : ∀ n, 0 < d n) (hd : Tendsto (fun n => (N n : ℝ) * d n ^ 2) atTop (𝓝 v)) :
    Tendsto (fun n : ℕ => (((1 + upExcess c (d n)) / 2 : ℝ) * cexp (t * d n * I) + (1 - ((1 + upExcess c (d n)) / 2 : ℝ) : ℂ) * cexp (-(t * d n * I))) ^ N n) atTop
      (𝓝 (cexp (t * (v * (c - 1 / 2) : ℝ) * I - v * t ^ 2 / 2))) := by
  have hlim : Tendsto d atTop (𝓝[≠] 0) := by
    refine tendsto_nhdsWithin_iff.2 ⟨?_, Eventually.of_forall fun n => (hd0 n).ne'⟩
    have h0 : Tendsto (fun n => ((N n : ℝ))⁻¹) atTop (𝓝 0) := (tendsto_inv_atTop_nhds_zero_nat (𝕜 := ℝ)).comp hN
    have h1 := h0.mul hd
    rw [zero_mul] at h1
    have h2 := (Real.continuous_sqrt.tendsto 0).comp h1
    rw [Real.sqrt_zero] at h2
    refine h2.congr' ?_
    filter_upwards [hN.eventually_gt_atTop 0] with n hn
    have hn' : (N n : ℝ) ≠ 0 := by exact_mod_cast hn.ne'
    simp only [Function.comp]
    rw [inv_mul_cancel_left₀ hn', Real.sqrt_sq (hd0 n).le]
  have e : ∀ n : ℕ, ((1 + upExcess c (d n)) / 2 : ℝ) * cexp (t * d n * I) + (1 - ((1 + upExcess c (d n)) / 2 : ℝ) : ℂ) * cexp (-(t * d n * I)) =
      1 + (((Real.cos (t * d n) - 1 : ℝ) : ℂ) + ((upExcess c (d n) * Real.sin (t * d n) : ℝ) : ℂ) * I) := by
    intro n
    have e1 : cexp (t * d n * I) = Real.cos (t * d n) + Real.sin (t * d n) * I := by
      rw [Complex.exp_mul_I]; push_cast; rfl
    have e2 : cexp (-(t * d n * I)) = Real.cos (t * d n) - Real.sin (t * d n) * I := by
      rw [show -((t : ℂ) * d n * I) = (-(t * d n : ℂ)) * I by ring, Complex.exp_mul_I, Complex.cos_neg, Complex.sin_neg]; push_cast; ring
    rw [e1, e2]
    push_cast
    ring
  simp_rw [e]
  refine tendsto_one_add_pow_exp_of_steps hN ?_
  have l1 := hd.mul ((tendsto_cos_sq t).comp hlim)
  have l2 := hd.mul (((tendsto_upExcess c).comp hlim).mul ((tendsto_sin_div t).comp hlim))
  have l3 : Tendsto (fun n : ℕ => (((N n : ℝ) * (Real.cos (t * d n) - 1) : ℝ) : ℂ) + (((N n : ℝ) * (upExcess c (d n) * Real.sin (t * d n)) : ℝ) : ℂ) * I) atTop
      (𝓝 (((v * (-(t ^ 2) / 2) : ℝ) : ℂ) + ((v * ((c - 1 / 2) * t) : ℝ) : ℂ) * I)) := by
    refine Tendsto.add ((Complex.continuous_ofReal.tendsto _).comp (l1.congr ?_)) (Tendsto.mul_const I ((Complex.continuous_ofReal.tendsto _).comp (l2.congr ?_)))
    · intro n
      have hd0 := (hd0 n).ne'
      simp only [Function.comp]
      field_simp
    · intro n
      have hd0 := (hd0 n).ne'
      simp only [Function.comp]
      field_simp
  refine (l3.congr ?_).trans (le_of_eq ?_)
  · intro n
    push_cast
    ring
  · congr 1
    push_cast
    ring

/-- Weak limit of the law of the log price. -/
theorem tendsto_binomialLaw_steps (c v x0 : ℝ) (hv : 0 < v) (N : ℕ → ℕ) (hN : Tendsto N atTop atTop) (d : ℕ → ℝ) (hd0 : ∀ n, 0 < d n) (hd : Tendsto (fun n => (N n : ℝ) * d n ^ 2) atTop (𝓝 v))
    (hp : ∀ n, 0 ≤ (1 + upExcess c (d n)) / 2 ∧ (1 + upExcess c (d n)) / 2 ≤ 1) (f : BoundedContinuousFunction ℝ ℝ) :
    Tendsto (fun n : ℕ => ∫ x, f x ∂binomialLaw (N n) ((1 + upExcess c (d n)) / 2) (d n) x0) atTop
      (𝓝 (∫ x, f x ∂(gaussianReal (x0 + v * (c - 1 / 2)) (Real.toNNReal v)))) := by
  have lift : ∀ m : Measure ℝ, IsProbabilityMeasure m → ∃ P : ProbabilityMeasure ℝ, (P : Measure ℝ) = m := fun m h => ⟨⟨m, h⟩, rfl⟩
  choose mu hmu using fun n => lift _ (binomialLaw_prob (N n) _ (d n) x0 (hp n).1 (hp n).2)
  obtain ⟨G, hG⟩ := lift (gaussianReal (x0 + v * (c - 1 / 2)) (Real.toNNReal v)) inferInstance
  have weak : Tendsto mu atTop (𝓝 G) := by
    refine ProbabilityMeasure.tendsto_iff_tendsto_charFun.2 fun t => ?_
    have lim := (tendsto_move_pow_steps c v t N hN d hd0 hd).const_mul (cexp (t * x0 * I))
    refine (lim.congr ?_).trans (le_of_eq ?_)
    · intro n
      rw [hmu n, charFun_binomialLaw _ _ _ _ (hp n).1 (hp n).2]
    · congr 1
      rw [hG, charFun_gaussianReal, ← Complex.exp_add, Real.coe_toNNReal _ hv.le]
      congr 1
      push_cast
      ring
  have := ProbabilityMeasure.tendsto_iff_forall_integral_tendsto.1 weak f
  rw [hG] at this
  refine this.congr fun n => ?_
  rw [hmu n]

/-! ## Expectations after some moves -/

/-- Expectation of a function of the log price after `l` moves. -/
noncomputable def afterMoves (p d : ℝ) (f : ℝ → ℝ) : ℕ → ℝ → ℝ
  | 0, x => f x
  | l + 1, x => (1 - p) * afterMoves p d f l (x - d) + p * afterMoves p d f l (x + d)

variable {p d : ℝ}

theorem afterMoves_sum (f : ℝ → ℝ) (l : ℕ) (x : ℝ) :
    afterMoves p d f l x = ∑ ij ∈ Finset.antidiagonal l, (l.choose ij.1 : ℝ) * (p ^ ij.1 * (1 - p) ^ ij.2 * f (x + (ij.1 : ℝ) * d - (ij.2 : ℝ) * d)) := by
  induction l generalizing x with
  | zero => simp [afterMoves]
  | succ l ih =>
    rw [Finset.sum_antidiagonal_choose_succ_mul (fun a b => p ^ a * (1 - p) ^ b * f (x + (a : ℝ) * d - (b : ℝ) * d))]
    change (1 - p) * afterMoves p d f l (x - d) + p * afterMoves p d f l (x + d) = _
    rw [ih, ih, Finset.mul_sum, Finset.mul_sum]
    congr 1
    · refine Finset.sum_congr rfl fun ij _ => ?_
      rw [show x - d + (ij.1 : ℝ) * d - (ij.2 : ℝ) * d = x + (ij.1 : ℝ) * d - ((ij.2 + 1 : ℕ) : ℝ) * d by push_cast; ring]
      ring
    · refine Finset.sum_congr rfl fun ij hij => ?_
      rw [Finset.mem_antidiagonal] at hij
      rw [← Nat.choose_symm_of_eq_add (n := l) (a := ij.1) (b := ij.2) (by omega),
        show x + d + (ij.1 : ℝ) * d - (ij.2 : ℝ) * d = x + ((ij.1 + 1 : ℕ) : ℝ) * d - (ij.2 : ℝ) * d by push_cast; ring]
      ring

theorem afterMoves_integral (hp0 : 0 ≤ p) (hp1 : p ≤ 1) (f : ℝ → ℝ) (l : ℕ) (x : ℝ) : afterMoves p d f l x = ∫ y, f y ∂binomialLaw l p d x := by
  rw [integral_binomialLaw l p d x hp0 hp1, afterMoves_sum, Finset.Nat.sum_antidiagonal_eq_sum_range_succ_mk]
  refine Finset.sum_congr rfl fun k hk => ?_
  simp only [smul_eq_mul]
  ring

theorem afterMoves_mono (hp0 : 0 ≤ p) (hp1 : p ≤ 1) {f g : ℝ → ℝ} (h : ∀ x, f x ≤ g x) (l : ℕ) (x : ℝ) : afterMoves p d f l x ≤ afterMoves p d g l x := by
  induction l generalizing x with
  | zero => exact h x
  | succ l ih => exact add_le_add (mul_le_mul_of_nonneg_left (ih _) (by linarith)) (mul_le_mul_of_nonneg_left (ih _) hp0)

theorem afterMoves_sub (f g : ℝ → ℝ) (l : ℕ) (x : ℝ) : afterMoves p d (fun y => f y - g y) l x = afterMoves p d f l x - afterMoves p d g l x := by
  induction l generalizing x with
  | zero => rfl
  | succ l ih => simp only [afterMoves, ih]; ring

theorem afterMoves_neg (f : ℝ → ℝ) (l : ℕ) (x : ℝ) : afterMoves p d (fun y => -f y) l x = -afterMoves p d f l x := by
  induction l generalizing x with
  | zero => rfl
  | succ l ih => simp only [afterMoves, ih]; ring

theorem afterMoves_dist (hp0 : 0 ≤ p) (hp1 : p ≤ 1) {f g h : ℝ → ℝ} (hh : ∀ x, |f x - g x| ≤ h x) (l : ℕ) (x : ℝ) :
    |afterMoves p d f l x - afterMoves p d g l x| ≤ afterMoves p d h l x := by
  rw [← afterMoves_sub, abs_le, ← afterMoves_neg]
  exact ⟨afterMoves_mono hp0 hp1 (fun y => (abs_le.1 (hh y)).1) l x, afterMoves_mono hp0 hp1 (fun y => (abs_le.1 (hh y)).2) l x⟩

/-! ## The limit of expectations of functions that converge -/

theorem lipschitz_exp_continuous {f : ℝ → ℝ} {L : ℝ} (h : ∀ x y, |f x - f y| ≤ L * |Real.exp x - Real.exp y|) : Continuous f := by
  rw [continuous_iff_continuousAt]
  intro x
  rw [ContinuousAt, tendsto_iff_dist_tendsto_zero]
  have h1 : Tendsto (fun y => L * |Real.exp y - Real.exp x|) (𝓝 x) (𝓝 0) := by
    have : Continuous fun y => L * |Real.exp y - Real.exp x| := by fun_prop
    simpa using this.tendsto x
  exact squeeze_zero (fun y => dist_nonneg) (fun y => by rw [Real.dist_eq]; exact h y x) h1

theorem tendsto_afterMoves (c v x0 : ℝ) (hv : 0 < v) (N : ℕ → ℕ) (hN : Tendsto N atTop atTop) (d : ℕ → ℝ) (hd0 : ∀ n, 0 < d n) (hd : Tendsto (fun n => (N n : ℝ) * d n ^ 2) atTop (𝓝 v))
    (p : ℕ → ℝ) (hpe : ∀ n, p n = (1 + upExcess c (d n)) / 2) (hp : ∀ n, 0 ≤ p n ∧ p n ≤ 1) (f : ℕ → ℝ → ℝ) (u : ℝ → ℝ) (B L : ℝ) (hB : ∀ n x, |f n x| ≤ B)
    (hL : ∀ n x y, |f n x - f n y| ≤ L * |Real.exp x - Real.exp y|) (hlim : ∀ x, Tendsto (fun n => f n x) atTop (𝓝 (u x))) :
    Tendsto (fun n => afterMoves (p n) (d n) (f n) (N n) x0) atTop (𝓝 (∫ x, u x ∂gaussianReal (x0 + v * (c - 1 / 2)) (Real.toNNReal v))) := by
  set G := gaussianReal (x0 + v * (c - 1 / 2)) (Real.toNNReal v) with hG
  have huB : ∀ x, |u x| ≤ B := fun x => le_of_tendsto (hlim x).abs (Eventually.of_forall fun n => hB n x)
  have huL : ∀ x y, |u x - u y| ≤ L * |Real.exp x - Real.exp y| := fun x y => le_of_tendsto ((hlim x).sub (hlim y)).abs (Eventually.of_forall fun n => hL n x y)
  have weak : ∀ (g : ℝ → ℝ) (B' : ℝ), Continuous g → (∀ x, |g x| ≤ B') → Tendsto (fun n => afterMoves (p n) (d n) g (N n) x0) atTop (𝓝 (∫ x, g x ∂G)) := by
    intro g B' hg hgB
    have := tendsto_binomialLaw_steps c v x0 hv N hN d hd0 hd (fun n => by rw [← hpe]; exact hp n) (BoundedContinuousFunction.ofNormedAddCommGroup g hg B' hgB)
    refine this.congr fun n => ?_
    rw [afterMoves_integral (hp n).1 (hp n).2, hpe]
    rfl
  set H : ℕ → ℝ → ℝ := fun M x => ⨆ m, |f (M + m) x - u x| with hH
  have hbd : ∀ m x, |f m x - u x| ≤ 2 * B := by
    intro m x
    have := abs_sub (f m x) (u x)
    have h1 := hB m x
    have h2 := huB x
    linarith
  have hbdd : ∀ M x, BddAbove (Set.range fun m => |f (M + m) x - u x|) := by
    intro M x
    refine ⟨2 * B, ?_⟩
    rintro _ ⟨m, rfl⟩
    exact hbd _ x
  have hH0 : ∀ M x, 0 ≤ H M x := fun M x => (abs_nonneg _).trans (le_ciSup (hbdd M x) 0)
  have hHB : ∀ M x, |H M x| ≤ 2 * B := by
    intro M x
    rw [abs_of_nonneg (hH0 M x)]
    exact ciSup_le fun m => hbd _ x
  have hHL' : ∀ M x y, H M x ≤ H M y + 2 * L * |Real.exp x - Real.exp y| := by
    intro M x y
    refine ciSup_le fun m => ?_
    have h1 := le_ciSup (hbdd M y) m
    have h2 := hL (M + m) x y
    have h3 := huL x y
    have h4 : |f (M + m) x - u x| ≤ |f (M + m) y - u y| + (|f (M + m) x - f (M + m) y| + |u x - u y|) := by
      have := abs_sub_abs_le_abs_sub (f (M + m) x - u x) (f (M + m) y - u y)
      have h5 : |f (M + m) x - u x - (f (M + m) y - u y)| ≤ |f (M + m) x - f (M + m) y| + |u x - u y| := by
        rw [show f (M + m) x - u x - (f (M + m) y - u y) = (f (M + m) x - f (M + m) y) - (u x - u y) by ring]
        exact abs_sub _ _
      linarith
    have h6 : |f (M + m) y - u y| ≤ H M y := h1
    linarith
  have hHL : ∀ M x y, |H M x - H M y| ≤ 2 * L * |Real.exp x - Real.exp y| := by
    intro M x y
    rw [abs_le]
    have h1 := hHL' M x y
    have h2 := hHL' M y x
    rw [abs_sub_comm (Real.exp y)] at h2
    constructor <;> linarith
  have hHc : ∀ M, Continuous (H M) := fun M => lipschitz_exp_continuous (hHL M)
  have hHlim : ∀ x, Tendsto (fun M => H M x) atTop (𝓝 0) := by
    intro x
    rw [Metric.tendsto_atTop]
    intro ε hε
    obtain ⟨M0, hM0⟩ := Metric.tendsto_atTop.1 (hlim x) (ε / 2) (by positivity)
    refine ⟨M0, fun M hM => ?_⟩
    rw [Real.dist_eq, sub_zero, abs_of_nonneg (hH0 M x)]
    have : H M x ≤ ε / 2 := ciSup_le fun m => by
      have := hM0 (M + m) (by omega)
      rw [Real.dist_eq] at this
      exact this.le
    linarith
  have hHint : Tendsto (fun M => ∫ x, H M x ∂G) atTop (𝓝 0) := by
    have := tendsto_integral_of_dominated_convergence (μ := G) (F := H) (f := fun _ => 0) (fun _ => 2 * B) (fun M => (hHc M).aestronglyMeasurable) (integrable_const _)
      (fun M => Eventually.of_forall fun x => hHB M x) (Eventually.of_forall hHlim)
    simpa using this
  have hu := weak u B (lipschitz_exp_continuous huL) huB
  have hdiff : Tendsto (fun n => afterMoves (p n) (d n) (f n) (N n) x0 - afterMoves (p n) (d n) u (N n) x0) atTop (𝓝 0) := by
    rw [Metric.tendsto_atTop]
    intro ε hε
    obtain ⟨M, hM⟩ := (hHint.eventually_lt_const (show (0 : ℝ) < ε by exact hε)).exists
    obtain ⟨n0, hn0⟩ := eventually_atTop.1 ((weak (H M) (2 * B) (hHc M) (hHB M)).eventually_lt_const hM)
    refine ⟨max n0 M, fun n hn => ?_⟩
    rw [Real.dist_eq, sub_zero]
    refine (afterMoves_dist (hp n).1 (hp n).2 (h := H M) (fun x => ?_) (N n) x0).trans_lt (hn0 n ((le_max_left _ _).trans hn))
    obtain ⟨m, rfl⟩ := Nat.exists_eq_add_of_le ((le_max_right n0 M).trans hn)
    exact le_ciSup (hbdd M x) m
  have := hdiff.add hu
  rw [zero_add] at this
  exact this.congr fun n => by ring

/-! ## Trees with exercise dates -/

/-- Value `m` moves before expiry, as a function of the log price, of a payoff that can be taken at the dates in `X`; the payoff of an exercise before expiry is scaled by `κ`. -/
noncomputable def treeValue (pay : ℝ → ℝ) (p d disc κ : ℝ) (X : ℕ → Bool) : ℕ → ℝ → ℝ
  | 0, x => pay x
  | m + 1, x => if X (m + 1) then max (κ * pay x) (disc * ((1 - p) * treeValue pay p d disc κ X m (x - d) + p * treeValue pay p d disc κ X m (x + d)))
    else disc * ((1 - p) * treeValue pay p d disc κ X m (x - d) + p * treeValue pay p d disc κ X m (x + d))

variable {pay : ℝ → ℝ} {disc κ : ℝ} {X : ℕ → Bool}

theorem treeValue_ge (m : ℕ) (x : ℝ) : disc * ((1 - p) * treeValue pay p d disc κ X m (x - d) + p * treeValue pay p d disc κ X m (x + d)) ≤ treeValue pay p d disc κ X (m + 1) x := by
  simp only [treeValue]
  split
  · exact le_max_right _ _
  · exact le_rfl

/-- Without exercise dates in between, the value is a discounted expectation. -/
theorem treeValue_between (m l : ℕ) (h : ∀ i, 0 < i → i ≤ l → X (m + i) = false) (x : ℝ) :
    treeValue pay p d disc κ X (m + l) x = disc ^ l * afterMoves p d (treeValue pay p d disc κ X m) l x := by
  induction l generalizing x with
  | zero => simp [afterMoves]
  | succ l ih =>
    have hX := h (l + 1) (by omega) le_rfl
    rw [← Nat.add_assoc] at hX ⊢
    simp only [treeValue, hX, afterMoves]
    rw [ih (fun i h0 hi => h i h0 (by omega)), ih (fun i h0 hi => h i h0 (by omega))]
    simp only [Bool.false_eq_true, if_false]
    ring

theorem treeValue_until (m l : ℕ) (h : ∀ i, 0 < i → i < l + 1 → X (m + i) = false) (hX : X (m + (l + 1)) = true) (x : ℝ) :
    treeValue pay p d disc κ X (m + (l + 1)) x = max (κ * pay x) (disc ^ (l + 1) * afterMoves p d (treeValue pay p d disc κ X m) (l + 1) x) := by
  have hb := fun y => treeValue_between (pay := pay) (p := p) (d := d) (disc := disc) (κ := κ) m l (fun i h0 hi => h i h0 (by omega)) y
  rw [← Nat.add_assoc] at hX ⊢
  simp only [treeValue, hX, afterMoves, if_true]
  rw [hb, hb]
  congr 1
  ring

theorem treeValue_nonneg (hp0 : 0 ≤ p) (hp1 : p ≤ 1) (hdisc : 0 ≤ disc) (hpay : ∀ x, 0 ≤ pay x) (m : ℕ) (x : ℝ) : 0 ≤ treeValue pay p d disc κ X m x := by
  induction m generalizing x with
  | zero => exact hpay x
  | succ m ih =>
    refine le_trans ?_ (treeValue_ge m x)
    have h1 := ih (x - d)
    have h2 := ih (x + d)
    have : 0 ≤ 1 - p := by linarith
    positivity

theorem treeValue_le {K E : ℝ} (hp0 : 0 ≤ p) (hp1 : p ≤ 1) (hdisc : 0 ≤ disc) (hE1 : 1 ≤ E) (hE : disc ≤ E) (hK : 0 ≤ K) (hpay : ∀ x, pay x ≤ K) (hpay0 : ∀ x, 0 ≤ pay x) (m : ℕ) (x : ℝ) :
    treeValue pay p d disc 1 X m x ≤ K * E ^ m := by
  induction m generalizing x with
  | zero => simpa [treeValue] using hpay x
  | succ m ih =>
    have hc : disc * ((1 - p) * treeValue pay p d disc 1 X m (x - d) + p * treeValue pay p d disc 1 X m (x + d)) ≤ K * E ^ (m + 1) := by
      have h1 := mul_le_mul_of_nonneg_left (ih (x - d)) (show (0 : ℝ) ≤ 1 - p by linarith)
      have h2 := mul_le_mul_of_nonneg_left (ih (x + d)) hp0
      calc disc * ((1 - p) * treeValue pay p d disc 1 X m (x - d) + p * treeValue pay p d disc 1 X m (x + d))
          ≤ disc * (K * E ^ m) := mul_le_mul_of_nonneg_left (by linarith) hdisc
        _ ≤ E * (K * E ^ m) := mul_le_mul_of_nonneg_right hE (by positivity)
        _ = K * E ^ (m + 1) := by ring
    have hp : pay x ≤ K * E ^ (m + 1) := (hpay x).trans (le_mul_of_one_le_right hK (one_le_pow₀ hE1))
    simp only [treeValue]
    split
    · rw [one_mul]; exact max_le hp hc
    · exact hc

/-- The values are Lipschitz in the price. -/
theorem treeValue_lipschitz {G : ℝ} (hp0 : 0 ≤ p) (hp1 : p ≤ 1) (hdisc : 0 ≤ disc) (hG1 : 1 ≤ G) (hG : disc * ((1 - p) * Real.exp (-d) + p * Real.exp d) ≤ G)
    (hpay : ∀ x y, |pay x - pay y| ≤ |Real.exp x - Real.exp y|) (m : ℕ) (x y : ℝ) :
    |treeValue pay p d disc 1 X m x - treeValue pay p d disc 1 X m y| ≤ G ^ m * |Real.exp x - Real.exp y| := by
  induction m generalizing x y with
  | zero => simpa [treeValue] using hpay x y
  | succ m ih =>
    set F := treeValue pay p d disc 1 X m with hF
    have hc : |disc * ((1 - p) * F (x - d) + p * F (x + d)) - disc * ((1 - p) * F (y - d) + p * F (y + d))| ≤ G ^ (m + 1) * |Real.exp x - Real.exp y| := by
      have h1 := ih (x - d) (y - d)
      have h2 := ih (x + d) (y + d)
      have e1 : Real.exp (x - d) - Real.exp (y - d) = (Real.exp x - Real.exp y) * Real.exp (-d) := by
        rw [sub_eq_add_neg x d, sub_eq_add_neg y d, Real.exp_add, Real.exp_add]; ring
      have e2 : Real.exp (x + d) - Real.exp (y + d) = (Real.exp x - Real.exp y) * Real.exp d := by
        rw [Real.exp_add, Real.exp_add]; ring
      rw [e1, abs_mul, abs_of_pos (Real.exp_pos _)] at h1
      rw [e2, abs_mul, abs_of_pos (Real.exp_pos _)] at h2
      have h3 := mul_le_mul_of_nonneg_left h1 (show (0 : ℝ) ≤ 1 - p by linarith)
      have h4 := mul_le_mul_of_nonneg_left h2 hp0
      have h5 : |(1 - p) * (F (x - d) - F (y - d)) + p * (F (x + d) - F (y + d))| ≤
          (1 - p) * |F (x - d) - F (y - d)| + p * |F (x + d) - F (y + d)| := by
        refine (abs_add_le _ _).trans (le_of_eq ?_)
        rw [abs_mul, abs_mul, abs_of_nonneg (show (0 : ℝ) ≤ 1 - p by linarith), abs_of_nonneg hp0]
      rw [show disc * ((1 - p) * F (x - d) + p * F (x + d)) - disc * ((1 - p) * F (y - d) + p * F (y + d)) =
        disc * ((1 - p) * (F (x - d) - F (y - d)) + p * (F (x + d) - F (y + d))) by ring, abs_mul, abs_of_nonneg hdisc]
      calc disc * |(1 - p) * (F (x - d) - F (y - d)) + p * (F (x + d) - F (y + d))|
          ≤ disc * ((1 - p) * (G ^ m * (|Real.exp x - Real.exp y| * Real.exp (-d))) + p * (G ^ m * (|Real.exp x - Real.exp y| * Real.exp d))) :=
            mul_le_mul_of_nonneg_left (by linarith) hdisc
        _ = disc * ((1 - p) * Real.exp (-d) + p * Real.exp d) * (G ^ m * |Real.exp x - Real.exp y|) := by ring
        _ ≤ G * (G ^ m * |Real.exp x - Real.exp y|) := mul_le_mul_of_nonneg_right hG (by positivity)
        _ = G ^ (m + 1) * |Real.exp x - Real.exp y| := by ring
    have hp : |pay x - pay y| ≤ G ^ (m + 1) * |Real.exp x - Real.exp y| := (hpay x y).trans (le_mul_of_one_le_left (abs_nonneg _) (one_le_pow₀ hG1))
    simp only [treeValue]
    split
    · rw [one_mul, one_mul]
      exact (abs_max_sub_max_le_max _ _ _ _).trans (max_le hp hc)
    · exact hc

/-- Going on from an exercise date is worth at least the forward value of the put. -/
theorem treeValue_forward {K G : ℝ} (hp0 : 0 ≤ p) (hp1 : p ≤ 1) (hdisc : 0 ≤ disc) (hG : disc * ((1 - p) * Real.exp (-d) + p * Real.exp d) = G)
    (hpay : ∀ x, K - Real.exp x ≤ pay x) (m l : ℕ) (hm : m = 0 ∨ X m = true) (x : ℝ) :
    K * disc ^ l - Real.exp x * G ^ l ≤ treeValue pay p d disc 1 X (m + l) x := by
  induction l generalizing x with
  | zero =>
    simp only [pow_zero, mul_one, Nat.add_zero]
    refine (hpay x).trans ?_
    cases m with
    | zero => exact le_rfl
    | succ m =>
      have hX : X (m + 1) = true := by simpa using hm
      simp only [treeValue, hX, if_true, one_mul]
      exact le_max_left _ _
  | succ l ih =>
    refine le_trans ?_ (treeValue_ge (m + l) x)
    have h3 := mul_le_mul_of_nonneg_left (ih (x - d)) (show (0 : ℝ) ≤ 1 - p by linarith)
    have h4 := mul_le_mul_of_nonneg_left (ih (x + d)) hp0
    refine le_trans (le_of_eq ?_) (mul_le_mul_of_nonneg_left (add_le_add h3 h4) hdisc)
    rw [sub_eq_add_neg x d, Real.exp_add, Real.exp_add, pow_succ, pow_succ, ← hG]
    ring

/-- Values with all exercise dates, with payoffs scaled, are close to values with some exercise dates, if the payoffs are little above the latter. -/
theorem treeValue_sandwich {ζ η E : ℝ} (hp0 : 0 ≤ p) (hp1 : p ≤ 1) (hdisc : 0 ≤ disc) (hE1 : 1 ≤ E) (hE : disc ≤ E) (hζ0 : 0 ≤ ζ) (hη0 : 0 ≤ η) (hζ : ∀ x, |κ * pay x - pay x| ≤ ζ)
    (n : ℕ) (hη : ∀ m ≤ n, ∀ x, pay x ≤ treeValue pay p d disc 1 X m x + η) (m : ℕ) (hm : m ≤ n) (x : ℝ) :
    treeValue pay p d disc 1 X m x ≤ treeValue pay p d disc κ (fun _ => true) m x + ζ * E ^ m ∧
    treeValue pay p d disc κ (fun _ => true) m x ≤ treeValue pay p d disc 1 X m x + (η + ζ) * E ^ m := by
  induction m generalizing x with
  | zero =>
    simp only [treeValue, pow_zero, mul_one]
    constructor <;> linarith
  | succ m ih =>
    have hm' : m ≤ n := by omega
    obtain ⟨a1, a2⟩ := ih hm' (x - d)
    obtain ⟨b1, b2⟩ := ih hm' (x + d)
    have hpow : 1 ≤ E ^ (m + 1) := one_le_pow₀ hE1
    have hq : 0 ≤ 1 - p := by linarith
    set A := treeValue pay p d disc κ (fun _ => true) m with hA
    set F := treeValue pay p d disc 1 X m with hF
    have key : ∀ w, 0 ≤ w → ∀ u v u' v' : ℝ, u ≤ u' + w * E ^ m → v ≤ v' + w * E ^ m →
        disc * ((1 - p) * u + p * v) ≤ disc * ((1 - p) * u' + p * v') + w * E ^ (m + 1) := by
      intro w hw u v u' v' h1 h2
      have h3 := mul_le_mul_of_nonneg_left h1 hq
      have h4 := mul_le_mul_of_nonneg_left h2 hp0
      have h5 : (1 - p) * u + p * v ≤ ((1 - p) * u' + p * v') + w * E ^ m := by linarith
      have h6 := mul_le_mul_of_nonneg_left h5 hdisc
      have h7 : disc * (w * E ^ m) ≤ E * (w * E ^ m) := mul_le_mul_of_nonneg_right hE (by positivity)
      rw [pow_succ]
      linarith
    have hz := abs_le.1 (hζ x)
    have hAs : treeValue pay p d disc κ (fun _ => true) (m + 1) x = max (κ * pay x) (disc * ((1 - p) * A (x - d) + p * A (x + d))) := by
      simp only [treeValue, if_true, hA]
    have hg := hη (m + 1) hm x
    have hge : disc * ((1 - p) * F (x - d) + p * F (x + d)) ≤ treeValue pay p d disc 1 X (m + 1) x := treeValue_ge m x
    constructor
    · have hc : disc * ((1 - p) * F (x - d) + p * F (x + d)) ≤ treeValue pay p d disc κ (fun _ => true) (m + 1) x + ζ * E ^ (m + 1) := by
        have := key ζ hζ0 _ _ _ _ a1 b1
        rw [hAs]
        exact this.trans (add_le_add_left (le_max_right _ _) _)
      have hp : pay x ≤ treeValue pay p d disc κ (fun _ => true) (m + 1) x + ζ * E ^ (m + 1) := by
        have h1 : κ * pay x ≤ treeValue pay p d disc κ (fun _ => true) (m + 1) x := by rw [hAs]; exact le_max_left _ _
        have h2 : ζ ≤ ζ * E ^ (m + 1) := le_mul_of_one_le_right hζ0 hpow
        linarith
      have hd : treeValue pay p d disc 1 X (m + 1) x = if X (m + 1) then max (1 * pay x) (disc * ((1 - p) * F (x - d) + p * F (x + d))) else disc * ((1 - p) * F (x - d) + p * F (x + d)) := rfl
      rw [hd]
      split
      · rw [one_mul]; exact max_le hp hc
      · exact hc
    · rw [hAs]
      have h2 : η + ζ ≤ (η + ζ) * E ^ (m + 1) := le_mul_of_one_le_right (by linarith) hpow
      refine max_le (by linarith) ?_
      have := key (η + ζ) (by linarith) _ _ _ _ a2 b2
      linarith

end Lemmas
