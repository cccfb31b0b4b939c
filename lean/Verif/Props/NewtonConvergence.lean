import Verif.Props.Newton
import Verif.Lemmas.TaylorBound
import Mathlib.Analysis.Calculus.Deriv.MeanValue
import Mathlib.Tactic.IntervalCases

/-! # C127: convergence of the Newton root finder -/

namespace Spec

/-- The function handed to the root finder returns the value and the derivative of `f` on the set `S`. -/
def Returns (vg : ℝ → Option ℝ × Option ℝ) (f f' : ℝ → ℝ) (S : Set ℝ) : Prop := ∀ y ∈ S, vg y = (some (f y), some (f' y))

/-- `r` is a simple root of a smooth function: on the interval of radius `ρ` around `r` the slope is at least `m` in absolute
value and the second derivative at most `M`, with `M * ρ ≤ 2 * m * q`. -/
structure SimpleRoot (f f' f'' : ℝ → ℝ) (r ρ m M q : ℝ) : Prop where
  root : f r = 0
  radius : 0 < ρ
  slope : 0 < m
  deriv : ∀ y ∈ Set.Icc (r - ρ) (r + ρ), HasDerivAt f (f' y) y ∧ HasDerivAt f' (f'' y) y ∧ m ≤ |f' y| ∧ |f'' y| ≤ M
  small : M * ρ ≤ 2 * m * q
  q0 : 0 ≤ q
  q1 : q < 1

/-- A root from which the function rises with nondecreasing positive slope up to `b`. -/
structure RisingRoot (f f' : ℝ → ℝ) (r b : ℝ) : Prop where
  root : f r = 0
  le : r ≤ b
  slope : 0 < f' r
  deriv : ∀ y ∈ Set.Icc r b, HasDerivAt f (f' y) y
  mono : MonotoneOn f' (Set.Icc r b)

end Spec

namespace Lemmas
open Model Spec

theorem newtonNext_some (vg : ℝ → Option ℝ × Option ℝ) (v g x : ℝ) (h : vg x = (some v, some g)) (hg : g ≠ 0) :
    newtonNext vg x = some (x - v / g) := by
  unfold newtonNext; rw [h]; simp [hg]

/-- The error after a Newton step. -/
theorem newton_error (f f' f'' : ℝ → ℝ) (r ρ m M q : ℝ) (h : SimpleRoot f f' f'' r ρ m M q) (x : ℝ) (hx : |x - r| ≤ ρ) :
    f' x ≠ 0 ∧ |x - f x / f' x - r| ≤ q / ρ * |x - r| ^ 2 := by
  have hxm : x ∈ Set.Icc (r - ρ) (r + ρ) := by
    rw [abs_le] at hx; exact ⟨by linarith [hx.1], by linarith [hx.2]⟩
  have hrm : r ∈ Set.Icc (r - ρ) (r + ρ) := ⟨by linarith [h.radius], by linarith [h.radius]⟩
  obtain ⟨_, _, hm, _⟩ := h.deriv x hxm
  have hpos : 0 < |f' x| := lt_of_lt_of_le h.slope hm
  have hne : f' x ≠ 0 := abs_pos.1 hpos
  refine ⟨hne, ?_⟩
  have ht := taylor_bound (r - ρ) (r + ρ) M 2 (fun k => if k = 0 then f else if k = 1 then f' else f'')
    (fun k hk y hy => by
      obtain ⟨a1, a2, _, _⟩ := h.deriv y hy
      interval_cases k
      · simpa using a1.hasDerivWithinAt
      · simpa using a2.hasDerivWithinAt)
    (fun y hy => by simpa using (h.deriv y hy).2.2.2) x r hxm hrm
  simp only [Finset.sum_range_succ, Finset.sum_range_zero, if_pos, one_ne_zero, if_neg, not_false_eq_true, pow_zero, pow_one,
    Nat.factorial, mul_one, Nat.cast_one, div_one, zero_add, h.root] at ht
  norm_num at ht
  have e : x - f x / f' x - r = -(f x + f' x * (r - x)) / f' x := by field_simp; ring
  rw [e, abs_div, abs_neg, div_le_iff₀ hpos]
  have hle : |f x + f' x * (r - x)| ≤ M * |x - r| ^ 2 / 2 := by
    rw [sq_abs]
    have : (r - x) ^ 2 = (x - r) ^ 2 := by ring
    rw [this] at ht
    rw [← abs_neg, neg_add_rev]
    exact ht
  refine le_trans hle ?_
  have hs : 0 ≤ |x - r| ^ 2 := by positivity
  have hM : M / 2 ≤ q / ρ * |f' x| := by
    have h1 : q / ρ * m ≤ q / ρ * |f' x| := mul_le_mul_of_nonneg_left hm (div_nonneg h.q0 h.radius.le)
    have h2 : M / 2 ≤ q / ρ * m := by
      rw [div_mul_eq_mul_div, le_div_iff₀ h.radius]
      linarith [h.small]
    linarith
  calc M * |x - r| ^ 2 / 2 = M / 2 * |x - r| ^ 2 := by ring
    _ ≤ q / ρ * |f' x| * |x - r| ^ 2 := mul_le_mul_of_nonneg_right hM hs
    _ = q / ρ * |x - r| ^ 2 * |f' x| := by ring

theorem newton_near (f f' f'' : ℝ → ℝ) (r ρ m M q : ℝ) (h : SimpleRoot f f' f'' r ρ m M q) (x e : ℝ) (he : |x - r| ≤ e)
    (heρ : e ≤ ρ) : |x - f x / f' x - r| ≤ q / ρ * e ^ 2 := by
  refine le_trans (newton_error f f' f'' r ρ m M q h x (le_trans he heρ)).2 ?_
  apply mul_le_mul_of_nonneg_left _ (div_nonneg h.q0 h.radius.le)
  exact pow_le_pow_left₀ (abs_nonneg _) he 2

/-- One step from the right of a rising root. -/
theorem rising_step (f f' : ℝ → ℝ) (r b : ℝ) (h : RisingRoot f f' r b) (x : ℝ) (hx : x ∈ Set.Icc r b) :
    0 < f' x ∧ f' r * (x - r) ≤ f x ∧ f x ≤ f' x * (x - r) := by
  have hr : r ∈ Set.Icc r b := ⟨le_refl _, h.le⟩
  have hpos : 0 < f' x := lt_of_lt_of_le h.slope (h.mono hr hx hx.1)
  refine ⟨hpos, ?_⟩
  rcases eq_or_lt_of_le hx.1 with he | hlt
  · rw [← he, h.root]; simp
  · obtain ⟨c, c1, c2⟩ := exists_hasDerivAt_eq_slope f f' hlt
      (fun y hy => (h.deriv y ⟨hy.1, le_trans hy.2 hx.2⟩).continuousAt.continuousWithinAt)
      (fun y hy => h.deriv y ⟨hy.1.le, le_trans hy.2.le hx.2⟩)
    have hd : 0 < x - r := sub_pos.2 hlt
    rw [h.root, sub_zero, eq_div_iff hd.ne'] at c2
    have hc : c ∈ Set.Icc r b := ⟨c1.1.le, le_trans c1.2.le hx.2⟩
    have u1 := h.mono hr hc c1.1.le
    have u2 := h.mono hc hx c1.2.le
    rw [← c2]
    exact ⟨mul_le_mul_of_nonneg_right u1 hd.le, mul_le_mul_of_nonneg_right u2 hd.le⟩

end Lemmas

namespace Props
open Model Lemmas Spec

/-- C127: near a simple root the Newton iterates are defined and the number of correct digits doubles in each step. -/
theorem C127_quadratic (f f' f'' : ℝ → ℝ) (r ρ m M q : ℝ) (h : SimpleRoot f f' f'' r ρ m M q)
    (vg : ℝ → Option ℝ × Option ℝ) (hv : Returns vg f f' (Set.Icc (r - ρ) (r + ρ))) (x0 : ℝ) (hx : |x0 - r| ≤ ρ) (k : ℕ) :
    ∃ x, newtonIterate vg (some x0) k = some x ∧ |x - r| ≤ ρ * q ^ (2 ^ k - 1) ∧
      ∃ y, newtonIterate vg (some x0) (k + 1) = some y ∧ |y - r| ≤ q / ρ * |x - r| ^ 2 := by
  have hρ := h.radius
  have hstep : ∀ x, |x - r| ≤ ρ → newtonNext vg x = some (x - f x / f' x) := by
    intro x hx
    have hxm : x ∈ Set.Icc (r - ρ) (r + ρ) := by
      rw [abs_le] at hx; exact ⟨by linarith [hx.1], by linarith [hx.2]⟩
    exact newtonNext_some vg _ _ x (hv x hxm) (newton_error f f' f'' r ρ m M q h x hx).1
  have hsmall : ∀ k : ℕ, ρ * q ^ (2 ^ k - 1) ≤ ρ := by
    intro k
    have : q ^ (2 ^ k - 1) ≤ 1 := pow_le_one₀ h.q0 h.q1.le
    nlinarith
  have key : ∀ k : ℕ, ∃ x, newtonIterate vg (some x0) k = some x ∧ |x - r| ≤ ρ * q ^ (2 ^ k - 1) := by
    intro k
    induction k with
    | zero => exact ⟨x0, rfl, by simpa using hx⟩
    | succ k ih =>
      obtain ⟨x, x1, x2⟩ := ih
      have hxρ := le_trans x2 (hsmall k)
      refine ⟨x - f x / f' x, by rw [newtonIterate, x1]; exact hstep x hxρ, ?_⟩
      refine le_trans (newton_near f f' f'' r ρ m M q h x _ x2 (hsmall k)) (le_of_eq ?_)
      have e : 2 ^ (k + 1) - 1 = (2 ^ k - 1) * 2 + 1 := by
        have : 1 ≤ 2 ^ k := Nat.one_le_two_pow
        rw [pow_succ]; omega
      have e2 : q ^ ((2 ^ k - 1) * 2 + 1) = (q ^ (2 ^ k - 1)) ^ 2 * q := by rw [pow_succ, pow_mul]
      rw [e, e2]
      field_simp
  obtain ⟨x, x1, x2⟩ := key k
  have hxρ := le_trans x2 (hsmall k)
  exact ⟨x, x1, x2, x - f x / f' x, by rw [newtonIterate, x1]; exact hstep x hxρ,
    (newton_error f f' f'' r ρ m M q h x hxρ).2⟩

/-- C127: near a simple root the finder reports convergence after `j + 1` iterations if `2 * ρ * q ^ (2 ^ j - 1)` is below the
tolerance, and then the result is near the root. -/
theorem C127_finds (f f' f'' : ℝ → ℝ) (r ρ m M q : ℝ) (h : SimpleRoot f f' f'' r ρ m M q)
    (rel tol : ℝ) (hrel : 0 ≤ rel) (N j : ℕ) (hj : j < N) (htol : 2 * (ρ * q ^ (2 ^ j - 1)) < tol)
    (fs : List (ValueAndGrad ℝ)) (x0 : List (Option ℝ)) (hl : fs.length = x0.length) (i : ℕ) (vg : ValueAndGrad ℝ) (x : ℝ)
    (hf : fs[i]? = some vg) (hx0 : x0[i]? = some (some x)) (hv : Returns vg f f' (Set.Icc (r - ρ) (r + ρ)))
    (hx : |x - r| ≤ ρ) :
    ∃ c y, (rootFinder rel tol N fs x0)[i]? = some c ∧ c.converged = true ∧ c.failed = false ∧ c.parameter = some y ∧
      |y - r| ≤ ρ ∧ (1 - q) * |y - r| < rel * |f y| + tol := by
  have hρ := h.radius
  have hin : ∀ y, |y - r| ≤ ρ → y ∈ Set.Icc (r - ρ) (r + ρ) := by
    intro y hy
    rw [abs_le] at hy; exact ⟨by linarith [hy.1], by linarith [hy.2]⟩
  have hone : ∀ k : ℕ, ρ * q ^ (2 ^ k - 1) ≤ ρ := by
    intro k
    have : q ^ (2 ^ k - 1) ≤ 1 := pow_le_one₀ h.q0 h.q1.le
    nlinarith
  have hquad : ∀ e : ℝ, 0 ≤ e → e ≤ ρ → q / ρ * e ^ 2 ≤ q * e := by
    intro e e0 e1
    have : q / ρ * e ^ 2 = q * e * (e / ρ) := by ring
    rw [this]
    exact mul_le_of_le_one_right (mul_nonneg h.q0 e0) ((div_le_one hρ).2 e1)
  obtain ⟨c, c1, c2, c3⟩ := C29_converged rel tol N fs x0 hl i vg (some x) hf hx0
  have hconv : c.converged = true := by
    rw [c2]
    obtain ⟨y, y1, y2, z, z1, z2⟩ := C127_quadratic f f' f'' r ρ m M q h vg hv x hx j
    have hyρ := le_trans y2 (hone j)
    obtain ⟨hne, herr⟩ := newton_error f f' f'' r ρ m M q h y hyρ
    refine ⟨j, y, hj, y1, f y, f' y, hv y (hin y hyρ), hne, ?_⟩
    have h1 := hquad _ (abs_nonneg (y - r)) hyρ
    have h2 : |f y / f' y| ≤ |y - r| + |y - f y / f' y - r| := by
      have e : f y / f' y = (y - r) - (y - f y / f' y - r) := by ring
      calc |f y / f' y| = |(y - r) - (y - f y / f' y - r)| := by rw [← e]
        _ ≤ _ := abs_sub _ _
    have h3 : q * |y - r| ≤ |y - r| := mul_le_of_le_one_left (abs_nonneg _) h.q1.le
    have h4 : 0 ≤ rel * |f y| := mul_nonneg hrel (abs_nonneg _)
    linarith
  obtain ⟨d1, k, y, k1, k2, k3, ⟨v, g, g1, g2, g3⟩, _⟩ := c3 hconv
  refine ⟨c, y, c1, hconv, d1, k2, ?_⟩
  obtain ⟨y', y1, y2, _⟩ := C127_quadratic f f' f'' r ρ m M q h vg hv x hx k
  rw [k3] at y1
  obtain rfl := Option.some.inj y1
  have hyρ := le_trans y2 (hone k)
  refine ⟨hyρ, ?_⟩
  rw [hv y (hin y hyρ)] at g1
  simp only [Prod.mk.injEq, Option.some.injEq] at g1
  rw [← g1.1, ← g1.2] at g3
  have herr := (newton_error f f' f'' r ρ m M q h y hyρ).2
  have h1 := hquad _ (abs_nonneg (y - r)) hyρ
  have h2 : |y - r| ≤ |f y / f' y| + |y - f y / f' y - r| := by
    have e : y - r = f y / f' y + (y - f y / f' y - r) := by ring
    calc |y - r| = |f y / f' y + (y - f y / f' y - r)| := by rw [← e]
      _ ≤ _ := abs_add_le _ _
  linarith

/-- C127: from the right of a root from which the function rises with nondecreasing slope, however far away, the iterates
decrease, never pass the root and come closer at least by a fixed factor. -/
theorem C127_rising (f f' : ℝ → ℝ) (r b : ℝ) (h : RisingRoot f f' r b)
    (vg : ℝ → Option ℝ × Option ℝ) (hv : Returns vg f f' (Set.Icc r b)) (x0 : ℝ) (hx : x0 ∈ Set.Icc r b) (k : ℕ) :
    ∃ x, newtonIterate vg (some x0) k = some x ∧ r ≤ x ∧ x ≤ x0 ∧ x - r ≤ (x0 - r) * (1 - f' r / f' b) ^ k ∧
      ∃ y, newtonIterate vg (some x0) (k + 1) = some y ∧ r ≤ y ∧ y ≤ x := by
  have hstep : ∀ x ∈ Set.Icc r b, newtonNext vg x = some (x - f x / f' x) ∧ r ≤ x - f x / f' x ∧ x - f x / f' x ≤ x ∧
      x - f x / f' x - r ≤ (x - r) * (1 - f' r / f' b) := by
    intro x hx
    obtain ⟨s1, s2, s3⟩ := rising_step f f' r b h x hx
    have hb : f' x ≤ f' b := h.mono hx ⟨h.le, le_refl _⟩ hx.2
    have hd : 0 ≤ x - r := by linarith [hx.1]
    refine ⟨newtonNext_some vg _ _ x (hv x hx) s1.ne', ?_, ?_, ?_⟩
    · have : f x / f' x ≤ x - r := by rw [div_le_iff₀ s1]; linarith
      linarith
    · have : 0 ≤ f x / f' x := div_nonneg (le_trans (mul_nonneg h.slope.le hd) s2) s1.le
      linarith
    · have h1 : f' r * (x - r) / f' b ≤ f x / f' x := by
        apply div_le_div₀ (le_trans (mul_nonneg h.slope.le hd) s2) s2 s1 hb
      have e : (x - r) * (1 - f' r / f' b) = x - r - f' r * (x - r) / f' b := by ring
      rw [e]; linarith
  have hfac : 0 ≤ 1 - f' r / f' b := by
    have hb : f' r ≤ f' b := h.mono ⟨le_refl _, h.le⟩ ⟨h.le, le_refl _⟩ h.le
    have : f' r / f' b ≤ 1 := (div_le_one (lt_of_lt_of_le h.slope hb)).2 hb
    linarith
  have key : ∀ k : ℕ, ∃ x, newtonIterate vg (some x0) k = some x ∧ r ≤ x ∧ x ≤ x0 ∧
      x - r ≤ (x0 - r) * (1 - f' r / f' b) ^ k := by
    intro k
    induction k with
    | zero => exact ⟨x0, rfl, hx.1, le_refl _, by simp⟩
    | succ k ih =>
      obtain ⟨x, x1, x2, x3, x4⟩ := ih
      obtain ⟨s1, s2, s3, s4⟩ := hstep x ⟨x2, le_trans x3 hx.2⟩
      refine ⟨x - f x / f' x, by rw [newtonIterate, x1]; exact s1, s2, le_trans s3 x3, le_trans s4 ?_⟩
      rw [pow_succ, ← mul_assoc]
      exact mul_le_mul_of_nonneg_right x4 hfac
  obtain ⟨x, x1, x2, x3, x4⟩ := key k
  obtain ⟨s1, s2, s3, s4⟩ := hstep x ⟨x2, le_trans x3 hx.2⟩
  exact ⟨x, x1, x2, x3, x4, x - f x / f' x, by rw [newtonIterate, x1]; exact s1, s2, s3⟩

/-- C127: so from the right of such a root the finder reports convergence after `j + 1` iterations if
`(x0 - r) * (1 - f' r / f' b) ^ j` is below the tolerance, and then the result is near the root and not left of it. -/
theorem C127_rising_finds (f f' : ℝ → ℝ) (r b : ℝ) (h : RisingRoot f f' r b)
    (rel tol : ℝ) (hrel : 0 ≤ rel) (N j : ℕ) (hj : j < N)
    (fs : List (ValueAndGrad ℝ)) (x0 : List (Option ℝ)) (hl : fs.length = x0.length) (i : ℕ) (vg : ValueAndGrad ℝ) (x : ℝ)
    (hf : fs[i]? = some vg) (hx0 : x0[i]? = some (some x)) (hv : Returns vg f f' (Set.Icc r b))
    (hx : x ∈ Set.Icc r b) (htol : (x - r) * (1 - f' r / f' b) ^ j < tol) :
    ∃ c y, (rootFinder rel tol N fs x0)[i]? = some c ∧ c.converged = true ∧ c.failed = false ∧ c.parameter = some y ∧
      r ≤ y ∧ y ≤ x ∧ f' r / f' b * (y - r) < rel * |f y| + tol := by
  obtain ⟨c, c1, c2, c3⟩ := C29_converged rel tol N fs x0 hl i vg (some x) hf hx0
  have hsize : ∀ y ∈ Set.Icc r b, f' r / f' b * (y - r) ≤ |f y / f' y| ∧ |f y / f' y| ≤ y - r := by
    intro y hy
    obtain ⟨s1, s2, s3⟩ := rising_step f f' r b h y hy
    have hb : f' y ≤ f' b := h.mono hy ⟨h.le, le_refl _⟩ hy.2
    have hd : 0 ≤ y - r := by linarith [hy.1]
    have hfy : 0 ≤ f y := le_trans (mul_nonneg h.slope.le hd) s2
    rw [abs_of_nonneg (div_nonneg hfy s1.le)]
    constructor
    · rw [div_mul_eq_mul_div]
      exact div_le_div₀ hfy s2 s1 hb
    · rw [div_le_iff₀ s1]; linarith
  have hconv : c.converged = true := by
    rw [c2]
    obtain ⟨y, y1, y2, y3, y4, _⟩ := C127_rising f f' r b h vg hv x hx j
    have hy : y ∈ Set.Icc r b := ⟨y2, le_trans y3 hx.2⟩
    refine ⟨j, y, hj, y1, f y, f' y, hv y hy, (rising_step f f' r b h y hy).1.ne', ?_⟩
    have := (hsize y hy).2
    have h4 : 0 ≤ rel * |f y| := mul_nonneg hrel (abs_nonneg _)
    linarith
  obtain ⟨d1, k, y, k1, k2, k3, ⟨v, g, g1, g2, g3⟩, _⟩ := c3 hconv
  refine ⟨c, y, c1, hconv, d1, k2, ?_⟩
  obtain ⟨y', y1, y2, y3, _⟩ := C127_rising f f' r b h vg hv x hx k
  rw [k3] at y1
  obtain rfl := Option.some.inj y1
  have hy : y ∈ Set.Icc r b := ⟨y2, le_trans y3 hx.2⟩
  refine ⟨y2, y3, ?_⟩
  rw [hv y hy] at g1
  simp only [Prod.mk.injEq, Option.some.injEq] at g1
  rw [← g1.1, ← g1.2] at g3
  exact lt_of_le_of_lt (hsize y hy).1 g3

/-- C127: from the left of the root of a function with nondecreasing positive slope the first step leads to the right of it, and
`C127_rising` applies to the remaining ones. -/
theorem C127_first_step (f f' : ℝ → ℝ) (x0 r : ℝ) (hroot : f r = 0) (hle : x0 ≤ r) (hpos : 0 < f' x0)
    (hd : ∀ y ∈ Set.Icc x0 r, HasDerivAt f (f' y) y) (hm : MonotoneOn f' (Set.Icc x0 r))
    (vg : ℝ → Option ℝ × Option ℝ) (hv : vg x0 = (some (f x0), some (f' x0))) :
    ∃ x, newtonIterate vg (some x0) 1 = some x ∧ r ≤ x := by
  refine ⟨x0 - f x0 / f' x0, newtonNext_some vg _ _ x0 hv hpos.ne', ?_⟩
  rcases eq_or_lt_of_le hle with he | hlt
  · rw [he, hroot]; simp
  · obtain ⟨c, c1, c2⟩ := exists_hasDerivAt_eq_slope f f' hlt
      (fun y hy => (hd y hy).continuousAt.continuousWithinAt)
      (fun y hy => hd y ⟨hy.1.le, hy.2.le⟩)
    have hdp : 0 < r - x0 := sub_pos.2 hlt
    rw [hroot, zero_sub, eq_div_iff hdp.ne'] at c2
    have hle' : f' x0 ≤ f' c := hm ⟨le_refl _, hle⟩ ⟨c1.1.le, c1.2.le⟩ c1.1.le
    have : r - x0 ≤ -f x0 / f' x0 := by
      rw [le_div_iff₀ hpos, ← c2]
      nlinarith
    rw [neg_div] at this
    linarith

/-- C127: without such hypotheses there is no guarantee: for `x ^ 3 - 2 * x + 2` from `0` the finder goes back and forth between
`0` and `1`, and reports neither convergence nor failure, however many iterations are allowed. -/
theorem C127_cycle (N : ℕ) :
    ∃ c : NewtonCell ℚ, (rootFinder (1 / 1000 : ℚ) (1 / 1000) N [fun x => (some (x ^ 3 - 2 * x + 2), some (3 * x ^ 2 - 2))] [some 0])[0]? = some c ∧
      c.converged = false ∧ c.failed = false ∧ c.parameter = some (if N % 2 = 0 then 0 else 1) := by
  have hit : ∀ k : ℕ, newtonIterate (fun x : ℚ => (some (x ^ 3 - 2 * x + 2), some (3 * x ^ 2 - 2))) (some 0) k =
      some (if k % 2 = 0 then 0 else 1) := by
    intro k
    induction k with
    | zero => rfl
    | succ k ih =>
      rw [newtonIterate, ih]
      rcases Nat.mod_two_eq_zero_or_one k with hk | hk
      · have : (k + 1) % 2 = 1 := by omega
        rw [hk, this]; norm_num [newtonNext]
      · have : (k + 1) % 2 = 0 := by omega
        rw [hk, this]; norm_num [newtonNext]
  obtain ⟨c, c1, c2, _⟩ := C29_converged (1 / 1000 : ℚ) (1 / 1000) N
    [fun x => (some (x ^ 3 - 2 * x + 2), some (3 * x ^ 2 - 2))] [some 0] rfl 0 _ _ rfl rfl
  have hnc : c.converged = false := by
    by_contra hc
    rw [Bool.not_eq_false, c2] at hc
    obtain ⟨j, y, _, h2, v, g, h3, h4, h5⟩ := hc
    rw [hit] at h2
    simp only [Option.some.injEq] at h2
    simp only [Prod.mk.injEq, Option.some.injEq] at h3
    rw [← h3.1, ← h3.2, ← h2] at h5
    split at h5 <;> norm_num [abs_of_nonneg, abs_of_pos] at h5
  obtain ⟨d1, d2⟩ := C29_not_converged (1 / 1000 : ℚ) (1 / 1000) N
    [fun x => (some (x ^ 3 - 2 * x + 2), some (3 * x ^ 2 - 2))] [some 0] rfl 0 _ _ rfl rfl c c1 hnc
  rw [hit] at d1 d2
  refine ⟨c, c1, hnc, ?_, d1⟩
  by_contra hc
  rw [Bool.not_eq_false, d2] at hc
  cases hc

/-- `x ^ 2 - 4` near its root 2. -/
example : SimpleRoot (fun x => x ^ 2 - 4) (fun x => 2 * x) (fun _ => 2) 2 1 2 2 (1 / 2) := by
  refine ⟨by norm_num, by norm_num, by norm_num, fun y hy => ⟨?_, ?_, ?_, by norm_num⟩, by norm_num, by norm_num, by norm_num⟩
  · simpa using (hasDerivAt_pow 2 y).sub_const 4
  · simpa using (hasDerivAt_id y).const_mul 2
  · have h1 := hy.1
    rw [abs_of_nonneg (by linarith)]; linarith

/-- The same function to the right of its root, as far as 100. -/
example : RisingRoot (fun x => x ^ 2 - 4) (fun x => 2 * x) 2 100 := by
  refine ⟨by norm_num, by norm_num, by norm_num, fun y _ => ?_, fun a _ b _ hab => ?_⟩
  · simpa using (hasDerivAt_pow 2 y).sub_const 4
  · show 2 * a ≤ 2 * b
    linarith

end Props
