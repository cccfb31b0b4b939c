import Mathlib.Analysis.SpecialFunctions.Exp
import Mathlib.Analysis.SpecialFunctions.Pow.Real
import Mathlib.Algebra.Order.BigOperators.Ring.Finset
import Mathlib.Analysis.InnerProductSpace.Basic
import Mathlib.Algebra.Order.Chebyshev
import Mathlib.Tactic.Linarith
import Mathlib.Tactic.LinearCombination
import Mathlib.Tactic.FieldSimp

/-! # Energy estimate for a step of a weighted scheme

Weighted mean squares over the inner points, summation by parts for the difference operator on a grid that need not be uniform, and the growth of
the mean square in one step. -/

namespace Lemmas
open Finset

/-- Weighted mean square of the values at the inner points `1, ..., n`. -/
noncomputable def wNorm (n : ℕ) (om : ℕ → ℝ) (f : ℕ → ℝ) : ℝ := √(∑ i ∈ range n, om i * f (i + 1) ^ 2)

theorem wNorm_nonneg (n : ℕ) (om f : ℕ → ℝ) : 0 ≤ wNorm n om f := Real.sqrt_nonneg _

theorem wNorm_sq (n : ℕ) (om f : ℕ → ℝ) (ho : ∀ i, i < n → 0 ≤ om i) : wNorm n om f ^ 2 = ∑ i ∈ range n, om i * f (i + 1) ^ 2 :=
  Real.sq_sqrt (sum_nonneg fun i hi => mul_nonneg (ho i (mem_range.1 hi)) (sq_nonneg _))

theorem wNorm_congr (n : ℕ) (om f g : ℕ → ℝ) (h : ∀ i, i < n → f (i + 1) = g (i + 1)) : wNorm n om f = wNorm n om g := by
  unfold wNorm
  rw [sum_congr rfl fun i hi => by rw [h i (mem_range.1 hi)]]

theorem wNorm_neg (n : ℕ) (om f : ℕ → ℝ) : wNorm n om (fun i => -f i) = wNorm n om f := by
  simp [wNorm]

/-- Cauchy-Schwarz inequality. -/
theorem wNorm_mul (n : ℕ) (om f g : ℕ → ℝ) (ho : ∀ i, i < n → 0 ≤ om i) :
    ∑ i ∈ range n, om i * (f (i + 1) * g (i + 1)) ≤ wNorm n om f * wNorm n om g := by
  have h := Real.sum_mul_le_sqrt_mul_sqrt (range n) (fun i => √(om i) * f (i + 1)) (fun i => √(om i) * g (i + 1))
  have e : ∀ u v : ℕ → ℝ, ∀ i ∈ range n, √(om i) * u (i + 1) * (√(om i) * v (i + 1)) = om i * (u (i + 1) * v (i + 1)) := by
    intro u v i hi
    have := Real.mul_self_sqrt (ho i (mem_range.1 hi))
    linear_combination (u (i + 1) * v (i + 1)) * this
  have e2 : ∀ u : ℕ → ℝ, ∀ i ∈ range n, (√(om i) * u (i + 1)) ^ 2 = om i * u (i + 1) ^ 2 := by
    intro u i hi
    rw [mul_pow, Real.sq_sqrt (ho i (mem_range.1 hi))]
  rw [sum_congr rfl (e f g), sum_congr rfl (e2 f), sum_congr rfl (e2 g)] at h
  exact h

theorem wNorm_add (n : ℕ) (om f g : ℕ → ℝ) (ho : ∀ i, i < n → 0 ≤ om i) :
    wNorm n om (fun i => f i + g i) ≤ wNorm n om f + wNorm n om g := by
  have h := wNorm_mul n om f g ho
  refine Real.sqrt_le_iff.2 ⟨add_nonneg (wNorm_nonneg _ _ _) (wNorm_nonneg _ _ _), ?_⟩
  have e : ∑ i ∈ range n, om i * (f (i + 1) + g (i + 1)) ^ 2 = ∑ i ∈ range n, om i * f (i + 1) ^ 2 +
      2 * ∑ i ∈ range n, om i * (f (i + 1) * g (i + 1)) + ∑ i ∈ range n, om i * g (i + 1) ^ 2 := by
    rw [mul_sum, ← sum_add_distrib, ← sum_add_distrib]
    exact sum_congr rfl fun i _ => by ring
  rw [e, ← wNorm_sq n om f ho, ← wNorm_sq n om g ho]
  nlinarith

theorem wNorm_smul (n : ℕ) (om f : ℕ → ℝ) (r : ℝ) (hr : 0 ≤ r) : wNorm n om (fun i => r * f i) = r * wNorm n om f := by
  unfold wNorm
  rw [← Real.sqrt_sq hr, ← Real.sqrt_mul (sq_nonneg r), mul_sum, Real.sqrt_sq hr]
  congr 1
  exact sum_congr rfl fun i _ => by ring

theorem wNorm_le (n : ℕ) (om f : ℕ → ℝ) (ho : ∀ i, i < n → 0 ≤ om i) (hs : ∑ i ∈ range n, om i ≤ 1) (b : ℝ) (hb : 0 ≤ b)
    (hf : ∀ i, i < n → |f (i + 1)| ≤ b) : wNorm n om f ≤ b := by
  refine Real.sqrt_le_iff.2 ⟨hb, ?_⟩
  calc ∑ i ∈ range n, om i * f (i + 1) ^ 2 ≤ ∑ i ∈ range n, om i * b ^ 2 := by
        refine sum_le_sum fun i hi => mul_le_mul_of_nonneg_left ?_ (ho i (mem_range.1 hi))
        rw [← sq_abs]
        exact pow_le_pow_left₀ (abs_nonneg _) (hf i (mem_range.1 hi)) 2
    _ = (∑ i ∈ range n, om i) * b ^ 2 := by rw [sum_mul]
    _ ≤ 1 * b ^ 2 := mul_le_mul_of_nonneg_right hs (sq_nonneg _)
    _ = b ^ 2 := one_mul _

/-- One edge of the grid: the diffusion controls the change of the coefficient and the drift. -/
theorem edge_bound (h al La Bd a0 a1 b0 b1 m0 m1 : ℝ) (hh : 0 < h) (hal : 0 < al) (hLa : 0 ≤ La) (hBd : 0 ≤ Bd)
    (h0 : al ≤ a0) (h1 : al ≤ a1) (hL : |a1 - a0| ≤ La * h) (hb0 : |b0 * m0| ≤ Bd * h * |m0|) (hb1 : |b1 * m1| ≤ Bd * h * |m1|) :
    -(h * ((La + Bd) ^ 2 / (8 * al)) * (m0 ^ 2 + m1 ^ 2)) ≤ (m1 - m0) / h * (a1 * m1 - a0 * m0 - (b1 * m1 + b0 * m0) / 2) := by
  obtain ⟨De, hDe⟩ : ∃ De, De = (m1 - m0) / h := ⟨_, rfl⟩
  have hm : m1 - m0 = h * De := by rw [hDe]; field_simp
  rw [← hDe]
  have e1 : a1 * m1 - a0 * m0 = (a0 + a1) / 2 * (h * De) + (a1 - a0) * ((m0 + m1) / 2) := by rw [← hm]; ring
  have hS : |m0 + m1| ≤ |m0| + |m1| := abs_add_le _ _
  have p1 : |De * ((a1 - a0) * ((m0 + m1) / 2))| ≤ |De| * (La * h * ((|m0| + |m1|) / 2)) := by
    rw [abs_mul, abs_mul]
    refine mul_le_mul_of_nonneg_left (mul_le_mul hL ?_ (abs_nonneg _) (by positivity)) (abs_nonneg _)
    rw [abs_div, abs_two]
    linarith
  have p2 : |De * ((b1 * m1 + b0 * m0) / 2)| ≤ |De| * (Bd * h * ((|m0| + |m1|) / 2)) := by
    rw [abs_mul]
    refine mul_le_mul_of_nonneg_left ?_ (abs_nonneg _)
    rw [abs_div, abs_two]
    have := abs_add_le (b1 * m1) (b0 * m0)
    linarith
  have p3 : al * h * De ^ 2 ≤ (a0 + a1) / 2 * h * De ^ 2 := by
    have : 0 ≤ h * De ^ 2 := by positivity
    nlinarith
  have p4 : -(h * ((La + Bd) ^ 2 / (8 * al)) * (m0 ^ 2 + m1 ^ 2)) ≤ al * h * De ^ 2 - |De| * ((La + Bd) * h * ((|m0| + |m1|) / 2)) := by
    have q : 0 ≤ h / (16 * al) * ((4 * al * |De| - (La + Bd) * (|m0| + |m1|)) ^ 2 + (La + Bd) ^ 2 * (|m0| - |m1|) ^ 2) := by positivity
    have e : h / (16 * al) * ((4 * al * |De| - (La + Bd) * (|m0| + |m1|)) ^ 2 + (La + Bd) ^ 2 * (|m0| - |m1|) ^ 2) =
        al * h * |De| ^ 2 - |De| * ((La + Bd) * h * ((|m0| + |m1|) / 2)) + h * ((La + Bd) ^ 2 / (8 * al)) * (|m0| ^ 2 + |m1| ^ 2) := by
      field_simp
      ring
    rw [e, sq_abs, sq_abs, sq_abs] at q
    linarith
  have q1 := neg_le_of_abs_le p1
  have q2 := le_of_abs_le p2
  have e2 : De * (a1 * m1 - a0 * m0 - (b1 * m1 + b0 * m0) / 2) = (a0 + a1) / 2 * h * De ^ 2 + De * ((a1 - a0) * ((m0 + m1) / 2)) -
      De * ((b1 * m1 + b0 * m0) / 2) := by rw [e1]; ring
  rw [e2]
  have e3 : |De| * (La * h * ((|m0| + |m1|) / 2)) + |De| * (Bd * h * ((|m0| + |m1|) / 2)) = |De| * ((La + Bd) * h * ((|m0| + |m1|) / 2)) := by ring
  linarith

/-- The row of the difference operator with coefficients `a`, `b`, `z` at the point `i + 1`. -/
noncomputable def diffRow (x a b z m : ℕ → ℝ) (i : ℕ) : ℝ :=
  -(a (i + 1) * (2 / (x (i + 2) - x i) * ((m (i + 2) - m (i + 1)) / (x (i + 2) - x (i + 1)) - (m (i + 1) - m i) / (x (i + 1) - x i))) +
    b (i + 1) * (((x (i + 1) - x i) / (x (i + 2) - x (i + 1)) * (m (i + 2) - m (i + 1)) +
      (x (i + 2) - x (i + 1)) / (x (i + 1) - x i) * (m (i + 1) - m i)) / (x (i + 2) - x i)) +
    z (i + 1) * m (i + 1))

/-- Summation by parts: the difference operator is bounded below in the mean square. -/
theorem energy_bound (n : ℕ) (x a b z m : ℕ → ℝ) (al La B rho : ℝ) (hal : 0 < al) (hLa : 0 ≤ La) (hB : 0 ≤ B) (hrho : 0 ≤ rho)
    (hx : ∀ i, i < n + 1 → x i < x (i + 1)) (ha : ∀ i, i ≤ n + 1 → al ≤ a i)
    (hL : ∀ i, i < n + 1 → |a (i + 1) - a i| ≤ La * (x (i + 1) - x i)) (hb : ∀ i, i < n → |b (i + 1)| ≤ B)
    (hz : ∀ i, i < n → z (i + 1) ≤ 0)
    (hr1 : ∀ i, i < n → x (i + 2) - x (i + 1) ≤ rho * (x (i + 1) - x i)) (hr2 : ∀ i, i < n → x (i + 1) - x i ≤ rho * (x (i + 2) - x (i + 1)))
    (m0 : m 0 = 0) (mn : m (n + 1) = 0) :
    -((La + rho * B) ^ 2 / (4 * al) * ∑ i ∈ range n, (x (i + 2) - x i) / 2 * m (i + 1) ^ 2) ≤
      ∑ i ∈ range n, (x (i + 2) - x i) / 2 * (m (i + 1) * diffRow x a b z m i) := by
  -- drift coefficients of the edges
  obtain ⟨u, hu⟩ : ∃ u : ℕ → ℝ, ∀ j, u j = b j * (x (j + 1) - x j) := ⟨_, fun _ => rfl⟩
  obtain ⟨l, hl⟩ : ∃ l : ℕ → ℝ, ∀ j, l j = b j * (x j - x (j - 1)) := ⟨_, fun _ => rfl⟩
  obtain ⟨T, hT⟩ : ∃ T : ℕ → ℝ, ∀ e, T e = (m (e + 1) - m e) / (x (e + 1) - x e) * (a (e + 1) * m (e + 1) - a e * m e - (u (e + 1) * m (e + 1) + l e * m e) / 2) :=
    ⟨_, fun _ => rfl⟩
  have hrow : ∀ i, i < n → (m (i + 1) - m i) / (x (i + 1) - x i) * (a (i + 1) * m (i + 1) - u (i + 1) * m (i + 1) / 2) -
      (m (i + 2) - m (i + 1)) / (x (i + 2) - x (i + 1)) * (a (i + 1) * m (i + 1) + l (i + 1) * m (i + 1) / 2) ≤
      (x (i + 2) - x i) / 2 * (m (i + 1) * diffRow x a b z m i) := by
    intro i hi
    have h1 := sub_pos.2 (hx i (by omega))
    have h2 := sub_pos.2 (hx (i + 1) (by omega))
    have e : x (i + 2) - x i = (x (i + 2) - x (i + 1)) + (x (i + 1) - x i) := by ring
    have hz' := hz i hi
    rw [hu, hl, show i + 1 - 1 = i by omega, show i + 1 + 1 = i + 2 from rfl]
    unfold diffRow
    rw [e]
    rw [show i + 1 + 1 = i + 2 from rfl] at h2
    generalize x (i + 1) - x i = bd at *
    generalize x (i + 2) - x (i + 1) = fd at *
    have hs : 0 < fd + bd := by linarith
    have key : (fd + bd) / 2 * (m (i + 1) * -(a (i + 1) * (2 / (fd + bd) * ((m (i + 2) - m (i + 1)) / fd - (m (i + 1) - m i) / bd)) +
        b (i + 1) * ((bd / fd * (m (i + 2) - m (i + 1)) + fd / bd * (m (i + 1) - m i)) / (fd + bd)) + z (i + 1) * m (i + 1))) =
        (m (i + 1) - m i) / bd * (a (i + 1) * m (i + 1) - b (i + 1) * fd * m (i + 1) / 2) -
        (m (i + 2) - m (i + 1)) / fd * (a (i + 1) * m (i + 1) + b (i + 1) * bd * m (i + 1) / 2) - (fd + bd) / 2 * z (i + 1) * m (i + 1) ^ 2 := by
      field_simp
      ring
    rw [key]
    have : (fd + bd) / 2 * z (i + 1) * m (i + 1) ^ 2 ≤ 0 :=
      mul_nonpos_of_nonpos_of_nonneg (mul_nonpos_of_nonneg_of_nonpos (by linarith) hz') (sq_nonneg _)
    linarith
  have hparts : ∑ i ∈ range n, ((m (i + 1) - m i) / (x (i + 1) - x i) * (a (i + 1) * m (i + 1) - u (i + 1) * m (i + 1) / 2) -
      (m (i + 2) - m (i + 1)) / (x (i + 2) - x (i + 1)) * (a (i + 1) * m (i + 1) + l (i + 1) * m (i + 1) / 2)) = ∑ e ∈ range (n + 1), T e := by
    have e1 : ∑ e ∈ range (n + 1), T e = ∑ e ∈ range (n + 1), (m (e + 1) - m e) / (x (e + 1) - x e) * (a (e + 1) * m (e + 1) - u (e + 1) * m (e + 1) / 2) -
        ∑ e ∈ range (n + 1), (m (e + 1) - m e) / (x (e + 1) - x e) * (a e * m e + l e * m e / 2) := by
      rw [← sum_sub_distrib]
      exact sum_congr rfl fun e _ => by rw [hT]; ring
    rw [e1, sum_range_succ, mn, sum_range_succ' _ n, m0, sum_sub_distrib]
    simp
  have hedge : ∀ e, e < n + 1 → -((x (e + 1) - x e) * ((La + rho * B) ^ 2 / (8 * al)) * (m e ^ 2 + m (e + 1) ^ 2)) ≤ T e := by
    intro e he
    rw [hT]
    have hpos := sub_pos.2 (hx e he)
    refine edge_bound _ al La (rho * B) (a e) (a (e + 1)) (l e) (u (e + 1)) (m e) (m (e + 1)) hpos hal hLa (mul_nonneg hrho hB)
      (ha e (by omega)) (ha (e + 1) (by omega)) (hL e he) ?_ ?_
    · rcases e with _ | j
      · simp [m0]
      · rw [abs_mul]
        refine mul_le_mul_of_nonneg_right ?_ (abs_nonneg _)
        rw [hl, show j + 1 - 1 = j by omega, abs_mul, abs_of_pos (sub_pos.2 (hx j (by omega)))]
        have q := mul_le_mul (hb j (by omega)) (hr2 j (by omega)) (sub_pos.2 (hx j (by omega))).le hB
        calc _ ≤ _ := q
          _ = _ := by rw [show j + 1 + 1 = j + 2 from rfl]; ring
    · by_cases hen : e = n
      · rw [hen, mn]; simp
      · rw [abs_mul]
        refine mul_le_mul_of_nonneg_right ?_ (abs_nonneg _)
        have hp2 := sub_pos.2 (hx (e + 1) (by omega))
        rw [hu, abs_mul, abs_of_pos hp2]
        have q := mul_le_mul (hb e (by omega)) (hr1 e (by omega)) hp2.le hB
        calc _ ≤ _ := q
          _ = _ := by ring
  have hsum : ∑ e ∈ range (n + 1), (x (e + 1) - x e) * ((La + rho * B) ^ 2 / (8 * al)) * (m e ^ 2 + m (e + 1) ^ 2) =
      (La + rho * B) ^ 2 / (4 * al) * ∑ i ∈ range n, (x (i + 2) - x i) / 2 * m (i + 1) ^ 2 := by
    have e1 : ∑ e ∈ range (n + 1), (x (e + 1) - x e) * ((La + rho * B) ^ 2 / (8 * al)) * (m e ^ 2 + m (e + 1) ^ 2) =
        ∑ e ∈ range (n + 1), (x (e + 1) - x e) * ((La + rho * B) ^ 2 / (8 * al)) * m e ^ 2 +
        ∑ e ∈ range (n + 1), (x (e + 1) - x e) * ((La + rho * B) ^ 2 / (8 * al)) * m (e + 1) ^ 2 := by
      rw [← sum_add_distrib]
      exact sum_congr rfl fun e _ => by ring
    rw [e1, sum_range_succ' _ n, m0, sum_range_succ _ n, mn, mul_sum]
    simp only [ne_eq, OfNat.ofNat_ne_zero, not_false_eq_true, zero_pow, mul_zero, add_zero]
    rw [← sum_add_distrib]
    refine sum_congr rfl fun i _ => ?_
    field_simp
    ring
  calc _ = ∑ e ∈ range (n + 1), -((x (e + 1) - x e) * ((La + rho * B) ^ 2 / (8 * al)) * (m e ^ 2 + m (e + 1) ^ 2)) := by
        rw [sum_neg_distrib, hsum]
    _ ≤ ∑ e ∈ range (n + 1), T e := sum_le_sum fun e he => hedge e (mem_range.1 he)
    _ = _ := hparts.symm
    _ ≤ _ := sum_le_sum fun i hi => hrow i (mem_range.1 hi)

/-- Growth of the mean square in a step of a weighted scheme with at most half explicit weight. -/
theorem energy_step (n : ℕ) (om v w r : ℕ → ℝ) (q : ℕ → ℝ) (theta d G : ℝ) (ho : ∀ i, i < n → 0 ≤ om i) (h0 : 0 ≤ theta) (h1 : theta ≤ 1 / 2)
    (hd : 0 ≤ d) (hG : 0 ≤ G)
    (hq : -(G * ∑ i ∈ range n, om i * (theta * v (i + 1) + (1 - theta) * w (i + 1)) ^ 2) ≤
      ∑ i ∈ range n, om i * ((theta * v (i + 1) + (1 - theta) * w (i + 1)) * q i))
    (heq : ∀ i, i < n → w (i + 1) - v (i + 1) = -d * q i + d * r (i + 1)) :
    (1 - 2 * d * G) * wNorm n om w ≤ wNorm n om v + 2 * d * wNorm n om r := by
  have nv := wNorm_nonneg n om v
  have nw := wNorm_nonneg n om w
  have nr := wNorm_nonneg n om r
  have hdG : 0 ≤ d * G := mul_nonneg hd hG
  by_cases hle : wNorm n om w ≤ wNorm n om v
  · nlinarith [mul_nonneg hdG nw, mul_nonneg hd nr]
  push Not at hle
  obtain ⟨m, hm⟩ : ∃ m : ℕ → ℝ, ∀ i, m i = theta * v i + (1 - theta) * w i := ⟨_, fun _ => rfl⟩
  have hM : wNorm n om m ≤ wNorm n om w := by
    have e : wNorm n om m = wNorm n om (fun i => theta * v i + (1 - theta) * w i) := wNorm_congr _ _ _ _ fun i _ => hm _
    rw [e]
    refine (wNorm_add n om _ _ ho).trans ?_
    rw [wNorm_smul n om v theta h0, wNorm_smul n om w (1 - theta) (by linarith)]
    nlinarith
  have nm := wNorm_nonneg n om m
  have hcs := wNorm_mul n om r m ho
  have hid : ∑ i ∈ range n, om i * ((w (i + 1) - v (i + 1)) * m (i + 1)) =
      (wNorm n om w ^ 2 - wNorm n om v ^ 2) / 2 + (1 / 2 - theta) * ∑ i ∈ range n, om i * (w (i + 1) - v (i + 1)) ^ 2 := by
    rw [wNorm_sq n om w ho, wNorm_sq n om v ho, ← sum_sub_distrib, sum_div, mul_sum, ← sum_add_distrib]
    exact sum_congr rfl fun i _ => by rw [hm]; ring
  have hdiff : 0 ≤ ∑ i ∈ range n, om i * (w (i + 1) - v (i + 1)) ^ 2 :=
    sum_nonneg fun i hi => mul_nonneg (ho i (mem_range.1 hi)) (sq_nonneg _)
  have hrhs : ∑ i ∈ range n, om i * ((w (i + 1) - v (i + 1)) * m (i + 1)) =
      -d * ∑ i ∈ range n, om i * (m (i + 1) * q i) + d * ∑ i ∈ range n, om i * (r (i + 1) * m (i + 1)) := by
    rw [mul_sum, mul_sum, ← sum_add_distrib]
    exact sum_congr rfl fun i hi => by rw [heq i (mem_range.1 hi)]; ring
  have hq' : -(G * wNorm n om m ^ 2) ≤ ∑ i ∈ range n, om i * (m (i + 1) * q i) := by
    rw [wNorm_sq n om m ho]
    simp only [hm]
    exact hq
  have k1 : (wNorm n om w ^ 2 - wNorm n om v ^ 2) / 2 ≤ d * (G * wNorm n om m ^ 2) + d * (wNorm n om r * wNorm n om m) := by
    have a1 := mul_le_mul_of_nonneg_left hq' hd
    have a2 := mul_le_mul_of_nonneg_left hcs hd
    have a3 := mul_nonneg (show 0 ≤ 1 / 2 - theta by linarith) hdiff
    have a4 := hid.symm.trans hrhs
    linarith
  generalize wNorm n om w = W at *
  generalize wNorm n om v = V at *
  generalize wNorm n om r = R at *
  generalize wNorm n om m = M at *
  have k2 : d * (G * M ^ 2) ≤ d * G * W ^ 2 := by
    have : M ^ 2 ≤ W ^ 2 := pow_le_pow_left₀ nm hM 2
    nlinarith
  have k3 : d * (R * M) ≤ d * R * W := by
    have := mul_le_mul_of_nonneg_left hM (mul_nonneg hd nr)
    linarith
  have hWp : 0 < W := lt_of_le_of_lt nv hle
  have k4 : (W - V) * W ≤ (2 * d * G * W + 2 * d * R) * W := by
    have : (W - V) * W ≤ (W - V) * (W + V) := mul_le_mul_of_nonneg_left (by linarith) (by linarith)
    nlinarith
  have := le_of_mul_le_mul_right k4 hWp
  linarith

/-- The growth factor of a step. -/
theorem growth_factor (y W V : ℝ) (hy0 : 0 ≤ y) (hy : y ≤ 1 / 2) (hV : 0 ≤ V) (h : (1 - y) * W ≤ V) : W ≤ Real.exp (2 * y) * V := by
  have e1 : 1 ≤ (1 - y) * Real.exp (2 * y) := by
    have := Real.add_one_le_exp (2 * y)
    nlinarith
  have h1 : 0 < 1 - y := by linarith
  have h2 : (1 - y) * W ≤ (1 - y) * (Real.exp (2 * y) * V) := by nlinarith
  exact le_of_mul_le_mul_left h2 h1

end Lemmas
