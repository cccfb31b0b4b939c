import Mathlib.MeasureTheory.Integral.Bochner.Basic
import Mathlib.MeasureTheory.Measure.Lebesgue.Integral
import Mathlib.Analysis.SpecificLimits.Basic
import Mathlib.Topology.Algebra.InfiniteSum.NatInt
import Verif.Model.BrownianBridge
import Verif.Spec.BrownianBridge

/-!
# Property theorems C71: barriers and the Brownian bridge
-/

namespace Props
open Model Spec MeasureTheory

theorem heat_pos (v z : ℝ) (hv : 0 < v) : 0 < heat v z := by
  unfold heat
  have := Real.pi_pos
  positivity

theorem heat_neg (v z : ℝ) : heat v (-z) = heat v z := by simp [heat]

theorem heat_shift (v z w a : ℝ) (hv : 0 < v) (h : w ^ 2 = z ^ 2 + 4 * a) : Real.exp (-2 * a / v) * heat v z = heat v w := by
  unfold heat
  rw [mul_div_assoc', ← Real.exp_add, h]
  congr 2
  field_simp
  ring

theorem heat_integrable (v m : ℝ) (hv : 0 < v) : Integrable (fun y => heat v (y - m)) := by
  have h := (integrable_exp_neg_mul_sq (b := 1 / (2 * v)) (by positivity)).div_const (Real.sqrt (2 * Real.pi * v))
  have h2 := h.comp_sub_right m
  refine h2.congr (Filter.Eventually.of_forall fun y => ?_)
  simp only [heat]
  congr 2
  field_simp

theorem heat_integral (v m : ℝ) (hv : 0 < v) : ∫ y, heat v (y - m) = 1 := by
  have e : (fun y => heat v (y - m)) = fun y => (fun u => Real.exp (-(1 / (2 * v)) * u ^ 2) / Real.sqrt (2 * Real.pi * v)) (y - m) := by
    funext y
    simp only [heat]
    congr 2
    field_simp
  rw [e, integral_sub_right_eq_self (fun u => Real.exp (-(1 / (2 * v)) * u ^ 2) / Real.sqrt (2 * Real.pi * v)) m, integral_div,
    integral_gaussian]
  have h : Real.pi / (1 / (2 * v)) = 2 * Real.pi * v := by field_simp
  rw [h]
  have := Real.pi_pos
  exact div_self (Real.sqrt_ne_zero'.2 (by positivity))

/-- The position of a Brownian bridge at an intermediate time has a normal law. -/
theorem heat_mul (s t x y z : ℝ) (hs : 0 < s) (ht : 0 < t) :
    heat s (y - x) * heat t (z - y) = heat (s + t) (z - x) * heat (s * t / (s + t)) (y - (t * x + s * z) / (s + t)) := by
  have hp := Real.pi_pos
  unfold heat
  rw [div_mul_div_comm, div_mul_div_comm, ← Real.exp_add, ← Real.exp_add, ← Real.sqrt_mul (by positivity),
    ← Real.sqrt_mul (by positivity)]
  have e1 : -(y - x) ^ 2 / (2 * s) + -(z - y) ^ 2 / (2 * t) = -(z - x) ^ 2 / (2 * (s + t)) +
      -(y - (t * x + s * z) / (s + t)) ^ 2 / (2 * (s * t / (s + t))) := by
    field_simp
    ring
  have e2 : 2 * Real.pi * s * (2 * Real.pi * t) = 2 * Real.pi * (s + t) * (2 * Real.pi * (s * t / (s + t))) := by
    field_simp
  rw [e1, e2]

theorem heat_conv (s t x z : ℝ) (hs : 0 < s) (ht : 0 < t) :
    Integrable (fun y => heat s (y - x) * heat t (z - y)) ∧
      ∫ y, heat s (y - x) * heat t (z - y) = heat (s + t) (z - x) := by
  have e : (fun y => heat s (y - x) * heat t (z - y)) =
      fun y => heat (s + t) (z - x) * heat (s * t / (s + t)) (y - (t * x + s * z) / (s + t)) :=
    funext fun y => heat_mul s t x y z hs ht
  rw [e]
  refine ⟨(heat_integrable _ _ (by positivity)).const_mul _, ?_⟩
  rw [integral_const_mul, heat_integral _ _ (by positivity), mul_one]

/-! ## One barrier -/

/-- C71: the no-touch probability times the density of the end point is the difference of the heat kernels of the start and of its
mirror image, that is, the density of the Brownian motion killed at the barrier. -/
theorem C71_single_images (x y v b : ℝ) (hv : 0 < v) :
    brownianBridgeSingle x y v b * heat v (y - x) = heat v (y - x) - heat v (y - (2 * b - x)) := by
  unfold brownianBridgeSingle
  dsimp only
  rw [sub_mul, one_mul, heat_shift v (y - x) (y - (2 * b - x)) _ hv (by ring)]

/-- C71: no-touch probabilities are symmetric, zero on the barrier, and between zero and one if both points are on the same side. -/
theorem C71_single_bounds (x y v b : ℝ) (hv : 0 < v) :
    brownianBridgeSingle x y v b = brownianBridgeSingle y x v b ∧ brownianBridgeSingle b y v b = 0 ∧
      (0 < (x - b) * (y - b) → 0 < brownianBridgeSingle x y v b ∧ brownianBridgeSingle x y v b < 1) ∧
      (0 ≤ (x - b) * (y - b) → 0 ≤ brownianBridgeSingle x y v b) := by
  unfold brownianBridgeSingle
  dsimp only
  refine ⟨by rw [mul_comm (x - b)], by simp, ?_, ?_⟩
  · intro h
    have h2 : -2 * ((x - b) * (y - b)) / v < 0 := div_neg_of_neg_of_pos (by linarith) hv
    have h3 := Real.exp_lt_one_iff.2 h2
    have h4 := Real.exp_pos (-2 * ((x - b) * (y - b)) / v)
    constructor <;> linarith
  · intro h
    have h2 : -2 * ((x - b) * (y - b)) / v ≤ 0 := div_nonpos_of_nonpos_of_nonneg (by linarith) hv.le
    have h3 := Real.exp_le_one_iff.2 h2
    linarith

/-- C71: on the same side of the barrier, the probability decreases in the variance, and increases with the distance. -/
theorem C71_single_monotone (x y x' y' v v' b : ℝ) (hv : 0 < v) (hvv : v ≤ v') (hx : 0 ≤ (x - b) * (y - b))
    (h : (x - b) * (y - b) ≤ (x' - b) * (y' - b)) : brownianBridgeSingle x y v' b ≤ brownianBridgeSingle x' y' v b := by
  unfold brownianBridgeSingle
  dsimp only
  apply sub_le_sub_left
  apply Real.exp_le_exp.2
  have h1 : (x - b) * (y - b) / v' ≤ (x' - b) * (y' - b) / v :=
    div_le_div₀ (by linarith) h hv hvv
  calc -2 * ((x' - b) * (y' - b)) / v = -2 * ((x' - b) * (y' - b) / v) := by ring
    _ ≤ -2 * ((x - b) * (y - b) / v') := by linarith
    _ = -2 * ((x - b) * (y - b)) / v' := by ring

/-- An even function of the distance to `b` has half of its integral above `b`. -/
theorem integral_half (b : ℝ) (f : ℝ → ℝ) (hf : ∀ y, f (2 * b - y) = f y) : ∫ y in Set.Ioi b, f y = (∫ y, f y) / 2 := by
  have h1 : ∫ y in Set.Ioi b, f y = ∫ u in Set.Ioi (0 : ℝ), f (u + b) := by
    have := (measurePreserving_add_right volume b).setIntegral_preimage_emb (measurableEmbedding_addRight b) f (Set.Ioi b)
    rw [← this]
    congr 2
    ext u
    simp
  have h2 : ∫ y, f y = ∫ u, f (|u| + b) := by
    rw [← integral_add_right_eq_self f b]
    congr 1
    funext u
    rcases abs_choice u with h | h
    · rw [h]
    · rw [h, ← hf (u + b)]
      congr 1
      ring
  rw [h1, h2, integral_comp_abs (f := fun u => f (u + b))]
  ring

/-- C71: consistency in time: the probability not to touch the barrier between the ends is the expectation, over the position of the
bridge at an intermediate time (which has a normal law), on the same side of the barrier, of the product of the probabilities for
both parts. -/
theorem C71_single_markov (x z s t b : ℝ) (hs : 0 < s) (ht : 0 < t) :
    ∫ y in Set.Ioi b, brownianBridgeSingle x y s b * brownianBridgeSingle y z t b *
      heat (s * t / (s + t)) (y - (t * x + s * z) / (s + t)) = brownianBridgeSingle x z (s + t) b := by
  have hst : 0 < s + t := by linarith
  have hk := heat_pos (s + t) (z - x) hst
  refine mul_right_cancel₀ hk.ne' ?_
  rw [C71_single_images x z (s + t) b hst, ← integral_mul_const]
  have e : (fun y => brownianBridgeSingle x y s b * brownianBridgeSingle y z t b *
      heat (s * t / (s + t)) (y - (t * x + s * z) / (s + t)) * heat (s + t) (z - x)) =
      fun y => (heat s (y - x) - heat s (y - (2 * b - x))) * (heat t (z - y) - heat t ((2 * b - z) - y)) := by
    funext y
    have h1 := heat_mul s t x y z hs ht
    have h2 := C71_single_images x y s b hs
    have h3 := C71_single_images y z t b ht
    have h4 : heat t ((2 * b - z) - y) = heat t (z - (2 * b - y)) := by rw [← heat_neg]; congr 1; ring
    rw [h4, ← h2, ← h3]
    calc _ = brownianBridgeSingle x y s b * brownianBridgeSingle y z t b *
          (heat (s + t) (z - x) * heat (s * t / (s + t)) (y - (t * x + s * z) / (s + t))) := by ring
      _ = _ := by rw [← h1]; ring
  rw [e, integral_half]
  · have i1 := heat_conv s t x z hs ht
    have i2 := heat_conv s t x (2 * b - z) hs ht
    have i3 := heat_conv s t (2 * b - x) z hs ht
    have i4 := heat_conv s t (2 * b - x) (2 * b - z) hs ht
    have e2 : (fun y => (heat s (y - x) - heat s (y - (2 * b - x))) * (heat t (z - y) - heat t ((2 * b - z) - y))) =
        fun y => (heat s (y - x) * heat t (z - y) - heat s (y - x) * heat t ((2 * b - z) - y)) -
          (heat s (y - (2 * b - x)) * heat t (z - y) - heat s (y - (2 * b - x)) * heat t ((2 * b - z) - y)) := by
      funext y; ring
    rw [e2, integral_sub (f := fun y => heat s (y - x) * heat t (z - y) - heat s (y - x) * heat t ((2 * b - z) - y))
      (g := fun y => heat s (y - (2 * b - x)) * heat t (z - y) - heat s (y - (2 * b - x)) * heat t ((2 * b - z) - y))
      (i1.1.sub i2.1) (i3.1.sub i4.1), integral_sub i1.1 i2.1, integral_sub i3.1 i4.1, i1.2, i2.2, i3.2, i4.2]
    have g1 : heat (s + t) (2 * b - z - x) = heat (s + t) (z - (2 * b - x)) := by rw [← heat_neg]; congr 1; ring
    have g2 : heat (s + t) (2 * b - z - (2 * b - x)) = heat (s + t) (z - x) := by rw [← heat_neg]; congr 1; ring
    rw [g1, g2]
    ring
  · intro y
    have g1 : heat s (2 * b - y - x) = heat s (y - (2 * b - x)) := by rw [← heat_neg]; congr 1; ring
    have g2 : heat s (2 * b - y - (2 * b - x)) = heat s (y - x) := by rw [← heat_neg]; congr 1; ring
    have g3 : heat t (z - (2 * b - y)) = heat t (2 * b - z - y) := by rw [← heat_neg]; congr 1; ring
    have g4 : heat t (2 * b - z - (2 * b - y)) = heat t (z - y) := by rw [← heat_neg]; congr 1; ring
    beta_reduce
    rw [g1, g2, g3, g4]
    ring

/-- Outside of the documented range: for ends on opposite sides of the barrier the formula gives a negative number. -/
theorem C71_single_opposite (x y v b : ℝ) (hv : 0 < v) (h : (x - b) * (y - b) < 0) : brownianBridgeSingle x y v b < 0 := by
  unfold brownianBridgeSingle
  dsimp only
  have : 0 < -2 * ((x - b) * (y - b)) / v := div_pos (by linarith) hv
  have := Real.one_lt_exp_iff.2 this
  linarith

/-! ## Two barriers -/

/-- The image with number `k` in the sum for two barriers. -/
noncomputable def imageTerm (x y v U L : ℝ) (k : ℤ) : ℝ :=
  heat v (y - x + 2 * k * (U - L)) - heat v (y - (2 * U - x) + 2 * k * (U - L))

/-- C71: the probability times the density of the end point is the sum of the heat kernels of the images of the start under the
reflections in the two barriers, with their signs. -/
theorem C71_double_images (x y v U L : ℝ) (n : Nat) (hv : 0 < v) :
    brownianBridgeDouble x y v U L n * heat v (y - x) = ∑ k ∈ Finset.Icc (-(n : ℤ)) n, imageTerm x y v U L k := by
  unfold brownianBridgeDouble
  dsimp only
  rw [Finset.sum_mul]
  apply Finset.sum_congr rfl
  intro k _
  unfold imageTerm
  rw [sub_mul, heat_shift v (y - x) (y - x + 2 * k * (U - L)) _ hv (by ring),
    heat_shift v (y - x) (y - (2 * U - x) + 2 * k * (U - L)) _ hv (by ring)]

/-- The term with number `k` of the sum. -/
noncomputable def bridgeTerm (x y v U L : ℝ) (k : ℤ) : ℝ :=
  Real.exp (-2 * (k * (U - L) * (k * (U - L) + (y - x))) / v) -
    Real.exp (-2 * ((k * (U - L) + x - U) * (k * (U - L) + (y - U))) / v)

theorem sum_symm (f : ℤ → ℝ) (n : Nat) :
    ∑ k ∈ Finset.Icc (-(n : ℤ)) n, f k = f 0 + ∑ j ∈ Finset.range n, (f (j + 1) + f (-(j + 1))) := by
  induction n with
  | zero => simp
  | succ n ih =>
    have e : Finset.Icc (-((n + 1 : Nat) : ℤ)) ((n + 1 : Nat) : ℤ) =
        insert ((n : ℤ) + 1) (insert (-((n : ℤ) + 1)) (Finset.Icc (-(n : ℤ)) n)) := by
      ext k
      simp only [Finset.mem_Icc, Finset.mem_insert]
      push_cast
      omega
    rw [e, Finset.sum_insert, Finset.sum_insert, ih, Finset.sum_range_succ]
    · ring
    · simp
    · simp only [Finset.mem_insert, Finset.mem_Icc]
      omega

theorem double_eq (x y v U L : ℝ) (n : Nat) : brownianBridgeDouble x y v U L n = bridgeTerm x y v U L 0 +
    ∑ j ∈ Finset.range n, (bridgeTerm x y v U L (j + 1) + bridgeTerm x y v U L (-(j + 1))) := by
  rw [← sum_symm]
  rfl

/-- C71: the probability for two barriers is symmetric in the end points, and zero at the upper barrier, for every cutoff. -/
theorem C71_double_symmetric (x y v U L : ℝ) (n : Nat) :
    brownianBridgeDouble x y v U L n = brownianBridgeDouble y x v U L n ∧ brownianBridgeDouble x U v U L n = 0 := by
  have neg : ∀ f : ℤ → ℝ, ∑ k ∈ Finset.Icc (-(n : ℤ)) n, f (-k) = ∑ k ∈ Finset.Icc (-(n : ℤ)) n, f k := by
    intro f
    rw [sum_symm, sum_symm f, neg_zero]
    congr 1
    apply Finset.sum_congr rfl
    intro j _
    rw [neg_neg, add_comm]
  constructor
  · unfold brownianBridgeDouble
    dsimp only
    rw [Finset.sum_sub_distrib, Finset.sum_sub_distrib]
    congr 1
    · rw [← neg]
      apply Finset.sum_congr rfl
      intro k _
      push_cast
      congr 2
      ring
    · apply Finset.sum_congr rfl
      intro k _
      congr 2
      ring
  · unfold brownianBridgeDouble
    dsimp only
    rw [Finset.sum_sub_distrib, sub_eq_zero, ← neg]
    apply Finset.sum_congr rfl
    intro k _
    push_cast
    congr 2
    ring

theorem exp_diff_le (p q c : ℝ) (hp : c ≤ p) (hq : c ≤ q) : |Real.exp (-2 * p) - Real.exp (-2 * q)| ≤ Real.exp (-2 * c) := by
  have h1 := Real.exp_pos (-2 * p)
  have h2 := Real.exp_pos (-2 * q)
  have h3 : Real.exp (-2 * p) ≤ Real.exp (-2 * c) := Real.exp_le_exp.2 (by linarith)
  have h4 : Real.exp (-2 * q) ≤ Real.exp (-2 * c) := Real.exp_le_exp.2 (by linarith)
  rw [abs_le]
  constructor <;> linarith

/-- The size of the terms with the numbers `j + 1` and `-(j + 1)`. -/
theorem term_le (x y v U L : ℝ) (hv : 0 < v) (hx : L ≤ x ∧ x ≤ U) (hy : L ≤ y ∧ y ≤ U) (j : Nat) :
    |bridgeTerm x y v U L (j + 1) + bridgeTerm x y v U L (-(j + 1))| ≤ 2 * Real.exp (-2 * (j ^ 2 * (U - L) ^ 2 / v)) := by
  obtain ⟨hx1, hx2⟩ := hx
  obtain ⟨hy1, hy2⟩ := hy
  have hj : (0 : ℝ) ≤ j := Nat.cast_nonneg j
  obtain ⟨a, ha⟩ : ∃ a, a = x - L := ⟨_, rfl⟩
  obtain ⟨a', ha'⟩ : ∃ a', a' = U - x := ⟨_, rfl⟩
  obtain ⟨b, hb⟩ : ∃ b, b = y - L := ⟨_, rfl⟩
  obtain ⟨b', hb'⟩ : ∃ b', b' = U - y := ⟨_, rfl⟩
  have p1 : 0 ≤ a := by linarith
  have p2 : 0 ≤ a' := by linarith
  have p3 : 0 ≤ b := by linarith
  have p4 : 0 ≤ b' := by linarith
  have hD : 0 ≤ U - L := by linarith
  have hd : ∀ q r : ℝ, q ≤ r → q / v ≤ r / v := fun q r h => div_le_div_of_nonneg_right h hv.le
  have hjD : 0 ≤ (j : ℝ) * (U - L) := mul_nonneg hj hD
  have key : ∀ p q : ℝ, 0 ≤ p → 0 ≤ q → (j : ℝ) ^ 2 * (U - L) ^ 2 ≤ (j * (U - L) + p) * (j * (U - L) + q) := by
    intro p q hp hq
    nlinarith [mul_nonneg hjD hp, mul_nonneg hjD hq, mul_nonneg hp hq]
  have h1 : |bridgeTerm x y v U L (j + 1)| ≤ Real.exp (-2 * (j ^ 2 * (U - L) ^ 2 / v)) := by
    unfold bridgeTerm
    push_cast
    rw [mul_div_assoc (-2 : ℝ) _ v, mul_div_assoc (-2 : ℝ) _ v]
    apply exp_diff_le <;> apply hd
    · have e : ((j : ℝ) + 1) * (U - L) * (((j : ℝ) + 1) * (U - L) + (y - x)) =
          (j * (U - L) + (U - L)) * (j * (U - L) + (a' + b)) := by rw [ha', hb]; ring
      rw [e]
      exact key _ _ hD (by linarith)
    · have e : (((j : ℝ) + 1) * (U - L) + x - U) * (((j : ℝ) + 1) * (U - L) + (y - U)) =
          (j * (U - L) + a) * (j * (U - L) + b) := by rw [ha, hb]; ring
      rw [e]
      exact key _ _ p1 p3
  have h2 : |bridgeTerm x y v U L (-(j + 1))| ≤ Real.exp (-2 * (j ^ 2 * (U - L) ^ 2 / v)) := by
    unfold bridgeTerm
    push_cast
    rw [mul_div_assoc (-2 : ℝ) _ v, mul_div_assoc (-2 : ℝ) _ v]
    apply exp_diff_le <;> apply hd
    · have e : -((j : ℝ) + 1) * (U - L) * (-((j : ℝ) + 1) * (U - L) + (y - x)) =
          (j * (U - L) + (U - L)) * (j * (U - L) + (a + b')) := by rw [ha, hb']; ring
      rw [e]
      exact key _ _ hD (by linarith)
    · have e : (-((j : ℝ) + 1) * (U - L) + x - U) * (-((j : ℝ) + 1) * (U - L) + (y - U)) =
          (j * (U - L) + ((U - L) + a')) * (j * (U - L) + ((U - L) + b')) := by rw [ha', hb']; ring
      rw [e]
      exact key _ _ (by linarith) (by linarith)
  exact le_trans (abs_add_le _ _) (by linarith)

theorem tail_summable (c : ℝ) (hc : 0 < c) (n : Nat) : Summable (fun j : Nat => 2 * Real.exp (-2 * (((n + j : Nat) : ℝ) ^ 2 * c))) := by
  have h : Summable (fun j : Nat => 2 * (Real.exp (-2 * c)) ^ j) :=
    (summable_geometric_of_lt_one (Real.exp_pos _).le (Real.exp_lt_one_iff.2 (by linarith))).mul_left 2
  refine Summable.of_nonneg_of_le (fun j => by positivity) (fun j => ?_) h
  rw [← Real.exp_nat_mul]
  refine mul_le_mul_of_nonneg_left (Real.exp_le_exp.2 ?_) (by norm_num)
  have h1 : (j : ℝ) ≤ ((n + j : Nat) : ℝ) ^ 2 := by
    exact_mod_cast le_trans (Nat.le_add_left j n) (Nat.le_self_pow two_ne_zero _)
  nlinarith

/-- The probability for two barriers without a cutoff. -/
noncomputable def noTouchDouble (x y v U L : ℝ) : ℝ :=
  bridgeTerm x y v U L 0 + ∑' j : Nat, (bridgeTerm x y v U L (j + 1) + bridgeTerm x y v U L (-(j + 1)))

theorem double_summable (x y v U L : ℝ) (hv : 0 < v) (hLU : L < U) (hx : L ≤ x ∧ x ≤ U) (hy : L ≤ y ∧ y ≤ U) :
    Summable (fun j : Nat => bridgeTerm x y v U L (j + 1) + bridgeTerm x y v U L (-(j + 1))) := by
  have hc : 0 < (U - L) ^ 2 / v := div_pos (by have : 0 < U - L := by linarith
                                               positivity) hv
  refine Summable.of_norm_bounded (tail_summable _ hc 0) (fun j => ?_)
  rw [Real.norm_eq_abs, Nat.zero_add, ← mul_div_assoc]
  exact term_le x y v U L hv hx hy j

/-- C71: between the barriers, the sum converges as the cutoff grows, and the error of the cutoff `n` is at most
`2 ∑ exp (-2 (n + j)² (U - L)² / v)`. -/
theorem C71_double_cutoff (x y v U L : ℝ) (hv : 0 < v) (hLU : L < U) (hx : L ≤ x ∧ x ≤ U) (hy : L ≤ y ∧ y ≤ U) :
    Filter.Tendsto (fun n => brownianBridgeDouble x y v U L n) Filter.atTop (nhds (noTouchDouble x y v U L)) ∧
      ∀ n, |noTouchDouble x y v U L - brownianBridgeDouble x y v U L n| ≤
        ∑' j : Nat, 2 * Real.exp (-2 * (((n + j : Nat) : ℝ) ^ 2 * ((U - L) ^ 2 / v))) := by
  have hs := double_summable x y v U L hv hLU hx hy
  have hc : 0 < (U - L) ^ 2 / v := div_pos (by have : 0 < U - L := by linarith
                                               positivity) hv
  refine ⟨?_, ?_⟩
  · simp only [double_eq]
    exact hs.hasSum.tendsto_sum_nat.const_add _
  · intro n
    rw [double_eq, noTouchDouble, ← hs.sum_add_tsum_nat_add n, add_sub_add_left_eq_sub, add_sub_cancel_left, ← Real.norm_eq_abs]
    refine tsum_of_norm_bounded (tail_summable _ hc n).hasSum (fun j => ?_)
    rw [Real.norm_eq_abs]
    have h := term_le x y v U L hv hx hy (j + n)
    rw [Nat.add_comm n j, ← mul_div_assoc]
    exact h

/-- At the lower barrier only the cutoff keeps the sum from vanishing. -/
theorem double_lower (x v U L : ℝ) (n : Nat) : brownianBridgeDouble x L v U L n =
    Real.exp (-2 * (n * (U - L) * (n * (U - L) + (x - L))) / v) -
      Real.exp (-2 * ((n + 1) * (U - L) * ((n + 1) * (U - L) + (L - x))) / v) := by
  rw [double_eq]
  induction n with
  | zero =>
    simp only [Finset.range_zero, Finset.sum_empty, bridgeTerm]
    push_cast
    rw [add_zero]
    congr 3 <;> ring
  | succ n ih =>
    rw [Finset.sum_range_succ, ← add_assoc, ih, bridgeTerm, bridgeTerm]
    push_cast
    have e1 : ((n : ℝ) + 1) * (U - L) * (((n : ℝ) + 1) * (U - L) + (L - x)) =
      ((n : ℝ) + 1) * (U - L) * (((n : ℝ) + 1) * (U - L) + (L - x)) := rfl
    have e2 : (((n : ℝ) + 1) * (U - L) + x - U) * (((n : ℝ) + 1) * (U - L) + (L - U)) =
      n * (U - L) * (n * (U - L) + (x - L)) := by ring
    have e3 : -((n : ℝ) + 1) * (U - L) * (-((n : ℝ) + 1) * (U - L) + (L - x)) =
      ((n : ℝ) + 1) * (U - L) * (((n : ℝ) + 1) * (U - L) + (x - L)) := by ring
    have e4 : (-((n : ℝ) + 1) * (U - L) + x - U) * (-((n : ℝ) + 1) * (U - L) + (L - U)) =
      ((n : ℝ) + 1 + 1) * (U - L) * (((n : ℝ) + 1 + 1) * (U - L) + (L - x)) := by ring
    rw [e2, e3, e4]
    ring

/-- C71: without a cutoff the probability is zero at both barriers. -/
theorem C71_double_barriers (x v U L : ℝ) (hv : 0 < v) (hLU : L < U) (hx : L ≤ x ∧ x ≤ U) :
    noTouchDouble x U v U L = 0 ∧ noTouchDouble x L v U L = 0 := by
  constructor
  · have h := (C71_double_cutoff x U v U L hv hLU hx ⟨hLU.le, le_refl _⟩).1
    simp only [(C71_double_symmetric x 0 v U L _).2] at h
    exact tendsto_nhds_unique h tendsto_const_nhds
  · have h := (C71_double_cutoff x L v U L hv hLU hx ⟨le_refl _, hLU.le⟩).1
    simp only [double_lower] at h
    have hD : 0 < U - L := by linarith
    have lim : ∀ w : ℝ, Filter.Tendsto (fun n : Nat => Real.exp (-2 * (n * (U - L) * (n * (U - L) + w)) / v)) Filter.atTop (nhds 0) := by
      intro w
      apply Real.tendsto_exp_atBot.comp
      have t1 : Filter.Tendsto (fun n : Nat => (n : ℝ) * (U - L)) Filter.atTop Filter.atTop :=
        tendsto_natCast_atTop_atTop.atTop_mul_const hD
      have t2 : Filter.Tendsto (fun n : Nat => (n : ℝ) * (U - L) + w) Filter.atTop Filter.atTop :=
        Filter.tendsto_atTop_add_const_right _ _ t1
      have t3 := (t1.atTop_mul_atTop₀ t2).const_mul_atTop_of_neg (r := -2 / v) (div_neg_of_neg_of_pos (by norm_num) hv)
      refine t3.congr (fun n => ?_)
      ring
    have l1 := lim (x - L)
    have l2 := (lim (L - x)).comp (Filter.tendsto_add_atTop_nat 1)
    have l3 := l1.sub l2
    rw [sub_zero] at l3
    refine tendsto_nhds_unique h (l3.congr (fun n => ?_))
    simp only [Function.comp_apply]
    push_cast
    rfl

/-! ## Examples -/

example : brownianBridgeSingle 1 2 1 0 = 1 - Real.exp (-4) := by
  unfold brownianBridgeSingle
  norm_num

/-- The cutoff zero. -/
example : brownianBridgeDouble (1 / 2) (1 / 2) 1 1 0 0 = 1 - Real.exp (-(1 / 2)) := by
  rw [double_eq]
  simp only [Finset.range_zero, Finset.sum_empty, bridgeTerm]
  norm_num

/-- With the cutoff zero the value at the lower barrier is not zero. -/
example : brownianBridgeDouble (1 / 2) 0 1 1 0 0 = 1 - Real.exp (-1) := by
  rw [double_lower]
  norm_num

end Props
