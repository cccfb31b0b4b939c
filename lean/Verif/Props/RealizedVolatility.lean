import Mathlib.Algebra.Order.Chebyshev
import Mathlib.Algebra.Order.BigOperators.Group.Finset
import Verif.Lemmas.Crr
import Verif.Lemmas.CubicSpline
import Verif.Lemmas.Instruments
import Verif.Model.RealizedVolatility

/-!
# Property theorems C74: realized volatility
-/

namespace Props
open Model Lemmas

theorem diff_range (f : Nat → ℝ) (n : Nat) :
    diff ((List.range (n + 1)).map f) 1 true = (List.range n).map (fun i => f (i + 1) - f i) := by
  unfold diff
  dsimp only
  rw [if_pos rfl, drop_mapRange, take_mapRange _ _ _ (by simp)]
  simp only [List.length_map, List.length_range, Nat.add_sub_cancel]
  rw [zipWith_mapRange]

theorem replicate_range (n : Nat) : List.replicate n (1 : ℝ) = (List.range n).map (fun _ => 1) := by simp

/-- The spacing of the times, one if there are none. -/
def spacing (t : Option (Nat → ℝ)) (i : Nat) : ℝ :=
  match t with
  | none => 1
  | some t => t (i + 1) - t i

/-- The times as the code gets them. -/
def timeList (t : Option (Nat → ℝ)) (n : Nat) : Option (List ℝ) := t.map (fun t => (List.range (n + 1)).map t)

theorem denominators_eq (t : Option (Nat → ℝ)) (n m : Nat) (hm : m = n) :
    timeSteps (timeList t n) m = (List.range n).map (spacing t) := by
  subst hm
  cases t with
  | none => exact replicate_range m
  | some t => exact diff_range t m

/-- C74: with logarithmic returns the statistic is the square root of the sum of the squared logarithms of the returns, each divided
by the time step; it is the same for a path given as logarithms. -/
theorem C74_log (S : Nat → ℝ) (t : Option (Nat → ℝ)) (c : Option ℝ) (n : Nat) (hS : ∀ i, i ≤ n → 0 < S i) :
    realizedVolatility ((List.range (n + 1)).map S) (timeList t n) c .log .original =
      c.getD 1 * Real.sqrt (∑ i ∈ Finset.range n, Real.log (S (i + 1) / S i) ^ 2 / spacing t i) ∧
    realizedVolatility ((List.range (n + 1)).map (fun i => Real.log (S i))) (timeList t n) c .log .log =
      realizedVolatility ((List.range (n + 1)).map S) (timeList t n) c .log .original := by
  have h : realizedVolatility ((List.range (n + 1)).map (fun i => Real.log (S i))) (timeList t n) c .log .log =
      c.getD 1 * Real.sqrt (∑ i ∈ Finset.range n, Real.log (S (i + 1) / S i) ^ 2 / spacing t i) := by
    unfold realizedVolatility transformedPath
    dsimp only
    rw [diff_range, List.map_map, denominators_eq t n _ (by simp), zipWith_mapRange, sum_mapRange']
    have e : ∑ i ∈ Finset.range n, ((componentTransform .log ∘ fun i => Real.log (S (i + 1)) - Real.log (S i)) i) / spacing t i =
        ∑ i ∈ Finset.range n, Real.log (S (i + 1) / S i) ^ 2 / spacing t i := by
      apply Finset.sum_congr rfl
      intro i hi
      have hi' := Finset.mem_range.1 hi
      rw [Real.log_div (hS _ (by omega)).ne' (hS _ (by omega)).ne']
      rfl
    rw [e]
    cases c <;> simp
  have h2 : realizedVolatility ((List.range (n + 1)).map S) (timeList t n) c .log .original =
      realizedVolatility ((List.range (n + 1)).map (fun i => Real.log (S i))) (timeList t n) c .log .log := by
    unfold realizedVolatility transformedPath
    dsimp only
    rw [List.map_map]
    rfl
  exact ⟨by rw [h2, h], h2.symm⟩

/-- C74: with absolute returns the statistic is the sum of the absolute returns, each divided by the time step; it is the same for
a path given as logarithms. -/
theorem C74_abs (S : Nat → ℝ) (t : Option (Nat → ℝ)) (c : Option ℝ) (n : Nat) :
    realizedVolatility ((List.range (n + 1)).map S) (timeList t n) c .abs .original =
      c.getD 1 * ∑ i ∈ Finset.range n, |S (i + 1) - S i| / |S i| / spacing t i ∧
    ((∀ i, i ≤ n → 0 < S i) →
      realizedVolatility ((List.range (n + 1)).map (fun i => Real.log (S i))) (timeList t n) c .abs .log =
        realizedVolatility ((List.range (n + 1)).map S) (timeList t n) c .abs .original) := by
  constructor
  · unfold realizedVolatility transformedPath
    dsimp only
    rw [diff_range, List.map_map, denominators_eq t n _ (by simp), take_mapRange _ _ _ (by simp), List.map_map]
    simp only [List.length_map, List.length_range, Nat.add_sub_cancel]
    rw [zipWith_mapRange, zipWith_mapRange, sum_mapRange']
    have e : ∑ i ∈ Finset.range n, ((componentTransform .abs ∘ fun i => S (i + 1) - S i) i) /
        (spacing t i * (componentTransform .abs ∘ S) i) = ∑ i ∈ Finset.range n, |S (i + 1) - S i| / |S i| / spacing t i := by
      apply Finset.sum_congr rfl
      intro i _
      simp only [Function.comp_apply, componentTransform]
      rw [mul_comm, ← div_div]
    rw [e]
    cases c <;> simp
  · intro hS
    unfold realizedVolatility transformedPath
    dsimp only
    have e : ((List.range (n + 1)).map (fun i => Real.log (S i))).map Real.exp = (List.range (n + 1)).map S := by
      rw [List.map_map]
      apply List.map_congr_left
      intro i hi
      have := List.mem_range.1 hi
      exact Real.exp_log (hS i (by omega))
    rw [e]

/-- C74: multiplying the path by a constant does not change the statistic. -/
theorem C74_scale (S : Nat → ℝ) (a : ℝ) (t : Option (Nat → ℝ)) (c : Option ℝ) (n : Nat) (r : ReturnsType) (ha : 0 < a)
    (hS : ∀ i, i ≤ n → 0 < S i) :
    realizedVolatility ((List.range (n + 1)).map (fun i => a * S i)) (timeList t n) c r .original =
      realizedVolatility ((List.range (n + 1)).map S) (timeList t n) c r .original := by
  cases r with
  | log =>
    rw [(C74_log S t c n hS).1, (C74_log (fun i => a * S i) t c n (fun i hi => mul_pos ha (hS i hi))).1]
    simp only [mul_div_mul_left _ _ ha.ne']
  | abs =>
    rw [(C74_abs S t c n).1, (C74_abs (fun i => a * S i) t c n).1]
    congr 1
    apply Finset.sum_congr rfl
    intro i _
    beta_reduce
    rw [← mul_sub, abs_mul, abs_mul, mul_div_mul_left _ _ (abs_pos.2 ha.ne').ne']

/-- C74: a path which grows at a constant rate, with unit time steps. -/
theorem C74_constant_growth (S0 g : ℝ) (n : Nat) (hS : 0 < S0) (hg : 0 < g) :
    realizedVolatility ((List.range (n + 1)).map (fun i => S0 * g ^ i)) none none .log .original =
        Real.sqrt n * |Real.log g| ∧
      realizedVolatility ((List.range (n + 1)).map (fun i => S0 * g ^ i)) none none .abs .original = n * |g - 1| := by
  have hpos : ∀ i, 0 < S0 * g ^ i := fun i => mul_pos hS (pow_pos hg i)
  constructor
  · have h := (C74_log (fun i => S0 * g ^ i) none none n (fun i _ => hpos i)).1
    have e : ∀ i ∈ Finset.range n, Real.log (S0 * g ^ (i + 1) / (S0 * g ^ i)) ^ 2 / spacing none i = Real.log g ^ 2 := by
      intro i _
      have hp := (pow_pos hg i).ne'
      rw [mul_div_mul_left _ _ hS.ne', show g ^ (i + 1) = g * g ^ i by ring, mul_div_cancel_right₀ _ hp]
      simp [spacing]
    rw [Finset.sum_congr rfl e, Finset.sum_const, Finset.card_range, nsmul_eq_mul, Real.sqrt_mul (Nat.cast_nonneg n),
      Real.sqrt_sq_eq_abs, Option.getD_none, one_mul] at h
    exact h
  · have h := (C74_abs (fun i => S0 * g ^ i) none none n).1
    have e : ∀ i ∈ Finset.range n, |S0 * g ^ (i + 1) - S0 * g ^ i| / |S0 * g ^ i| / spacing none i = |g - 1| := by
      intro i _
      have hp := hpos i
      rw [show S0 * g ^ (i + 1) - S0 * g ^ i = (g - 1) * (S0 * g ^ i) by ring, abs_mul,
        mul_div_cancel_right₀ _ (abs_pos.2 hp.ne').ne']
      simp [spacing]
    rw [Finset.sum_congr rfl e, Finset.sum_const, Finset.card_range, nsmul_eq_mul, Option.getD_none, one_mul] at h
    exact h

/-- C74: the total logarithmic return over `n` steps is at most `√n` times the realized volatility. -/
theorem C74_total_return (S : Nat → ℝ) (n : Nat) (hS : ∀ i, i ≤ n → 0 < S i) :
    |Real.log (S n / S 0)| ≤ Real.sqrt n * realizedVolatility ((List.range (n + 1)).map S) none none .log .original := by
  have h := (C74_log S none none n hS).1
  rw [Option.getD_none, one_mul] at h
  have h' : realizedVolatility ((List.range (n + 1)).map S) none none .log .original = _ := h
  rw [h', ← Real.sqrt_mul (Nat.cast_nonneg n), ← Real.sqrt_sq_eq_abs]
  apply Real.sqrt_le_sqrt
  have e : ∑ i ∈ Finset.range n, Real.log (S (i + 1) / S i) = Real.log (S n / S 0) := by
    rw [Real.log_div (hS _ (le_refl _)).ne' (hS _ (Nat.zero_le _)).ne', ← Finset.sum_range_sub (fun i => Real.log (S i))]
    apply Finset.sum_congr rfl
    intro i hi
    have := Finset.mem_range.1 hi
    rw [Real.log_div (hS _ (by omega)).ne' (hS _ (by omega)).ne']
  have h2 := sq_sum_le_card_mul_sum_sq (s := Finset.range n) (f := fun i => Real.log (S (i + 1) / S i))
  rw [e, Finset.card_range] at h2
  simpa [spacing] using h2

/-- A path which doubles and then halves. -/
example : realizedVolatility [1, 2, 1] (some [0, 1, 3]) (some 10) .abs .original = 25 / 2 := by
  unfold realizedVolatility transformedPath componentTransform timeSteps diff
  norm_num

example : realizedVolatility [1, 2, 1] none none .log .original = Real.sqrt 2 * Real.log 2 := by
  have h := (C74_log (fun i => if i = 1 then 2 else 1) none none 2 (by intro i _; split_ifs <;> norm_num)).1
  simp only [List.range_succ, List.range_zero, List.nil_append, List.cons_append, List.map_cons, List.map_nil, timeList,
    Option.map_none, Option.getD_none, Finset.sum_range_succ, Finset.sum_range_zero, spacing] at h
  norm_num at h
  rw [h, show (1 / 2 : ℝ) = 2⁻¹ by norm_num, Real.log_inv, neg_sq, show Real.log 2 ^ 2 + Real.log 2 ^ 2 = 2 * Real.log 2 ^ 2 by ring, Real.sqrt_mul (by norm_num), Real.sqrt_sq]
  exact Real.log_nonneg (by norm_num)

end Props
