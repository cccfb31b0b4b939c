import Verif.Model.Simpson
import Mathlib.Algebra.BigOperators.Group.Finset.Basic
import Mathlib.Algebra.BigOperators.Intervals
import Mathlib.Algebra.CharZero.Defs
import Mathlib.Analysis.SpecialFunctions.Integrals.Basic
import Mathlib.Tactic.FieldSimp
import Mathlib.Tactic.Ring
import Mathlib.Tactic.LinearCombination

/-! # C24: Simpson's rule -/

namespace Props
open Model

section
variable {K : Type} [Field K]

theorem simpsonWeights_succ (k : Nat) :
    ∃ t : List K, simpsonWeights (2 * k + 3) = 1 :: t ∧ simpsonWeights (2 * (k + 1) + 3) = 1 :: 4 :: 2 :: t := by
  refine ⟨(List.replicate k [4, 2]).flatten ++ [4, 1], ?_, ?_⟩
  · unfold simpsonWeights
    rw [show (2 * k + 3 - 3) / 2 = k by omega]; rfl
  · unfold simpsonWeights
    rw [show (2 * (k + 1) + 3 - 3) / 2 = k + 1 by omega, List.replicate_succ]; rfl

theorem map_range_add3 (g : Nat → K) (n : Nat) :
    (List.range (n + 3)).map g = g 0 :: g 1 :: g 2 :: (List.range n).map (fun i => g (i + 3)) := by
  simp only [List.range_succ_eq_map, List.map_cons, List.map_map]
  rfl

/-- The weighted sum, panel by panel. -/
theorem simpson_panels (k : Nat) (g : Nat → K) :
    (List.zipWith (· * ·) ((List.range (2 * k + 3)).map g) (simpsonWeights (2 * k + 3))).sum =
      (Finset.range (k + 1)).sum (fun j => g (2 * j) + 4 * g (2 * j + 1) + g (2 * j + 2)) := by
  induction k generalizing g with
  | zero => simp [simpsonWeights, List.range_succ]; ring
  | succ k ih =>
    obtain ⟨t, h1, h2⟩ := simpsonWeights_succ (K := K) k
    have ih := ih (fun i => g (i + 2))
    rw [h1, List.range_succ_eq_map] at ih
    rw [h2, show 2 * (k + 1) + 3 = (2 * k + 2) + 3 by omega, map_range_add3, Finset.sum_range_succ']
    simp only [List.map_cons, List.map_map, List.zipWith_cons_cons, List.sum_cons] at ih ⊢
    have e : (fun i => g (i + 2)) ∘ Nat.succ = fun i => g (i + 3) := by
      ext i; simp only [Function.comp, Nat.succ_eq_add_one]
    rw [e] at ih
    have e2 : ∀ j, g (2 * (j + 1)) + 4 * g (2 * (j + 1) + 1) + g (2 * (j + 1) + 2) =
        g (2 * j + 2) + 4 * g (2 * j + 1 + 2) + g (2 * j + 2 + 2) := fun j => rfl
    simp only [e2]
    linear_combination ih

/-- C24.  Admissible numbers of points: odd and at least 3; everything else is rejected. -/
theorem C24_admissible (f : K → K) (a b : K) (n : Nat) :
    (∃ r, simpson f a b n = .ok r) ↔ 3 ≤ n ∧ n % 2 = 1 := by
  unfold simpson
  constructor
  · rintro ⟨r, h⟩
    split at h
    · cases h
    · split at h
      · cases h
      · omega
  · rintro ⟨h1, h2⟩
    rw [if_neg (by omega), if_neg (by omega)]
    exact ⟨_, rfl⟩

/-- C24.  The rule in textbook form: the sum over panels of `(f(l) + 4 f(m) + f(r)) * dx / 3`. -/
theorem C24_panels (f : K → K) (a b : K) (k : Nat) :
    simpson f a b (2 * k + 3) = .ok ((Finset.range (k + 1)).sum (fun j =>
      let h := (b - a) / (2 * (k : K) + 2)
      (f (a + h * (2 * j)) + 4 * f (a + h * (2 * j + 1)) + f (a + h * (2 * j + 2))) * h / 3)) := by
  unfold simpson
  rw [if_neg (by omega), if_neg (by omega)]
  simp only
  congr 1
  have hn : ((2 * k + 3 : Nat) : K) - 1 = 2 * (k : K) + 2 := by push_cast; ring
  have : (simpsonGrid a b (2 * k + 3)).map f =
      (List.range (2 * k + 3)).map (fun i : Nat => f (a + (b - a) / (2 * (k : K) + 2) * (i : K))) := by
    unfold simpsonGrid
    rw [hn, List.map_map]; rfl
  rw [hn, this, simpson_panels, Finset.sum_mul, Finset.sum_div]
  apply Finset.sum_congr rfl
  intro j _
  push_cast
  ring

/-- C24.  Linear in the integrand. -/
theorem C24_linear (f g : K → K) (α β a b : K) (n : Nat) (rf rg : K)
    (hf : simpson f a b n = .ok rf) (hg : simpson g a b n = .ok rg) :
    simpson (fun x => α * f x + β * g x) a b n = .ok (α * rf + β * rg) := by
  obtain ⟨h3, h1⟩ := (C24_admissible f a b n).1 ⟨_, hf⟩
  obtain ⟨k, rfl⟩ : ∃ k, n = 2 * k + 3 := ⟨(n - 3) / 2, by omega⟩
  rw [C24_panels] at hf hg ⊢
  cases hf
  cases hg
  congr 1
  rw [Finset.mul_sum, Finset.mul_sum, ← Finset.sum_add_distrib]
  apply Finset.sum_congr rfl
  intro j _
  ring

/-- C24.  Exact on cubics, over any field of characteristic 0: the result is the increment of the
antiderivative. -/
theorem C24_cubic [CharZero K] (c0 c1 c2 c3 a b : K) (n : Nat) (h3 : 3 ≤ n) (hodd : n % 2 = 1) :
    simpson (fun x => c0 + c1 * x + c2 * x ^ 2 + c3 * x ^ 3) a b n =
      .ok ((c0 * b + c1 * b ^ 2 / 2 + c2 * b ^ 3 / 3 + c3 * b ^ 4 / 4) -
        (c0 * a + c1 * a ^ 2 / 2 + c2 * a ^ 3 / 3 + c3 * a ^ 4 / 4)) := by
  obtain ⟨k, rfl⟩ : ∃ k, n = 2 * k + 3 := ⟨(n - 3) / 2, by omega⟩
  rw [C24_panels]
  congr 1
  have hk : (2 * (k : K) + 2) ≠ 0 := by
    have : ((2 * k + 2 : Nat) : K) ≠ 0 := Nat.cast_ne_zero.2 (by omega)
    push_cast at this; exact this
  have h30 : (3 : K) ≠ 0 := by norm_num
  have h20 : (2 : K) ≠ 0 := by norm_num
  have h40 : (4 : K) ≠ 0 := by norm_num
  generalize hh : (b - a) / (2 * (k : K) + 2) = h
  let P : K → K := fun x => c0 * x + c1 * x ^ 2 / 2 + c2 * x ^ 3 / 3 + c3 * x ^ 4 / 4
  have hpanel : ∀ j : Nat, (let h := h; (c0 + c1 * (a + h * (2 * j)) + c2 * (a + h * (2 * j)) ^ 2 +
        c3 * (a + h * (2 * j)) ^ 3 + 4 * (c0 + c1 * (a + h * (2 * j + 1)) + c2 * (a + h * (2 * j + 1)) ^ 2 +
        c3 * (a + h * (2 * j + 1)) ^ 3) + (c0 + c1 * (a + h * (2 * j + 2)) + c2 * (a + h * (2 * j + 2)) ^ 2 +
        c3 * (a + h * (2 * j + 2)) ^ 3)) * h / 3) =
        P (a + h * (2 * ((j + 1 : Nat) : K))) - P (a + h * (2 * (j : K))) := by
    intro j
    simp only [P]
    push_cast
    field_simp
    ring
  simp only [hpanel]
  rw [Finset.sum_range_sub (fun j => P (a + h * (2 * (j : K))))]
  have hb : a + h * (2 * ((k + 1 : Nat) : K)) = b := by
    push_cast
    rw [← hh]
    field_simp
    ring
  rw [hb]
  simp [P]

end

/-- C24.  Exact on cubics: the result is the integral. -/
theorem C24_cubic_integral (c0 c1 c2 c3 a b : ℝ) (n : Nat) (h3 : 3 ≤ n) (hodd : n % 2 = 1) :
    simpson (fun x => c0 + c1 * x + c2 * x ^ 2 + c3 * x ^ 3) a b n =
      .ok (∫ x in a..b, (c0 + c1 * x + c2 * x ^ 2 + c3 * x ^ 3)) := by
  rw [C24_cubic c0 c1 c2 c3 a b n h3 hodd]
  congr 1
  have hP : ∀ x ∈ Set.uIcc a b, HasDerivAt
      (fun x : ℝ => c0 * x + c1 * x ^ 2 / 2 + c2 * x ^ 3 / 3 + c3 * x ^ 4 / 4)
      (c0 + c1 * x + c2 * x ^ 2 + c3 * x ^ 3) x := by
    intro x _
    have h1 : HasDerivAt (fun x : ℝ => c0 * x) (c0 * 1) x := (hasDerivAt_id x).const_mul c0
    have h2 := ((hasDerivAt_pow 2 x).const_mul c1).div_const 2
    have h3 := ((hasDerivAt_pow 3 x).const_mul c2).div_const 3
    have h4 := ((hasDerivAt_pow 4 x).const_mul c3).div_const 4
    have h5 := ((h1.add h2).add h3).add h4
    have e : c0 * 1 + c1 * (↑2 * x ^ (2 - 1)) / 2 + c2 * (↑3 * x ^ (3 - 1)) / 3 + c3 * (↑4 * x ^ (4 - 1)) / 4 =
        c0 + c1 * x + c2 * x ^ 2 + c3 * x ^ 3 := by
      norm_num
      ring
    rw [← e]
    exact_mod_cast h5
  rw [intervalIntegral.integral_eq_sub_of_hasDerivAt hP]
  apply Continuous.intervalIntegrable
  fun_prop

/-- C24.  Constants: the weights add up to `3 (n - 1)`, so that the rule gives the length of the interval. -/
theorem C24_constant {K : Type} [Field K] [CharZero K] (c a b : K) (n : Nat) (h3 : 3 ≤ n) (hodd : n % 2 = 1) :
    simpson (fun _ => c) a b n = .ok (c * (b - a)) := by
  have := C24_cubic c 0 0 0 a b n h3 hodd
  simp only [zero_mul, add_zero, zero_div] at this
  rw [this, mul_sub]

/- Concrete instance: `x^3` on `[0, 2]` with 3 and 7 points (integral 4), `x^4` is not exact. -/
example : (simpson (fun x : ℚ => x ^ 3) 0 2 3).toOption = some 4 ∧
    (simpson (fun x : ℚ => x ^ 3) 0 2 7).toOption = some 4 ∧
    (simpson (fun x : ℚ => x ^ 4) 0 2 3).toOption = some (20 / 3) := by decide +kernel

end Props
