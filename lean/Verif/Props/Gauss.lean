import Verif.Lemmas.Gauss
import Mathlib.Analysis.SpecialFunctions.Integrals.Basic
import Mathlib.Algebra.Polynomial.Eval.Degree
import Mathlib.Tactic.IntervalCases

/-! # C49 Gauss-Legendre and Gauss-Kronrod rules integrate polynomials, C50 adaptive integration -/

namespace Spec

/-- Error bound of a rule on `[a, b]`: the coefficients are those of the polynomial after the change of variables to `[-1, 1]`. -/
noncomputable def coeffSum (p : Polynomial ℝ) (a b : ℝ) (n : Nat) : ℝ :=
  ∑ k ∈ Finset.range n, |(p.comp (Polynomial.C ((b - a) / 2) * Polynomial.X + Polynomial.C ((a + b) / 2))).coeff k|

/-- Sum of increments of `F` over intervals. -/
def increments (F : ℝ → ℝ) (l : List (ℝ × ℝ)) : ℝ := (l.map (fun i => F i.2 - F i.1)).sum

/-- A partition of `[a, b]`: intervals inside over which the increments of every function add up. -/
def Partition (a b : ℝ) (l : List (ℝ × ℝ)) : Prop :=
  (∀ i ∈ l, a ≤ i.1 ∧ i.1 ≤ i.2 ∧ i.2 ≤ b) ∧ ∀ F : ℝ → ℝ, increments F l = F b - F a

end Spec

namespace Lemmas
open Model Spec

theorem moment_value (roots weights : List Int) (k : Nat) :
    (List.zipWith (fun r w => w * r ^ k) (tableValues roots : List ℝ) (tableValues weights)).sum = (momentNum roots weights k : ℝ) / 10 ^ (25 * (k + 1)) := by
  unfold momentNum tableValues
  induction roots generalizing weights with
  | nil => simp
  | cons r roots ih =>
    cases weights with
    | nil => simp
    | cons w weights =>
      simp only [List.map_cons, List.zipWith_cons_cons, List.sum_cons, List.foldr_cons]
      rw [ih]
      push_cast
      rw [pow_mul, div_pow]
      generalize hT : (10 : ℝ) ^ 25 = T
      have hT0 : T ≠ 0 := by rw [← hT]; positivity
      rw [pow_succ]
      field_simp

theorem quadrature_poly (c : Nat → ℝ) (N : Nat) (f : ℝ → ℝ) (a b : ℝ) (hf : ∀ r, f (((b - a) * r + b + a) / 2) = ∑ k ∈ Finset.range N, c k * r ^ k)
    (roots weights : List ℝ) :
    quadrature f a b roots weights = (b - a) / 2 * ∑ k ∈ Finset.range N, c k * (List.zipWith (fun r w => w * r ^ k) roots weights).sum := by
  unfold quadrature
  simp only [hf]
  induction roots generalizing weights with
  | nil => simp
  | cons r roots ih =>
    cases weights with
    | nil => simp
    | cons w weights =>
      simp only [List.zipWith_cons_cons, List.sum_cons, ih]
      rw [Finset.mul_sum, Finset.sum_mul, Finset.sum_mul, Finset.sum_div, ← Finset.sum_add_distrib, Finset.mul_sum]
      apply Finset.sum_congr rfl
      intro k _
      ring

theorem momentOk_real (e : Nat) (roots weights : List Int) (k : Nat) (he : e ≤ 25) (h : momentOk e roots weights k = true) :
    |(momentNum roots weights k : ℝ) / 10 ^ (25 * (k + 1)) - ((1 : ℝ) ^ (k + 1) - (-1) ^ (k + 1)) / (k + 1)| ≤ 1 / 10 ^ e := by
  unfold momentOk at h
  simp only [Bool.and_eq_true, decide_eq_true_eq] at h
  have hk : (0 : ℝ) < (k : ℝ) + 1 := by positivity
  have hm : ((1 : ℝ) ^ (k + 1) - (-1) ^ (k + 1)) = (if k % 2 = 0 then (2 : ℝ) else 0) := by
    split
    · rename_i hk0
      have : Odd (k + 1) := by rw [Nat.odd_iff]; omega
      rw [this.neg_one_pow]; norm_num
    · rename_i hk0
      have : Even (k + 1) := by rw [Nat.even_iff]; omega
      rw [this.neg_one_pow]; norm_num
  have hp : (10 : ℝ) ^ (25 * (k + 1)) = 10 ^ (25 * (k + 1) - e) * 10 ^ e := by rw [← pow_add]; congr 1; omega
  obtain ⟨h1, h2⟩ := h
  have h1' : ((k : ℝ) + 1) * (momentNum roots weights k : ℝ) - (if k % 2 = 0 then 2 else 0) * 10 ^ (25 * (k + 1)) ≤ ((k : ℝ) + 1) * 10 ^ (25 * (k + 1) - e) := by
    have := (Int.cast_le (R := ℝ)).2 h1
    push_cast at this
    split at this <;> rename_i hh <;> simp only [hh, if_true, if_false] <;> push_cast at this ⊢ <;> linarith
  have h2' : -(((k : ℝ) + 1) * 10 ^ (25 * (k + 1) - e)) ≤ ((k : ℝ) + 1) * (momentNum roots weights k : ℝ) - (if k % 2 = 0 then 2 else 0) * 10 ^ (25 * (k + 1)) := by
    have := (Int.cast_le (R := ℝ)).2 h2
    push_cast at this
    split at this <;> rename_i hh <;> simp only [hh, if_true, if_false] <;> push_cast at this ⊢ <;> linarith
  rw [hm]
  generalize (if k % 2 = 0 then (2 : ℝ) else 0) = m at *
  have hq : (0 : ℝ) < 10 ^ (25 * (k + 1) - e) := by positivity
  have hE : (0 : ℝ) < 10 ^ e := by positivity
  rw [hp] at h1' h2' ⊢
  generalize (10 : ℝ) ^ (25 * (k + 1) - e) = Q at *
  generalize (10 : ℝ) ^ e = E at *
  generalize (momentNum roots weights k : ℝ) = M at *
  generalize (k : ℝ) + 1 = k1 at *
  have e1 : M / (Q * E) - m / k1 = (k1 * M - m * (Q * E)) / (Q * E * k1) := by field_simp
  rw [e1, abs_div, abs_of_pos (show 0 < Q * E * k1 by positivity), div_le_div_iff₀ (by positivity) hE]
  have h3 : |k1 * M - m * (Q * E)| ≤ k1 * Q := abs_le.2 ⟨h2', h1'⟩
  calc |k1 * M - m * (Q * E)| * E ≤ k1 * Q * E := mul_le_mul_of_nonneg_right h3 hE.le
    _ = 1 * (Q * E * k1) := by ring

/-- A rule with exact moments integrates polynomials. -/
theorem rule_poly (e degree : Nat) (he : e ≤ 25) (roots weights : List Int) (h : ruleOk e degree roots weights = true) (p : Polynomial ℝ)
    (hp : p.natDegree ≤ degree) (a b : ℝ) :
    |quadrature (fun x => p.eval x) a b (tableValues roots) (tableValues weights) - ∫ x in a..b, p.eval x| ≤
      |b - a| / 2 * (1 / 10 ^ e) * coeffSum p a b (degree + 1) := by
  unfold ruleOk at h
  simp only [Bool.and_eq_true, List.all_eq_true, List.mem_range] at h
  set q := p.comp (Polynomial.C ((b - a) / 2) * Polynomial.X + Polynomial.C ((a + b) / 2)) with hq
  have hdeg : q.natDegree < degree + 1 := by
    have h1 : q.natDegree ≤ p.natDegree * (Polynomial.C ((b - a) / 2) * Polynomial.X + Polynomial.C ((a + b) / 2)).natDegree := Polynomial.natDegree_comp_le
    have h2 : (Polynomial.C ((b - a) / 2) * Polynomial.X + Polynomial.C ((a + b) / 2)).natDegree ≤ 1 := Polynomial.natDegree_linear_le
    have h3 : p.natDegree * (Polynomial.C ((b - a) / 2) * Polynomial.X + Polynomial.C ((a + b) / 2)).natDegree ≤ p.natDegree * 1 := Nat.mul_le_mul_left _ h2
    omega
  have hev : ∀ r, p.eval ((b - a) / 2 * r + (a + b) / 2) = ∑ k ∈ Finset.range (degree + 1), q.coeff k * r ^ k := by
    intro r
    rw [← Polynomial.eval_eq_sum_range' hdeg, hq, Polynomial.eval_comp]
    simp
  have hquad := quadrature_poly (fun k => q.coeff k) (degree + 1) (fun x => p.eval x) a b (fun r => by
    rw [← hev r]; congr 1; ring) (tableValues roots) (tableValues weights)
  have hint : ∫ x in a..b, p.eval x = (b - a) / 2 * ∑ k ∈ Finset.range (degree + 1), q.coeff k * (((1 : ℝ) ^ (k + 1) - (-1) ^ (k + 1)) / (k + 1)) := by
    by_cases hab : (b - a) / 2 = 0
    · have : a = b := by linarith
      rw [hab, this]; simp
    · have h1 := intervalIntegral.integral_comp_mul_add (a := -1) (b := 1) (fun x => p.eval x) hab ((a + b) / 2)
      rw [show (b - a) / 2 * -1 + (a + b) / 2 = a by ring, show (b - a) / 2 * 1 + (a + b) / 2 = b by ring, smul_eq_mul] at h1
      have h2 : ∫ x in a..b, p.eval x = (b - a) / 2 * ∫ x in (-1 : ℝ)..1, p.eval ((b - a) / 2 * x + (a + b) / 2) := by
        rw [h1, ← mul_assoc, mul_inv_cancel₀ hab, one_mul]
      rw [h2]
      congr 1
      simp only [hev]
      rw [intervalIntegral.integral_finset_sum (fun k _ => (Continuous.intervalIntegrable (by fun_prop) _ _))]
      apply Finset.sum_congr rfl
      intro k _
      rw [intervalIntegral.integral_const_mul, integral_pow]
  rw [hquad, hint, ← mul_sub, ← Finset.sum_sub_distrib, abs_mul, abs_div, abs_two, mul_assoc]
  apply mul_le_mul_of_nonneg_left _ (by positivity)
  refine (Finset.abs_sum_le_sum_abs _ _).trans ?_
  unfold coeffSum
  rw [Finset.mul_sum]
  apply Finset.sum_le_sum
  intro k hk
  rw [← mul_sub, abs_mul, mul_comm]
  apply mul_le_mul_of_nonneg_right _ (abs_nonneg _)
  rw [moment_value]
  exact momentOk_real e roots weights k he (h.2 k (Finset.mem_range.1 hk))

section adaptive
variable {K : Type} [Field K] [LinearOrder K]

theorem sum_filter (l : List (K × K)) (f : K × K → K) (p : K × K → Bool) :
    (l.map f).sum - ((l.filter p).map f).sum = ((l.filter (fun i => !p i)).map f).sum := by
  induction l with
  | nil => simp
  | cons a l ih =>
    by_cases h : p a = true
    · rw [List.filter_cons_of_pos h, List.filter_cons_of_neg (by simp [h])]
      simp only [List.map_cons, List.sum_cons]
      linear_combination ih
    · rw [List.filter_cons_of_neg h, List.filter_cons_of_pos (by simp [h])]
      simp only [List.map_cons, List.sum_cons]
      linear_combination ih

end adaptive

theorem increments_append (F : ℝ → ℝ) (l r : List (ℝ × ℝ)) : increments F (l ++ r) = increments F l + increments F r := by
  unfold increments; simp

theorem increments_halves (F : ℝ → ℝ) (l : List (ℝ × ℝ)) :
    increments F (l.map (fun i => (i.1, (i.1 + i.2) / 2))) + increments F (l.map (fun i => ((i.1 + i.2) / 2, i.2))) = increments F l := by
  unfold increments
  induction l with
  | nil => simp
  | cons a l ih =>
    simp only [List.map_cons, List.sum_cons]
    linear_combination ih

theorem increments_filter (F : ℝ → ℝ) (l : List (ℝ × ℝ)) (p : ℝ × ℝ → Bool) :
    increments F (l.filter (fun i => !p i)) + increments F (l.filter p) = increments F l := by
  unfold increments
  have := sum_filter l (fun i => F i.2 - F i.1) p
  linarith

/-- What the loop does: accepted intervals and the rest. -/
theorem adaptiveLoop_spec (pair : ℝ → ℝ → ℝ × ℝ) (tol a b : ℝ) (depth : Nat) (ivs : List (ℝ × ℝ)) (sum len : ℝ)
    (hin : ∀ i ∈ ivs, a ≤ i.1 ∧ i.1 ≤ i.2 ∧ i.2 ≤ b) (hlen : ∀ i ∈ ivs, i.2 - i.1 = len) :
    ∃ accepted, (adaptiveLoop pair tol depth ivs sum).2 = sum + (accepted.map (fun i => (pair i.1 i.2).1)).sum ∧
      (∀ i ∈ accepted, isBad pair tol i = false) ∧
      (∀ i ∈ accepted ++ (adaptiveLoop pair tol depth ivs sum).1, a ≤ i.1 ∧ i.1 ≤ i.2 ∧ i.2 ≤ b) ∧
      (∀ F, increments F (accepted ++ (adaptiveLoop pair tol depth ivs sum).1) = increments F ivs) ∧
      (∀ i ∈ (adaptiveLoop pair tol depth ivs sum).1, i.2 - i.1 = len / 2 ^ depth) := by
  induction depth generalizing ivs sum len with
  | zero => exact ⟨[], by simp [adaptiveLoop], by simp, by simpa [adaptiveLoop] using hin, by simp [adaptiveLoop], by simpa [adaptiveLoop] using hlen⟩
  | succ depth ih =>
    unfold adaptiveLoop
    by_cases he : ivs.isEmpty = true
    · rw [if_pos he]
      rw [List.isEmpty_iff] at he
      subst he
      exact ⟨[], by simp, by simp, by simp, by simp, by simp⟩
    · rw [if_neg he]
      simp only [adaptiveUpdate]
      have hhalf : ∀ i ∈ (ivs.filter (isBad pair tol)).map (fun i => (i.1, (i.1 + i.2) / 2)) ++
          (ivs.filter (isBad pair tol)).map (fun i => ((i.1 + i.2) / 2, i.2)),
          (a ≤ i.1 ∧ i.1 ≤ i.2 ∧ i.2 ≤ b) ∧ i.2 - i.1 = len / 2 := by
        intro i hi
        rw [List.mem_append, List.mem_map, List.mem_map] at hi
        rcases hi with ⟨j, hj, rfl⟩ | ⟨j, hj, rfl⟩ <;>
        · have hj' := (List.mem_filter.1 hj).1
          obtain ⟨h1, h2, h3⟩ := hin j hj'
          have h4 := hlen j hj'
          refine ⟨⟨?_, ?_, ?_⟩, ?_⟩ <;> simp only <;> linarith
      obtain ⟨acc, h1, h2, h3, h4, h5⟩ := ih _ (sum + ((ivs.map (fun i => (pair i.1 i.2).1)).sum -
        ((ivs.filter (isBad pair tol)).map (fun i => (pair i.1 i.2).1)).sum)) (len / 2) (fun i hi => (hhalf i hi).1) (fun i hi => (hhalf i hi).2)
      refine ⟨ivs.filter (fun i => !isBad pair tol i) ++ acc, ?_, ?_, ?_, ?_, ?_⟩
      · rw [h1, sum_filter, List.map_append, List.sum_append]; ring
      · intro i hi
        rw [List.mem_append] at hi
        rcases hi with hi | hi
        · have := (List.mem_filter.1 hi).2
          simpa using this
        · exact h2 i hi
      · intro i hi
        rw [List.append_assoc, List.mem_append] at hi
        rcases hi with hi | hi
        · exact hin i (List.mem_filter.1 hi).1
        · exact h3 i hi
      · intro F
        rw [List.append_assoc, increments_append, h4 F, increments_append, increments_halves, increments_filter]
      · intro i hi
        rw [h5 i hi, pow_succ]; ring

/-- If all intervals of some level are accepted, nothing is left. -/
theorem adaptiveLoop_complete (pair : ℝ → ℝ → ℝ × ℝ) (tol a b : ℝ) (d depth : Nat) (hd : d < depth) (ivs : List (ℝ × ℝ)) (sum len : ℝ)
    (hin : ∀ i ∈ ivs, a ≤ i.1 ∧ i.2 ≤ b) (hlen : ∀ i ∈ ivs, i.2 - i.1 = len) (hpos : 0 ≤ len)
    (hgood : ∀ l u, a ≤ l → u ≤ b → u - l = len / 2 ^ d → isBad pair tol (l, u) = false) :
    (adaptiveLoop pair tol depth ivs sum).1 = [] := by
  induction d generalizing depth ivs sum len with
  | zero =>
    obtain ⟨depth, rfl⟩ : ∃ q, depth = q + 1 := ⟨depth - 1, by omega⟩
    unfold adaptiveLoop
    split
    · rename_i he; exact List.isEmpty_iff.1 he
    · simp only [adaptiveUpdate]
      have : ivs.filter (isBad pair tol) = [] := by
        rw [List.filter_eq_nil_iff]
        intro i hi
        rw [hgood i.1 i.2 (hin i hi).1 (hin i hi).2 (by simpa using hlen i hi)]
        simp
      rw [this]
      cases depth <;> simp [adaptiveLoop]
  | succ d ih =>
    obtain ⟨depth, rfl⟩ : ∃ q, depth = q + 1 := ⟨depth - 1, by omega⟩
    unfold adaptiveLoop
    split
    · rename_i he; exact List.isEmpty_iff.1 he
    · simp only [adaptiveUpdate]
      have hhalf : ∀ i ∈ (ivs.filter (isBad pair tol)).map (fun i => (i.1, (i.1 + i.2) / 2)) ++
          (ivs.filter (isBad pair tol)).map (fun i => ((i.1 + i.2) / 2, i.2)), (a ≤ i.1 ∧ i.2 ≤ b) ∧ i.2 - i.1 = len / 2 := by
        intro i hi
        rw [List.mem_append, List.mem_map, List.mem_map] at hi
        rcases hi with ⟨j, hj, rfl⟩ | ⟨j, hj, rfl⟩ <;>
        · have hj' := (List.mem_filter.1 hj).1
          obtain ⟨h1, h3⟩ := hin j hj'
          have h4 := hlen j hj'
          refine ⟨⟨?_, ?_⟩, ?_⟩ <;> simp only <;> linarith
      refine ih depth (by omega) _ _ (len / 2) (fun i hi => (hhalf i hi).1) (fun i hi => (hhalf i hi).2) (by linarith) ?_
      intro l u h1 h2 h3
      exact hgood l u h1 h2 (by rw [h3, pow_succ]; ring)

end Lemmas

namespace Props
open Model Lemmas Spec

/-- C49: every supported Gauss-Legendre rule with `n` points integrates all polynomials of degree below `2 n` over every interval,
up to the accuracy of the decimals in the table (error `10^-24` per coefficient). -/
theorem C49_legendre (n : Nat) (hn : (legendreRoots n).isSome) (p : Polynomial ℝ) (hp : p.natDegree < 2 * n) (a b : ℝ) :
    ∃ r, gaussLegendre (fun x => p.eval x) a b n = some r ∧
      |r - ∫ x in a..b, p.eval x| ≤ |b - a| / 2 * (1 / 10 ^ 24) * coeffSum p a b (2 * n) := by
  have hmem : n ∈ legendreSizes := by
    by_contra hc
    unfold legendreSizes at hc
    simp only [List.mem_cons, List.not_mem_nil, or_false, not_or] at hc
    unfold legendreRoots at hn
    split at hn <;> simp_all
  have h := List.all_eq_true.1 legendre_table n hmem
  unfold legendreOk at h
  unfold gaussLegendre
  split at h
  · rename_i r w hr hw
    rw [Bool.and_eq_true] at h
    rw [hr, hw]
    refine ⟨_, rfl, ?_⟩
    have := rule_poly 24 (2 * n - 1) (by norm_num) r w h.1 p (by omega) a b
    rwa [show 2 * n - 1 + 1 = 2 * n by omega] at this
  · simp at h

/-- C49: the Kronrod rules with `n = 2 m + 1` points integrate all polynomials of degree at most `3 m + 1`. -/
theorem C49_kronrod (n : Nat) (hn : (stieltjesRoots n).isSome) (p : Polynomial ℝ) (hp : p.natDegree ≤ 3 * ((n - 1) / 2) + 1) (a b : ℝ) :
    ∃ pair, kronrodPair (fun x => p.eval x) n = some pair ∧
      |(pair a b).1 - ∫ x in a..b, p.eval x| ≤ |b - a| / 2 * (1 / 10 ^ 20) * coeffSum p a b (3 * ((n - 1) / 2) + 2) := by
  have hmem : n ∈ kronrodSizes := by
    by_contra hc
    unfold kronrodSizes at hc
    simp only [List.mem_cons, List.not_mem_nil, or_false, not_or] at hc
    unfold stieltjesRoots at hn
    split at hn <;> simp_all
  have h := List.all_eq_true.1 kronrod_table n hmem
  unfold kronrodOk at h
  unfold kronrodPair
  split at h
  · rename_i r s w l hr hs hw hl
    rw [hr, hs, hw, hl]
    exact ⟨_, rfl, rule_poly 20 _ (by norm_num) (r ++ s) w h p hp a b⟩
  · simp at h

/-- C49: the weights of all rules are positive, so integrals of positive functions are positive. -/
theorem C49_positive (n : Nat) (w : List Int) (h : legendreWeights n = some w ∨ kronrodWeights n = some w) : ∀ i ∈ w, 0 < i := by
  have key : ∀ m, m < 33 → ((legendreWeights m).getD [1] ++ (kronrodWeights m).getD [1]).all (fun i => decide (0 < i)) = true := by decide +kernel
  have hn : n < 33 := by
    by_contra hc
    have h1 : legendreWeights n = none := by
      unfold legendreWeights; split <;> first | omega | rfl
    have h2 : kronrodWeights n = none := by
      unfold kronrodWeights; split <;> first | omega | rfl
    rw [h1, h2] at h
    simp at h
  have := List.all_eq_true.1 (key n hn)
  intro i hi
  have hmem : i ∈ (legendreWeights n).getD [1] ++ (kronrodWeights n).getD [1] := by
    rcases h with h | h <;> rw [h] <;> simp [hi]
  simpa using this i hmem

/-- C50: the adaptive rule is the sum of the estimates on accepted intervals. Accepted intervals and those left over when the maximal
depth is reached form a partition; accepted intervals with a positive estimate satisfy the tolerance. What is missing: the tolerance is
not enforced where the estimate is negative (`C50_negative`), and the intervals left over are not counted (`C50_depth`). -/
theorem C50_adaptive_partial (f : ℝ → ℝ) (a b tol : ℝ) (hab : a ≤ b) (n depth : Nat) (r : ℝ) (pair : ℝ → ℝ → ℝ × ℝ)
    (hpair : kronrodPair f n = some pair) (h : gaussKronrod f a b tol n depth = some r) :
    ∃ accepted rest, Partition a b (accepted ++ rest) ∧ r = (accepted.map (fun i => (pair i.1 i.2).1)).sum ∧
      (∀ i ∈ accepted, 0 < (pair i.1 i.2).1 → |(pair i.1 i.2).1 - (pair i.1 i.2).2| ≤ tol * (pair i.1 i.2).1) ∧
      ∀ i ∈ rest, i.2 - i.1 = (b - a) / 2 ^ depth := by
  unfold gaussKronrod at h
  rw [hpair] at h
  simp only [Option.map_some, Option.some.injEq] at h
  obtain ⟨acc, h1, h2, h3, h4, h5⟩ := adaptiveLoop_spec pair tol a b depth [(a, b)] 0 (b - a) (by simpa using hab) (by simp)
  refine ⟨acc, _, ⟨h3, fun F => by rw [h4 F]; simp [increments]⟩, by rw [← h, h1, zero_add], ?_, h5⟩
  intro i hi hpos
  have := h2 i hi
  unfold isBad at this
  simp only [if_neg hpos.ne', decide_eq_false_iff_not, not_lt] at this
  exact (div_le_iff₀ hpos).1 this

/-- C50: if every interval of length `(b - a) / 2^d` is accepted for some `d` below the maximal depth, and the rule has error at most
`e (u - l)` on every accepted interval, then the result has error at most `e (b - a)`. `F` is an antiderivative. -/
theorem C50_error (f F : ℝ → ℝ) (a b tol e : ℝ) (hab : a ≤ b) (n d depth : Nat) (hd : d < depth) (r : ℝ) (pair : ℝ → ℝ → ℝ × ℝ)
    (hpair : kronrodPair f n = some pair) (hgood : ∀ l u, a ≤ l → u ≤ b → u - l = (b - a) / 2 ^ d → isBad pair tol (l, u) = false)
    (herr : ∀ l u, a ≤ l → l ≤ u → u ≤ b → isBad pair tol (l, u) = false → |(pair l u).1 - (F u - F l)| ≤ e * (u - l))
    (h : gaussKronrod f a b tol n depth = some r) : |r - (F b - F a)| ≤ e * (b - a) := by
  unfold gaussKronrod at h
  rw [hpair] at h
  simp only [Option.map_some, Option.some.injEq] at h
  obtain ⟨acc, h1, h2, h3, h4, _⟩ := adaptiveLoop_spec pair tol a b depth [(a, b)] 0 (b - a) (by simpa using hab) (by simp)
  have hnil := adaptiveLoop_complete pair tol a b d depth hd [(a, b)] 0 (b - a) (by simp) (by simp) (by linarith) hgood
  rw [hnil, List.append_nil] at h3 h4
  have hF := h4 F
  have hI := h4 (fun x => x)
  have e1 : increments F [(a, b)] = F b - F a := by simp [increments]
  have e2 : increments (fun x => x) [(a, b)] = b - a := by simp [increments]
  rw [e1] at hF
  rw [e2] at hI
  rw [← h, h1, zero_add, ← hF, ← hI]
  clear h h1 h4 hnil hF hI e1 e2
  induction acc with
  | nil => simp [increments]
  | cons i acc ih =>
    have hi := h3 i List.mem_cons_self
    have := herr i.1 i.2 hi.1 hi.2.1 hi.2.2 (h2 i List.mem_cons_self)
    have ih' := ih (fun j hj => h2 j (List.mem_cons_of_mem _ hj)) (fun j hj => h3 j (List.mem_cons_of_mem _ hj))
    unfold increments at ih' ⊢
    simp only [List.map_cons, List.sum_cons]
    rw [abs_le] at *
    constructor <;> linarith [this.1, this.2, ih'.1, ih'.2]

/-- C50, deviation: if the estimate on the whole interval is negative, it is returned whatever the error, for every tolerance. -/
theorem C50_negative (f : ℝ → ℝ) (a b tol : ℝ) (n depth : Nat) (htol : 0 ≤ tol) (pair : ℝ → ℝ → ℝ × ℝ) (hpair : kronrodPair f n = some pair)
    (hneg : (pair a b).1 < 0) : gaussKronrod f a b tol n (depth + 1) = some (pair a b).1 := by
  have hbad : isBad pair tol (a, b) = false := by
    unfold isBad
    simp only [if_neg hneg.ne, decide_eq_false_iff_not, not_lt]
    exact (div_nonpos_of_nonneg_of_nonpos (abs_nonneg _) hneg.le).trans htol
  unfold gaussKronrod
  rw [hpair]
  simp only [Option.map_some, adaptiveLoop, List.isEmpty_cons, Bool.false_eq_true, if_false, adaptiveUpdate, List.filter_cons_of_neg (p := isBad pair tol) (a := (a, b)) (by simp [hbad]),
    List.filter_nil, List.map_nil, List.append_nil, List.map_cons, List.sum_cons, List.sum_nil, add_zero, sub_zero, zero_add]
  cases depth <;> simp [adaptiveLoop]

/-- C50, deviation: intervals that are still bad when the maximal depth is reached are dropped; with depth 1 the result is 0. -/
theorem C50_depth (f : ℝ → ℝ) (a b tol : ℝ) (n : Nat) (pair : ℝ → ℝ → ℝ × ℝ) (hpair : kronrodPair f n = some pair)
    (hbad : isBad pair tol (a, b) = true) : gaussKronrod f a b tol n 1 = some 0 := by
  unfold gaussKronrod
  rw [hpair]
  simp [adaptiveLoop, adaptiveUpdate, hbad]

/-- `x^3 + 1` over `[0, 2]` with two points: 6 up to the accuracy of the table. -/
example : ((gaussLegendre (fun x : Rat => x ^ 3 + 1) 0 2 2).map (fun r => decide (|r - 6| < 1 / 10 ^ 23))) = some true := by decide +kernel

/-- A step from 1 to 2: the adaptive rule is not odd, since the negative function is not refined. -/
example : gaussKronrod (fun x : Rat => if x < 1 / 3 then -1 else -2) 0 1 (1 / 1000) 15 3 ≠
    (gaussKronrod (fun x : Rat => if x < 1 / 3 then 1 else 2) 0 1 (1 / 1000) 15 3).map (fun r => -r) := by decide +kernel

/-- The integral is 5/3, but with small depth most of it is dropped. -/
example : gaussKronrod (fun x : Rat => if x < 1 / 3 then 1 else 2) 0 1 (1 / 1000) 15 1 = some 0 := by decide +kernel

example : ((gaussKronrod (fun x : Rat => if x < 1 / 3 then 1 else 2) 0 1 (1 / 1000) 15 20).map (fun r => decide (|r - 5 / 3| < 1 / 1000))) = some true := by
  decide +kernel

end Props
