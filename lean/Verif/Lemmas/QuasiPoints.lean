import Verif.Lemmas.QuasiNormal
import Verif.Props.SobolNet
import Verif.Props.HaltonNet

/-! Runs of consecutive points of the Sobol and Halton sequences. -/

namespace Spec
open Model

/-- The `N` points of the Sobol sequence with the indices `skip + 1, …, skip + N`. -/
def SobolRun (table : List (Nat × List Nat)) (dim skip N : ℕ) (x : ℕ → Fin dim → ℝ) : Prop :=
  ∀ n, n < N → ∀ c : Fin dim, x n c =
    ((sobolSample table dim (2 ^ Nat.clog 2 (skip + N + 1)) none none none false : List (List ℝ)).getD (skip + 1 + n) []).getD c 0

/-- The `N` points of the Halton sequence with the indices `skip, …, skip + N - 1`, with enough digits for the largest index; `plain` is without randomization. -/
def HaltonRun (radixes : List Nat) (plain : Bool) (skip N : ℕ) (x : ℕ → Fin radixes.length → ℝ) : Prop :=
  ∃ sizes r, HaltonBases radixes sizes ∧ (∀ c, c < radixes.length → skip + N < radixes.getD c 0 ^ sizes.getD c 0) ∧
    HaltonRandomization radixes sizes r ∧ (plain = true → r = none) ∧
    ∀ n, n < N → ∀ c : Fin radixes.length, x n c = ((haltonSample radixes sizes 0 (some ((List.range N).map (skip + ·))) r).getD n []).getD c 0

end Spec

namespace Lemmas
open Spec Model MeasureTheory Filter

/-- Sums over a run from sums over aligned blocks. -/
theorem blocks_sum (g : ℕ → ℝ) (I η B : ℝ) (Q lo N : ℕ) (hQ : 0 < Q) (hη : 0 ≤ η)
    (hblock : ∀ q, lo ≤ q * Q → (q + 1) * Q ≤ lo + N → |(∑ n ∈ Finset.range Q, g (q * Q + n)) - Q * I| ≤ Q * η)
    (hB : ∀ n, lo ≤ n → n < lo + N → |g n| ≤ B) (hI : |I| ≤ B) :
    |(∑ n ∈ Finset.range N, g (lo + n)) - N * I| ≤ N * η + 4 * B * Q := by
  have hB0 : 0 ≤ B := le_trans (abs_nonneg _) hI
  have hQr : (0 : ℝ) < Q := by exact_mod_cast hQ
  have e : (∑ n ∈ Finset.range N, g (lo + n)) - N * I = ∑ n ∈ Finset.Ico lo (lo + N), (g n - I) := by
    rw [Finset.sum_sub_distrib, Finset.sum_const, Nat.card_Ico, nsmul_eq_mul, Finset.sum_Ico_eq_sum_range]
    simp
  rw [e]
  have hpart : ∀ a b, lo ≤ a → a ≤ b → b ≤ lo + N → |∑ n ∈ Finset.Ico a b, (g n - I)| ≤ ((b - a : ℕ) : ℝ) * (2 * B) := by
    intro a b h1 h2 h3
    refine le_trans (Finset.abs_sum_le_sum_abs _ _) (le_trans (Finset.sum_le_card_nsmul _ _ (2 * B) fun n hn => ?_) ?_)
    · rw [Finset.mem_Ico] at hn
      have := hB n (by omega) (by omega)
      have h4 := abs_sub (g n) I
      linarith
    · rw [nsmul_eq_mul, Nat.card_Ico]
  by_cases hcase : (lo + N) / Q * Q < lo
  · have hlt : N ≤ Q := by
      have h1 := Nat.div_add_mod (lo + N) Q
      have h2 := Nat.mod_lt (lo + N) hQ
      have h3 : Q * ((lo + N) / Q) = (lo + N) / Q * Q := Nat.mul_comm _ _
      omega
    refine le_trans (hpart lo (lo + N) (le_refl _) (by omega) (le_refl _)) ?_
    have h1 : ((lo + N - lo : ℕ) : ℝ) ≤ Q := by exact_mod_cast (by omega : lo + N - lo ≤ Q)
    have h2 : 0 ≤ (N : ℝ) * η := by positivity
    nlinarith
  · push Not at hcase
    set q0 := (lo + Q - 1) / Q with hq0
    set q1 := (lo + N) / Q with hq1
    have a1 : lo ≤ q0 * Q ∧ q0 * Q < lo + Q := by
      have h1 := Nat.div_add_mod (lo + Q - 1) Q
      have h2 := Nat.mod_lt (lo + Q - 1) hQ
      have h3 : Q * ((lo + Q - 1) / Q) = (lo + Q - 1) / Q * Q := Nat.mul_comm _ _
      rw [← hq0] at h1 h3
      constructor <;> omega
    have a2 : q1 * Q ≤ lo + N ∧ lo + N < q1 * Q + Q := by
      have h1 := Nat.div_add_mod (lo + N) Q
      have h2 := Nat.mod_lt (lo + N) hQ
      have h3 : Q * ((lo + N) / Q) = (lo + N) / Q * Q := Nat.mul_comm _ _
      rw [← hq1] at h1 h3
      constructor <;> omega
    have a3 : q0 ≤ q1 := by
      by_contra hn
      have : (q1 + 1) * Q ≤ q0 * Q := Nat.mul_le_mul_right _ (by omega)
      have e : (q1 + 1) * Q = q1 * Q + Q := by ring
      omega
    have a4 : q0 * Q ≤ q1 * Q := Nat.mul_le_mul_right _ a3
    have hmid : ∀ q, q0 ≤ q → q ≤ q1 → |∑ n ∈ Finset.Ico (q0 * Q) (q * Q), (g n - I)| ≤ ((q * Q - q0 * Q : ℕ) : ℝ) * η := by
      intro q h0
      induction q, h0 using Nat.le_induction with
      | base => intro _; simp
      | succ q hq ih =>
        intro h1
        have b1 : q0 * Q ≤ q * Q := Nat.mul_le_mul_right _ hq
        have b2 : (q + 1) * Q ≤ q1 * Q := Nat.mul_le_mul_right _ h1
        have b3 : (q + 1) * Q = q * Q + Q := by ring
        have h2 := ih (by omega)
        have h3 := hblock q (by omega) (by omega)
        have h4 : ∑ n ∈ Finset.Ico (q * Q) ((q + 1) * Q), (g n - I) = (∑ n ∈ Finset.range Q, g (q * Q + n)) - Q * I := by
          rw [Finset.sum_sub_distrib, Finset.sum_const, Nat.card_Ico, nsmul_eq_mul, Finset.sum_Ico_eq_sum_range, b3, Nat.add_sub_cancel_left]
        rw [← Finset.sum_Ico_consecutive _ b1 (by omega : q * Q ≤ (q + 1) * Q), h4]
        refine le_trans (abs_add_le _ _) (le_trans (add_le_add h2 h3) (le_of_eq ?_))
        rw [← add_mul, ← Nat.cast_add]
        congr 2
        omega
    rw [← Finset.sum_Ico_consecutive _ a1.1 (by omega : q0 * Q ≤ lo + N), ← Finset.sum_Ico_consecutive _ a4 a2.1]
    have c1 := hpart lo (q0 * Q) (le_refl _) a1.1 (by omega)
    have c2 := hmid q1 a3 (le_refl _)
    have c3 := hpart (q1 * Q) (lo + N) (by omega) a2.1 (le_refl _)
    have d1 : ((q0 * Q - lo : ℕ) : ℝ) ≤ Q := by exact_mod_cast (by omega : q0 * Q - lo ≤ Q)
    have d2 : ((q1 * Q - q0 * Q : ℕ) : ℝ) ≤ N := by exact_mod_cast (by omega : q1 * Q - q0 * Q ≤ N)
    have d3 : ((lo + N - q1 * Q : ℕ) : ℝ) ≤ Q := by exact_mod_cast (by omega : lo + N - q1 * Q ≤ Q)
    refine le_trans (abs_add_le _ _) (le_trans (add_le_add c1 (le_trans (abs_add_le _ _) (add_le_add c2 c3))) ?_)
    have f1 := mul_le_mul_of_nonneg_right d1 (by linarith : 0 ≤ 2 * B)
    have f2 := mul_le_mul_of_nonneg_right d2 hη
    have f3 := mul_le_mul_of_nonneg_right d3 (by linarith : 0 ≤ 2 * B)
    nlinarith

theorem cube_integral_le (s : ℕ) (f : (Fin s → ℝ) → ℝ) (B : ℝ) (hB : ∀ u, u ∈ unitCube s → |f u| ≤ B) : |∫ u in unitCube s, f u| ≤ B := by
  have := norm_setIntegral_le_of_norm_le_const (μ := volume) (s := unitCube s) (f := f) (C := B) (cube_volume _).1 (fun u hu => hB u hu)
  rwa [(cube_volume _).2, mul_one] at this

/-- Averages over runs of Sobol points of functions that are continuous on the closed cube, uniformly in the start. -/
theorem sobolRun_limit (table : List (Nat × List Nat)) (hT : ∀ q ∈ table, ValidEntry q) (dim : ℕ) (hdim : 0 < dim) (hd : dim ≤ table.length + 1)
    (hcop : CoprimeCodes table dim) (g : (Fin dim → ℝ) → ℝ) (hg : ContinuousOn g (Set.Icc 0 1)) :
    AverageLimit dim (fun N x => ∃ skip, SobolRun table dim skip N x) g (∫ u in unitCube dim, g u) := by
  obtain ⟨B, hB⟩ := isCompact_Icc.exists_bound_of_continuousOn hg
  have hsub : ∀ u, u ∈ unitCube dim → u ∈ Set.Icc (0 : Fin dim → ℝ) 1 := fun u hu => ⟨fun c => (hu c).1, fun c => (hu c).2.le⟩
  have hB' : ∀ u, u ∈ unitCube dim → |g u| ≤ |B| := fun u hu => le_trans (hB u (hsub u hu)) (le_abs_self B)
  have hI := cube_integral_le dim g |B| hB'
  intro ε hε
  obtain ⟨m, hm⟩ := net_limit (netQuality table dim) dim hdim g hg (ε / 2) (by linarith)
  have hm := hm m (le_refl _)
  obtain ⟨N1, hN1⟩ := exists_nat_gt (4 * |B| * 2 ^ m / (ε / 2))
  refine ⟨max N1 1, fun N hN x ⟨skip, hx⟩ => ?_⟩
  have h2 : N1 ≤ N := le_trans (le_max_left _ _) hN
  have h3 : 1 ≤ N := le_trans (le_max_right _ _) hN
  have hNr : (0 : ℝ) < N := by exact_mod_cast h3
  set D := Nat.clog 2 (skip + N + 1) with hD
  have hpow : skip + N + 1 ≤ 2 ^ D := Nat.le_pow_clog (by omega) _
  set p : ℕ → ℕ → ℝ := fun n c => ((sobolSample table dim (2 ^ D) none none none false : List (List ℝ)).getD n []).getD c 0 with hp
  have hunit : ∀ n, n < 2 ^ D → ∀ c : Fin dim, 0 ≤ p n c ∧ p n c < 1 := Props.sobol_points_unit table hT dim D hd
  have key := blocks_sum (fun n => g (fun c => p n c)) (∫ u in unitCube dim, g u) (ε / 2) |B| (2 ^ m) (skip + 1) N (Nat.two_pow_pos m) (by linarith)
    (fun q h4 h5 => by
      have hnet := Props.C120_sobol_sample (K := ℝ) table hT dim (2 ^ D) m q (netQuality table dim) none (by simp) hd hcop (le_refl _) (by omega)
      have := hm _ hnet (fun n hn c => hunit (q * 2 ^ m + n) (by
        have e : (q + 1) * 2 ^ m = q * 2 ^ m + 2 ^ m := by ring
        omega) c)
      have hpos : (0 : ℝ) < 2 ^ m := by positivity
      rw [show (∑ n ∈ Finset.range (2 ^ m), g fun c => p (q * 2 ^ m + n) c) / 2 ^ m - ∫ u in unitCube dim, g u =
        ((∑ n ∈ Finset.range (2 ^ m), g fun c => p (q * 2 ^ m + n) c) - 2 ^ m * ∫ u in unitCube dim, g u) / 2 ^ m by field_simp, abs_div, abs_of_pos hpos,
        div_le_iff₀ hpos] at this
      push_cast
      rw [mul_comm ((2 : ℝ) ^ m) (ε / 2)]
      exact this)
    (fun n h4 h5 => hB' _ fun c => hunit n (by omega) c) hI
  have e : ∑ n ∈ Finset.range N, g (x n) = ∑ n ∈ Finset.range N, g (fun c => p (skip + 1 + n) c) := by
    refine Finset.sum_congr rfl fun n hn => ?_
    congr 1
    funext c
    exact hx n (Finset.mem_range.1 hn) c
  rw [e]
  rw [show (∑ n ∈ Finset.range N, g fun c => p (skip + 1 + n) c) / N - ∫ u in unitCube dim, g u =
    ((∑ n ∈ Finset.range N, g fun c => p (skip + 1 + n) c) - N * ∫ u in unitCube dim, g u) / N by field_simp, abs_div, abs_of_pos hNr, div_le_iff₀ hNr]
  refine le_trans key ?_
  rw [div_lt_iff₀ (by linarith)] at hN1
  have : (N1 : ℝ) ≤ N := by exact_mod_cast h2
  push_cast
  nlinarith

/-- Counting the points of a run in a cell, when no two points of an aligned block lie in it. -/
theorem run_count (R : ℕ → Prop) [DecidablePred R] (Q lo N : ℕ) (hQ : 0 < Q)
    (h : ∀ n n', lo ≤ n → n < lo + N → lo ≤ n' → n' < lo + N → n / Q = n' / Q → R n → R n' → n = n') :
    (((Finset.range N).filter fun i => R (lo + i)).card : ℝ) ≤ N / Q + 2 := by
  have hcard : ((Finset.range N).filter fun i => R (lo + i)).card ≤ (Finset.Ico (lo / Q) ((lo + N) / Q + 1)).card := by
    refine Finset.card_le_card_of_injOn (fun i => (lo + i) / Q) (fun i hi => ?_) (fun i hi i' hi' he => ?_)
    · simp only [Finset.coe_filter, Finset.mem_range, Set.mem_setOf_eq] at hi
      simp only [Finset.coe_Ico, Set.mem_Ico]
      exact ⟨Nat.div_le_div_right (Nat.le_add_right lo i), Nat.lt_succ_of_le (Nat.div_le_div_right (Nat.add_le_add_left hi.1.le lo))⟩
    · simp only [Finset.coe_filter, Finset.mem_range, Set.mem_setOf_eq] at hi hi'
      have := h (lo + i) (lo + i') (by omega) (by omega) (by omega) (by omega) he hi.2 hi'.2
      omega
  rw [Nat.card_Ico] at hcard
  have h1 : (lo + N) / Q ≤ lo / Q + N / Q + 1 := by
    rw [Nat.add_div hQ]
    split <;> omega
  have h2 : ((Finset.range N).filter fun i => R (lo + i)).card ≤ N / Q + 2 := by
    generalize lo / Q = u1 at *
    generalize (lo + N) / Q = u2 at *
    generalize N / Q = u3 at *
    omega
  have h3 : ((N / Q : ℕ) : ℝ) ≤ (N : ℝ) / Q := Nat.cast_div_le
  have h4 : (((Finset.range N).filter fun i => R (lo + i)).card : ℝ) ≤ ((N / Q + 2 : ℕ) : ℝ) := by exact_mod_cast h2
  push_cast at h4
  linarith

/-- Few points near the boundary, from the distribution over cells in each coordinate. `b` is the base, `D` the number of digits. -/
theorem few_near (s : ℕ) (N lo b D : ℕ) (hb : 1 < b) (κ : ℝ) (hN : 0 < N) (hD : (b : ℝ) ^ D ≤ κ * N) (x : Fin s → ℕ → ℝ) (c : Fin s)
    (hx : ∀ i, i < N → 1 / (b : ℝ) ^ D ≤ x c (lo + i) ∧ x c (lo + i) ≤ 1 - 1 / (b : ℝ) ^ D)
    (hcell : ∀ j, j ≤ D → ∀ k n n', lo ≤ n → n < lo + N → lo ≤ n' → n' < lo + N → n / b ^ j = n' / b ^ j → InCell b j k (x c n) → InCell b j k (x c n') → n = n')
    (δ : ℝ) (hδ : 0 < δ) :
    (((Finset.range N).filter fun i => x c (lo + i) ≤ δ ∨ 1 - δ ≤ x c (lo + i)).card : ℝ) ≤ (3 * b + 6 * κ) * δ * N := by
  classical
  have hb1 : (1 : ℝ) < b := by exact_mod_cast hb
  have hNr : (0 : ℝ) < N := by exact_mod_cast hN
  have hκ : 0 ≤ κ := by
    have : 0 < κ * N := lt_of_lt_of_le (by positivity) hD
    exact (pos_of_mul_pos_left this hNr.le).le
  have hbd : (((Finset.range N).filter fun i => x c (lo + i) ≤ δ ∨ 1 - δ ≤ x c (lo + i)).card : ℝ) ≤ N := by
    exact_mod_cast le_trans (Finset.card_filter_le _ _) (le_of_eq (Finset.card_range N))
  have hpD : (0 : ℝ) < (b : ℝ) ^ D := by positivity
  by_cases hsmall : δ < 1 / (b : ℝ) ^ D
  · have : (Finset.range N).filter (fun i => x c (lo + i) ≤ δ ∨ 1 - δ ≤ x c (lo + i)) = ∅ := by
      refine Finset.filter_eq_empty_iff.2 fun i hi h => ?_
      have := hx i (Finset.mem_range.1 hi)
      rcases h with h | h <;> linarith
    rw [this, Finset.card_empty, Nat.cast_zero]
    positivity
  push Not at hsmall
  by_cases hbig : 1 ≤ 3 * b * δ
  · have h1 : 0 ≤ 6 * κ * δ := by positivity
    nlinarith
  push Not at hbig
  have hδ1 : δ ≤ 1 := by nlinarith
  obtain ⟨j, h1, h2⟩ := exists_nat_pow_near_of_lt_one hδ hδ1 (show (0 : ℝ) < 1 / b by positivity) (by rw [div_lt_one (by linarith)]; exact hb1)
  rw [one_div_pow] at h1 h2
  have hj0 : 1 ≤ j := by
    by_contra hn
    have : j = 0 := by omega
    rw [this] at h1
    rw [div_lt_iff₀ (by positivity)] at h1
    simp only [zero_add, pow_one] at h1
    nlinarith
  have hjD : j ≤ D := by
    have h3 := le_trans hsmall h2
    have h4 : (b : ℝ) ^ j ≤ (b : ℝ) ^ D := by
      rwa [one_div_le_one_div hpD (by positivity)] at h3
    exact (pow_le_pow_iff_right₀ hb1).1 h4
  have hpj : (0 : ℝ) < (b : ℝ) ^ j := by positivity
  have hsub : (Finset.range N).filter (fun i => x c (lo + i) ≤ δ ∨ 1 - δ ≤ x c (lo + i)) ⊆
      ((Finset.range N).filter fun i => InCell b j 0 (x c (lo + i))) ∪ (((Finset.range N).filter fun i => InCell b j 1 (x c (lo + i))) ∪
        ((Finset.range N).filter fun i => InCell b j (b ^ j - 1) (x c (lo + i)))) := by
    intro i hi
    rw [Finset.mem_filter] at hi
    have hxi := hx i (Finset.mem_range.1 hi.1)
    have hpos : 0 < 1 / (b : ℝ) ^ D := by positivity
    have hone : (2 : ℝ) / (b : ℝ) ^ j = 1 / (b : ℝ) ^ j + 1 / (b : ℝ) ^ j := by ring
    have hp : 0 < 1 / (b : ℝ) ^ j := by positivity
    simp only [Finset.mem_union, Finset.mem_filter]
    rcases hi.2 with h | h
    · by_cases h5 : x c (lo + i) < 1 / (b : ℝ) ^ j
      · left
        exact ⟨hi.1, by simp only [Nat.cast_zero, zero_div]; linarith, by simpa using h5⟩
      · right; left
        refine ⟨hi.1, by simpa using not_lt.1 h5, ?_⟩
        rw [Nat.cast_one, show (1 : ℝ) + 1 = 2 by norm_num, hone]
        linarith
    · right; right
      have hbj : 1 ≤ b ^ j := Nat.one_le_pow _ _ (by omega)
      have e1 : (((b ^ j - 1 : ℕ) : ℝ)) = (b : ℝ) ^ j - 1 := by rw [Nat.cast_sub hbj]; push_cast; ring
      refine ⟨hi.1, ?_, ?_⟩
      · rw [e1, sub_div, div_self hpj.ne']
        linarith
      · rw [e1, sub_add_cancel, div_self hpj.ne']
        linarith
  have hcount : ∀ k, (((Finset.range N).filter fun i => InCell b j k (x c (lo + i))).card : ℝ) ≤ N / (b : ℝ) ^ j + 2 := by
    intro k
    have := run_count (fun n => InCell b j k (x c n)) (b ^ j) lo N (Nat.pow_pos (by omega)) (fun n n' a1 a2 a3 a4 a5 a6 a7 => hcell j hjD k n n' a1 a2 a3 a4 a5 a6 a7)
    push_cast at this
    exact this
  have htot : (((Finset.range N).filter fun i => x c (lo + i) ≤ δ ∨ 1 - δ ≤ x c (lo + i)).card : ℝ) ≤ 3 * (N / (b : ℝ) ^ j + 2) := by
    have h6 := le_trans (Finset.card_le_card hsub) (le_trans (Finset.card_union_le _ _) (Nat.add_le_add_left (Finset.card_union_le _ _) _))
    have h7 := (Nat.cast_le (α := ℝ)).2 h6
    push_cast at h7
    have := hcount 0
    have := hcount 1
    have := hcount (b ^ j - 1)
    linarith
  refine le_trans htot ?_
  have h8 : (N : ℝ) / (b : ℝ) ^ j ≤ b * δ * N := by
    rw [pow_succ, div_lt_iff₀ (by positivity)] at h1
    rw [div_le_iff₀ hpj]
    nlinarith
  have h9 : 1 ≤ κ * N * δ := by
    rw [div_le_iff₀ hpD] at hsmall
    nlinarith
  nlinarith

theorem xorPoint_zero (C : ℕ → ℕ) (L : ℕ) : xorPoint C 0 L 0 = 0 := by
  induction L with
  | zero => rfl
  | succ L ih => simp [xorPoint, ih]

/-- The points of a run of the Sobol sequence: strictly inside the cube and not too many near the boundary, when the number of skipped points is at most `κ` times their number. -/
theorem sobolRun_few (table : List (Nat × List Nat)) (hT : ∀ q ∈ table, ValidEntry q) (dim : ℕ) (hd : dim ≤ table.length + 1) (κ skip N : ℕ) (hskip : skip ≤ κ * N)
    (x : ℕ → Fin dim → ℝ) (hx : SobolRun table dim skip N x) : FewNearBoundary dim (3 * (2 : ℕ) + 6 * (2 * (κ + 2))) N x := by
  rcases Nat.eq_zero_or_pos N with hN | hN
  · subst hN
    exact ⟨fun n hn => absurd hn (by omega), fun c δ _ => by simp⟩
  set D := Nat.clog 2 (skip + N + 1) with hD
  have hpow : skip + N + 1 ≤ 2 ^ D := Nat.le_pow_clog (by omega) _
  have hD1 : 0 < D := Nat.clog_pos (by omega) (by omega)
  have hpow2 : 2 ^ D ≤ 2 * (skip + N + 1) := by
    have h1 := Nat.pow_pred_clog_lt_self (b := 2) (by omega) (show 1 < skip + N + 1 by omega)
    rw [← hD] at h1
    have h2 : 2 ^ D = 2 * 2 ^ D.pred := by
      conv_lhs => rw [← Nat.succ_pred_eq_of_pos hD1, pow_succ]
      ring
    omega
  have hbound : (((2 : ℕ) : ℝ)) ^ D ≤ 2 * (κ + 2) * N := by
    have h1 : 2 ^ D ≤ 2 * (κ + 2) * N := by nlinarith
    have h2 : ((2 ^ D : ℕ) : ℝ) ≤ ((2 * (κ + 2) * N : ℕ) : ℝ) := by exact_mod_cast h1
    push_cast at h2 ⊢
    exact h2
  set p : Fin dim → ℕ → ℝ := fun c n => ((sobolSample table dim (2 ^ D) none none none false : List (List ℝ)).getD n []).getD c 0 with hp
  have hcell : ∀ c, ∀ j, j ≤ D → ∀ k n n', n < 2 ^ D → n' < 2 ^ D → n / 2 ^ j = n' / 2 ^ j → InCell 2 j k (p c n) → InCell 2 j k (p c n') → n = n' := by
    intro c j hj k n n' h1 h2 h3 h4 h5
    have hst := Props.C25_sobol_sample (K := ℝ) table hT dim (2 ^ D) c none (by simp) c.isLt hd
    have hj0 : 0 < 2 ^ j := Nat.two_pow_pos j
    have hk : k < 2 ^ j := by
      have h6 := lt_of_le_of_lt h4.1 (hst.2 n h1).2
      rw [div_lt_one (by positivity)] at h6
      exact_mod_cast h6
    have hb : (n / 2 ^ j + 1) * 2 ^ j ≤ 2 ^ D := by
      have h7 : n / 2 ^ j < 2 ^ (D - j) := by
        rw [Nat.div_lt_iff_lt_mul hj0, ← pow_add, Nat.sub_add_cancel hj]
        exact h1
      calc (n / 2 ^ j + 1) * 2 ^ j ≤ 2 ^ (D - j) * 2 ^ j := Nat.mul_le_mul_right _ h7
        _ = 2 ^ D := by rw [← pow_add, Nat.sub_add_cancel hj]
    obtain ⟨m, -, hm⟩ := hst.1 j (n / 2 ^ j) (Nat.zero_le _) hb k hk
    have inblock : ∀ l, l / 2 ^ j = n / 2 ^ j → n / 2 ^ j * 2 ^ j ≤ l ∧ l < (n / 2 ^ j + 1) * 2 ^ j := by
      intro l hl
      rw [← hl]
      have h8 := Nat.div_add_mod l (2 ^ j)
      have h9 := Nat.mod_lt l hj0
      have h10 : 2 ^ j * (l / 2 ^ j) = l / 2 ^ j * 2 ^ j := Nat.mul_comm _ _
      have h11 : (l / 2 ^ j + 1) * 2 ^ j = l / 2 ^ j * 2 ^ j + 2 ^ j := by ring
      constructor <;> omega
    rw [hm n ⟨inblock n rfl, h4⟩, hm n' ⟨inblock n' h3.symm, h5⟩]
  have hval : ∀ c : Fin dim, ∀ n, n < 2 ^ D → p c n = ((xorPoint (fun j => dirs table c j <<< (D - 1 - j)) 0 D n : ℕ) : ℝ) / ((2 : ℕ) : ℝ) ^ D := by
    intro c n hn
    have h1 := sobolSample_getD (K := ℝ) table hT dim (2 ^ D) c n n none none c.isLt hd (by simp [hn]) (by simp) false
    have h2 : Nat.clog 2 (2 ^ D) = D := Nat.clog_pow 2 D (by omega)
    have h3 : (List.replicate dim 0).getD (c : ℕ) 0 = 0 := by
      rw [List.getD_eq_getElem?_getD, List.getElem?_replicate]
      split <;> rfl
    rw [h2, toUnit_false, Option.getD_none, h3] at h1
    exact h1
  have hin : ∀ c, ∀ i, i < N → 1 / ((2 : ℕ) : ℝ) ^ D ≤ p c (skip + 1 + i) ∧ p c (skip + 1 + i) ≤ 1 - 1 / ((2 : ℕ) : ℝ) ^ D := by
    intro c i hi
    have hlt : skip + 1 + i < 2 ^ D := by omega
    have hv := hval c _ hlt
    have hu := (Props.sobol_points_unit table hT dim D hd (skip + 1 + i) hlt c).2
    have h0 := hval c 0 (Nat.two_pow_pos D)
    rw [xorPoint_zero, Nat.cast_zero, zero_div] at h0
    have hpD : (0 : ℝ) < ((2 : ℕ) : ℝ) ^ D := by positivity
    change p c (skip + 1 + i) < 1 at hu
    generalize xorPoint (fun j => dirs table c j <<< (D - 1 - j)) 0 D (skip + 1 + i) = w at hv
    have hw1 : w < 2 ^ D := by
      rw [hv, div_lt_one hpD] at hu
      exact_mod_cast hu
    have hw0 : 1 ≤ w := by
      by_contra hn
      have hw : w = 0 := by omega
      rw [hw, Nat.cast_zero, zero_div] at hv
      have hc0 : InCell 2 D 0 (0 : ℝ) := by
        refine ⟨by simp, ?_⟩
        simp
      have := hcell c D (le_refl _) 0 (skip + 1 + i) 0 hlt (Nat.two_pow_pos D) (by rw [Nat.div_eq_of_lt hlt, Nat.zero_div]) (by rw [hv]; exact hc0) (by rw [h0]; exact hc0)
      omega
    rw [hv]
    constructor
    · rw [div_le_div_iff_of_pos_right hpD]
      exact_mod_cast hw0
    · rw [le_sub_iff_add_le, ← add_div, div_le_one hpD]
      exact_mod_cast hw1
  have hpos : (0 : ℝ) < 1 / ((2 : ℕ) : ℝ) ^ D := by positivity
  refine ⟨fun n hn c => ?_, fun c δ hδ => ?_⟩
  · rw [hx n hn c]
    have := hin c n hn
    exact ⟨lt_of_lt_of_le hpos this.1, lt_of_le_of_lt this.2 (by linarith)⟩
  · have := few_near dim N (skip + 1) 2 D (by omega) (2 * (κ + 2)) hN hbound p c (hin c)
      (fun j hj k n n' _ h2 _ h4 => hcell c j hj k n n' (by omega) (by omega)) δ hδ
    have e : (Finset.range N).filter (fun n => x n c ≤ δ ∨ 1 - δ ≤ x n c) = (Finset.range N).filter (fun i => p c (skip + 1 + i) ≤ δ ∨ 1 - δ ≤ p c (skip + 1 + i)) := by
      refine Finset.filter_congr fun n hn => ?_
      rw [hx n (Finset.mem_range.1 hn) c]
    rw [e]
    exact this

/-- Digits beyond the last one of the number do not matter. -/
theorem rev_extend (b n D t : ℕ) (hb : 0 < b) (hn : n < b ^ D) : rev b (fun _ d => d) n (D + t) = rev b (fun _ d => d) n D * b ^ t := by
  induction t with
  | zero => simp
  | succ t ih =>
    rw [← Nat.add_assoc, rev, ih, Nat.div_eq_of_lt (lt_of_lt_of_le hn (Nat.pow_le_pow_right hb (by omega))), Nat.zero_mod, Nat.add_zero, pow_succ, Nat.mul_assoc]

theorem digitPerms_id (b S : ℕ) : DigitPerms b S (fun _ d => d) := fun _ _ => ⟨fun _ hd => hd, fun _ _ _ _ h => h⟩

theorem haltonRun_value (radixes sizes : List Nat) (r : Option (List Nat × List ℝ)) (skip N n : ℕ) (hn : n < N) (c : ℕ) (hc : c < radixes.length) :
    ((haltonSample radixes sizes 0 (some ((List.range N).map (skip + ·))) r).getD n []).getD c 0 = haltonValue radixes sizes r (skip + n + 1) c :=
  sample_entry radixes sizes 0 _ r n (skip + n) c (by simp [hn]) hc

/-- Averages over runs of Halton points of functions that are continuous on the closed cube, uniformly in the start and the randomization. -/
theorem haltonRun_limit (radixes : List Nat) (plain : Bool) (g : (Fin radixes.length → ℝ) → ℝ) (hg : ContinuousOn g (Set.Icc 0 1)) :
    AverageLimit radixes.length (fun N x => ∃ skip, HaltonRun radixes plain skip N x) g (∫ u in unitCube radixes.length, g u) := by
  obtain ⟨B, hB⟩ := isCompact_Icc.exists_bound_of_continuousOn hg
  have hsub : ∀ u, u ∈ unitCube radixes.length → u ∈ Set.Icc (0 : Fin radixes.length → ℝ) 1 := fun u hu => ⟨fun c => (hu c).1, fun c => (hu c).2.le⟩
  have hB' : ∀ u, u ∈ unitCube radixes.length → |g u| ≤ |B| := fun u hu => le_trans (hB u (hsub u hu)) (le_abs_self B)
  have hI := cube_integral_le radixes.length g |B| hB'
  intro ε hε
  obtain ⟨δ, hδ, hu⟩ := Metric.uniformContinuousOn_iff.1 (isCompact_Icc.uniformContinuousOn_of_continuous hg) (ε / 2) (by linarith)
  obtain ⟨K, hK⟩ := exists_pow_lt_of_lt_one hδ (by norm_num : (1 / 2 : ℝ) < 1)
  set M : ℕ := ∏ c : Fin radixes.length, radixes.getD c 0 ^ K with hM
  have hMr : (∏ c : Fin radixes.length, (radixes.getD c 0 : ℝ) ^ K) = (M : ℝ) := by rw [hM]; push_cast; rfl
  obtain ⟨N1, hN1⟩ := exists_nat_gt (2 * |B| * M / (ε / 2))
  refine ⟨max (max M N1) 1, fun N hN x ⟨skip, sizes, r, h, hsize, hr, _, hx⟩ => ?_⟩
  have h1 : M ≤ N := le_trans (le_trans (le_max_left _ _) (le_max_left _ _)) hN
  have h2 : N1 ≤ N := le_trans (le_trans (le_max_right _ _) (le_max_left _ _)) hN
  have h3 : 1 ≤ N := le_trans (le_max_right _ _) hN
  have hb1 : ∀ c : Fin radixes.length, 1 < radixes.getD c 0 := fun c => h.base c c.isLt
  have hb : ∀ c : Fin radixes.length, 0 < radixes.getD c 0 := fun c => by have := hb1 c; omega
  have hdM : ∀ c : Fin radixes.length, radixes.getD c 0 ^ K ≤ M := by
    intro c
    exact Nat.le_of_dvd (Finset.prod_pos fun c _ => Nat.pow_pos (hb c)) (Finset.dvd_prod_of_mem _ (Finset.mem_univ c))
  have hd : ∀ c : Fin radixes.length, K ≤ sizes.getD c 0 := by
    intro c
    have hs := hsize c c.isLt
    have : radixes.getD c 0 ^ K ≤ radixes.getD c 0 ^ sizes.getD c 0 := le_trans (hdM c) (by omega)
    exact (Nat.pow_le_pow_iff_right (hb1 c)).1 this
  choose π u hπ hu0 hu1 hval using fun c : Fin radixes.length => halton_form radixes sizes h r hr c c.isLt
  have hxv : ∀ n, n < N → ∀ c : Fin radixes.length, x n c = (((rev (radixes.getD c 0) (π c) (skip + n + 1) (sizes.getD c 0) : Nat) : ℝ) + u c) /
      ((radixes.getD c 0 : Nat) : ℝ) ^ sizes.getD c 0 := by
    intro n hn c
    rw [hx n hn c, haltonRun_value radixes sizes r skip N n hn c c.isLt, hval c]
  have key := runs_sum radixes.length (fun c => radixes.getD c 0) (fun _ => K) hb N x
    (fun n hn c => by
      rw [hxv n hn c]
      exact rev_range _ _ (hb1 c) (π c) (hπ c) (u c) (hu0 c) (hu1 c) _)
    (fun a ha k => by
      obtain ⟨m, ⟨⟨a1, a2⟩, a3⟩, a4⟩ := rev_boxes radixes.length (fun c => radixes.getD c 0) (fun _ => K) (fun c => sizes.getD c 0) π hb hd hπ
        (fun c c' hne => h.coprime c c' c.isLt c'.isLt (fun e => hne (Fin.ext e))) (skip + a + 1) (fun c => k c) (fun c => (k c).isLt)
      have hcell : ∀ n, n < N → ∀ c : Fin radixes.length, (InCell (radixes.getD c 0) K (k c) (x n c) ↔ rev (radixes.getD c 0) (π c) (skip + n + 1) K = k c) := by
        intro n hn c
        rw [hxv n hn c, inCell_add_iff _ _ _ _ _ _ (hu0 c) (hu1 c) (hb c) (hd c)]
        have := rev_div _ _ (π c) (hb c) (hπ c) (skip + n + 1) K (sizes.getD c 0 - K) (by have := hd c; omega)
        rw [show K + (sizes.getD c 0 - K) = sizes.getD c 0 by have := hd c; omega] at this
        rw [this]
      refine ⟨m - 1 - skip, ⟨⟨by omega, by omega⟩, fun c => (hcell (m - 1 - skip) (by omega) c).2 (by rw [show skip + (m - 1 - skip) + 1 = m by omega]; exact a3 c)⟩, ?_⟩
      rintro n ⟨⟨h5, h6⟩, h7⟩
      have := a4 (skip + n + 1) ⟨⟨by omega, by omega⟩, fun c => (hcell n (by omega) c).1 (h7 c)⟩
      omega)
    g (ε / 2) |B| (by linarith)
    (fun u v hu' hv' hc => by
      have := hu u (hsub u hu') v (hsub v hv') (by
        rw [dist_pi_lt_iff hδ]
        intro c
        rw [Real.dist_eq]
        refine lt_of_le_of_lt (hc c) (lt_of_le_of_lt ?_ hK)
        rw [one_div_pow]
        refine one_div_le_one_div_of_le (by positivity) (pow_le_pow_left₀ (by norm_num) ?_ _)
        exact_mod_cast hb1 c)
      rw [Real.dist_eq] at this
      exact this.le)
    hB' hI (cube_integrable _ g hg)
  rw [hMr] at key
  have hNr : (0 : ℝ) < N := by exact_mod_cast h3
  rw [show (∑ n ∈ Finset.range N, g (x n)) / N - ∫ u in unitCube radixes.length, g u =
    ((∑ n ∈ Finset.range N, g (x n)) - N * ∫ u in unitCube radixes.length, g u) / N by field_simp, abs_div, abs_of_pos hNr, div_le_iff₀ hNr]
  refine le_trans key ?_
  rw [div_lt_iff₀ (by linarith)] at hN1
  have : (N1 : ℝ) ≤ N := by exact_mod_cast h2
  nlinarith

/-- The points of a run of the plain Halton sequence: strictly inside the cube and not too many near the boundary. -/
theorem haltonRun_few (radixes : List Nat) (κ skip N : ℕ) (hskip : skip ≤ κ * N) (x : ℕ → Fin radixes.length → ℝ) (hx : HaltonRun radixes true skip N x) :
    FewNearBoundary radixes.length ((3 + 6 * (κ + 2)) * ∑ c : Fin radixes.length, (radixes.getD c 0 : ℝ)) N x := by
  rcases Nat.eq_zero_or_pos N with hN | hN
  · subst hN
    exact ⟨fun n hn => absurd hn (by omega), fun c δ _ => by simp⟩
  obtain ⟨sizes, r, h, hsize, -, hr, hx⟩ := hx
  have hr := hr rfl
  subst hr
  have hNr : (0 : ℝ) < N := by exact_mod_cast hN
  set D : Fin radixes.length → ℕ := fun c => Nat.clog (radixes.getD c 0) (skip + N + 1) with hD
  have hb1 : ∀ c : Fin radixes.length, 1 < radixes.getD c 0 := fun c => h.base c c.isLt
  have hpow : ∀ c : Fin radixes.length, skip + N + 1 ≤ radixes.getD c 0 ^ D c := fun c => Nat.le_pow_clog (hb1 c) _
  have hD1 : ∀ c, 0 < D c := fun c => Nat.clog_pos (hb1 c) (by omega)
  have hDs : ∀ c : Fin radixes.length, D c ≤ sizes.getD c 0 := fun c => (Nat.clog_le_iff_le_pow (hb1 c)).2 (hsize c c.isLt)
  have hbound : ∀ c : Fin radixes.length, ((radixes.getD c 0 : ℕ) : ℝ) ^ D c ≤ ((radixes.getD c 0 : ℕ) * (κ + 2) : ℝ) * N := by
    intro c
    have h1 := Nat.pow_pred_clog_lt_self (hb1 c) (show 1 < skip + N + 1 by omega)
    have h2 : radixes.getD c 0 ^ D c = radixes.getD c 0 * radixes.getD c 0 ^ (D c).pred := by
      conv_lhs => rw [← Nat.succ_pred_eq_of_pos (hD1 c), pow_succ]
      ring
    have h3 : radixes.getD c 0 ^ D c ≤ radixes.getD c 0 * (κ + 2) * N := by
      rw [h2, Nat.mul_assoc]
      refine Nat.mul_le_mul_left _ ?_
      have h4 : radixes.getD c 0 ^ (D c).pred < skip + N + 1 := h1
      nlinarith
    have h5 : ((radixes.getD c 0 ^ D c : ℕ) : ℝ) ≤ ((radixes.getD c 0 * (κ + 2) * N : ℕ) : ℝ) := by exact_mod_cast h3
    push_cast at h5
    exact h5
  set p : Fin radixes.length → ℕ → ℝ := fun c n => ((rev (radixes.getD c 0) (fun _ d => d) n (D c) : ℕ) : ℝ) / ((radixes.getD c 0 : ℕ) : ℝ) ^ D c with hp
  have hxv : ∀ n, n < N → ∀ c, x n c = p c (skip + 1 + n) := by
    intro n hn c
    have hbr : (0 : ℝ) < ((radixes.getD c 0 : ℕ) : ℝ) := by exact_mod_cast (by have := hb1 c; omega : 0 < radixes.getD c 0)
    rw [hx n hn c, haltonRun_value radixes sizes none skip N n hn c c.isLt, value_plain radixes sizes c _ (by have := hb1 c; omega) (by rw [h.length]; exact c.isLt)]
    have hsz : sizes.getD c 0 = D c + (sizes.getD c 0 - D c) := by have := hDs c; omega
    have e : skip + n + 1 = skip + 1 + n := by omega
    have hp1 := hpow c
    rw [hsz, e, rev_extend _ _ _ _ (by have := hb1 c; omega) (by omega), pow_add, Nat.cast_mul, Nat.cast_pow]
    simp only [hp]
    rw [mul_div_mul_right _ _ (by positivity)]
  have hbpos : ∀ c : Fin radixes.length, 0 < radixes.getD c 0 := fun c => by have := hb1 c; omega
  have hin : ∀ c : Fin radixes.length, ∀ i, i < N → 1 / ((radixes.getD c 0 : ℕ) : ℝ) ^ D c ≤ p c (skip + 1 + i) ∧ p c (skip + 1 + i) ≤ 1 - 1 / ((radixes.getD c 0 : ℕ) : ℝ) ^ D c := by
    intro c i hi
    have hbr : (0 : ℝ) < ((radixes.getD c 0 : ℕ) : ℝ) := by exact_mod_cast hbpos c
    have hp1 := hpow c
    have hw1 := rev_lt (radixes.getD c 0) (D c) _ (hbpos c) (digitPerms_id _ _) (skip + 1 + i) (D c) (le_refl _)
    have hw0 : 1 ≤ rev (radixes.getD c 0) (fun _ d => d) (skip + 1 + i) (D c) := by
      by_contra hn
      have hz : ∀ m, rev (radixes.getD c 0) (fun _ d => d) 0 m = 0 := by
        intro m
        induction m with
        | zero => rfl
        | succ m ih => rw [rev, ih]; simp
      have := rev_inj (radixes.getD c 0) (D c) _ (hbpos c) (digitPerms_id _ _) (skip + 1 + i) 0 (D c) (le_refl _) (by rw [hz]; omega)
      rw [Nat.mod_eq_of_lt (by omega), Nat.zero_mod] at this
      omega
    simp only [hp]
    constructor
    · rw [div_le_div_iff_of_pos_right (by positivity)]
      exact_mod_cast hw0
    · rw [le_sub_iff_add_le, ← add_div, div_le_one (by positivity)]
      exact_mod_cast hw1
  refine ⟨fun n hn c => ?_, fun c δ hδ => ?_⟩
  · rw [hxv n hn c]
    have := hin c n hn
    have hpos : (0 : ℝ) < 1 / ((radixes.getD c 0 : ℕ) : ℝ) ^ D c := by
      have hbr : (0 : ℝ) < ((radixes.getD c 0 : ℕ) : ℝ) := by exact_mod_cast hbpos c
      positivity
    exact ⟨lt_of_lt_of_le hpos this.1, lt_of_le_of_lt this.2 (by linarith)⟩
  · have := few_near radixes.length N (skip + 1) (radixes.getD c 0) (D c) (hb1 c) _ hN (hbound c) p c (hin c)
      (fun j hj k n n' _ h2 _ h4 h5 h6 h7 => by
        have hc1 : ∀ m, InCell (radixes.getD c 0) j k (p c m) → rev (radixes.getD c 0) (fun _ d => d) m j = k := by
          intro m hm
          have hm' : InCell (radixes.getD c 0) j k ((((rev (radixes.getD c 0) (fun _ d => d) m (D c) : ℕ) : ℝ) + 0) / ((radixes.getD c 0 : ℕ) : ℝ) ^ D c) := by
            rw [add_zero]; exact hm
          rw [inCell_add_iff _ _ _ _ _ _ (le_refl _) zero_lt_one (hbpos c) hj] at hm'
          have := rev_div _ (D c) (fun _ d => d) (hbpos c) (digitPerms_id _ _) m j (D c - j) (by omega)
          rw [show j + (D c - j) = D c by omega] at this
          rw [← this]
          exact hm'
        have hmod := rev_inj (radixes.getD c 0) (D c) _ (hbpos c) (digitPerms_id _ _) n n' j hj (by rw [hc1 n h6, hc1 n' h7])
        rw [← Nat.div_add_mod n (radixes.getD c 0 ^ j), ← Nat.div_add_mod n' (radixes.getD c 0 ^ j), h5, hmod]) δ hδ
    have e : (Finset.range N).filter (fun n => x n c ≤ δ ∨ 1 - δ ≤ x n c) = (Finset.range N).filter (fun i => p c (skip + 1 + i) ≤ δ ∨ 1 - δ ≤ p c (skip + 1 + i)) := by
      refine Finset.filter_congr fun n hn => ?_
      rw [hxv n (Finset.mem_range.1 hn) c]
    rw [e]
    refine le_trans this ?_
    have hle : (radixes.getD c 0 : ℝ) ≤ ∑ c : Fin radixes.length, (radixes.getD c 0 : ℝ) :=
      Finset.single_le_sum (f := fun c : Fin radixes.length => (radixes.getD c 0 : ℝ)) (fun c _ => Nat.cast_nonneg _) (Finset.mem_univ c)
    have e2 : (3 * ((radixes.getD c 0 : ℕ) : ℝ) + 6 * (((radixes.getD c 0 : ℕ) : ℝ) * (κ + 2))) = (3 + 6 * (κ + 2)) * (radixes.getD c 0 : ℝ) := by ring
    rw [e2]
    refine mul_le_mul_of_nonneg_right (mul_le_mul_of_nonneg_right (mul_le_mul_of_nonneg_left hle (by positivity)) hδ.le) hNr.le

end Lemmas
