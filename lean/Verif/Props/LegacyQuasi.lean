import Verif.Props.LegacyBrownian
import Verif.Props.RandomOpsQuasi
import Verif.Model.Halton
import Mathlib.Tactic.FieldSimp

/-! # C104: the legacy Brownian motion, exact sampling with quasi random numbers -/

namespace Props
open Model
open scoped BigOperators

namespace LegacyBm

/-- In base two the point `2 ^ q` places after an early point is a fixed distance above it. -/
theorem halton_shift (S q n : Nat) (hq : q < S) (hn : n < 2 ^ q) :
    (haltonValue [2] [S] none (n + 2 ^ q) 0 : ℝ) = haltonValue [2] [S] none n 0 + 1 / 2 ^ (q + 1) := by
  simp only [haltonValue, List.getD_cons_zero, List.foldl_cons, List.foldl_nil, Nat.zero_max]
  have key : ∀ k, k ≤ S → ((List.range k).map fun e => ((haltonCoeff 2 S (n + 2 ^ q) e : Nat) : ℝ) / ((2 : Nat) : ℝ) / ((haltonWeight 2 S e : Nat) : ℝ)).sum =
      ((List.range k).map fun e => ((haltonCoeff 2 S n e : Nat) : ℝ) / ((2 : Nat) : ℝ) / ((haltonWeight 2 S e : Nat) : ℝ)).sum + if q < k then 1 / 2 ^ (q + 1) else 0 := by
    intro k hk
    induction k with
    | zero => simp
    | succ k ih =>
      have hw : haltonWeight 2 S k = 2 ^ k := by
        unfold haltonWeight
        rw [if_neg (by omega)]
      have hc : ∀ i, haltonCoeff 2 S i k = i / 2 ^ k % 2 := by
        intro i
        simp only [haltonCoeff]
        rw [if_neg (by omega), if_neg (by omega), Nat.mul_one]
      rw [List.range_succ, List.map_append, List.sum_append, List.map_append, List.sum_append, ih (by omega)]
      simp only [List.map_cons, List.map_nil, List.sum_cons, List.sum_nil, add_zero, hw, hc]
      rcases Nat.lt_trichotomy k q with h | h | h
      · have e : (n + 2 ^ q) / 2 ^ k % 2 = n / 2 ^ k % 2 := by
          rw [show 2 ^ q = 2 ^ (q - k) * 2 ^ k by rw [← pow_add]; congr 1; omega, Nat.add_mul_div_right _ _ (by positivity),
            show 2 ^ (q - k) = 2 * 2 ^ (q - k - 1) by rw [← pow_succ']; congr 1; omega, Nat.add_mul_mod_self_left]
        rw [e, if_neg (by omega), if_neg (by omega)]
        ring
      · subst h
        have e1 : (n + 2 ^ k) / 2 ^ k % 2 = 1 := by
          rw [Nat.add_div_right _ (by positivity), Nat.div_eq_of_lt hn]
        have e2 : n / 2 ^ k % 2 = 0 := by rw [Nat.div_eq_of_lt hn]
        rw [e1, e2, if_neg (by omega), if_pos (by omega)]
        push_cast
        rw [pow_succ]
        field_simp
        ring
      · have hlt : n + 2 ^ q < 2 ^ k := by
          have : 2 ^ (q + 1) ≤ 2 ^ k := Nat.pow_le_pow_right (by norm_num) h
          rw [pow_succ] at this
          omega
        rw [Nat.div_eq_of_lt hlt, Nat.div_eq_of_lt (by omega), if_pos h, if_pos (by omega)]
        ring
  have := key S le_rfl
  rw [if_pos hq] at this
  exact this

end LegacyBm

/-- **C104, exact sampling with quasi random numbers.** Path `n` at time number `m` is driven by the point number `m * N + n`: all times use the same coordinates of the
points. -/
theorem C104_quasi (src : RandomSource) (hsrc : src.Valid) (chol : Model.NdArray ℝ → Model.NdArray ℝ) (N k dim : Nat) (hdim : 0 < dim) (seed : Option Seed)
    (D C : Model.NdArray ℝ) (hD : D.shape = [k, dim]) (hL : (chol C).shape = [k, dim, dim]) :
    ∃ draws, multivariateNormal src chol 0 [N] (some D) (some C) none (some .halton) seed = .ok draws ∧ draws.shape = [N, k, dim] ∧
      ∀ n m j, n < N → m < k → j < dim → draws.get [n, m, j] = D.get [m, j] + ∑ l ∈ Finset.range dim, (chol C).get [m, j, l] *
        (erfinv (((src.halton dim (List.range (N * k)) false seed).get [m * N + n, l] - 0.5) * 2) * Real.sqrt 2) := by
  have hfit : RandomOps.Fits [k] dim (some D) (mvnScale chol (some C) none) := by
    refine ⟨fun m hm => ?_, fun l hl => ?_, Or.inl (by simp)⟩
    · rw [← Option.some.inj hm]
      exact hD
    · refine ⟨[], [k], rfl, ?_, fun _ => rfl⟩
      simp only [mvnScale, Option.map_some, Option.some.injEq] at hl
      rw [← hl, hL]
      rfl
  obtain ⟨r, z, h1, h2, h3, h4⟩ := C103_quasi src hsrc chol 0 [N] [k] dim hdim (some D) (some C) none seed 0 (Or.inr rfl) hfit .halton
    (src.halton dim (List.range (N * k)) false seed) (Or.inr (Or.inl ⟨rfl, by simp⟩))
  refine ⟨r, h1, h2, fun n m j hn hm hj => ?_⟩
  have := h3 [n] [m] j (LegacyBrownian.valid_one hn) (LegacyBrownian.valid_one hm) hj
  refine this.trans ?_
  congr 1
  refine Finset.sum_congr rfl fun l hl => ?_
  rw [h4 [n] [m] l (LegacyBrownian.valid_one hn) (LegacyBrownian.valid_one hm) (Finset.mem_range.1 hl)]
  congr 1
  · simp [RandomOps.scaleValue, mvnScale, hL]
  · congr 6
    simp [RandomOps.position, flatIndex]

/-- **C104, quasi random numbers deviate.** In one dimension with `2 ^ q` paths, the uniform number of a path for the second time is that for the first time plus
`1 / 2 ^ (q + 1)`: the second increment of a path is a function of the first one. -/
theorem C104_quasi_deviates (src : RandomSource) (hsrc : src.Valid) (chol : Model.NdArray ℝ → Model.NdArray ℝ) (q S : Nat) (hq : q < S) (seed : Option Seed)
    (hh : ∀ indices p i, indices[p]? = some i → (src.halton 1 indices false seed).get [p, 0] = haltonValue [2] [S] none (i + 1) 0)
    (D C : Model.NdArray ℝ) (hD : D.shape = [2, 1]) (hL : (chol C).shape = [2, 1, 1]) :
    ∃ draws, multivariateNormal src chol 0 [2 ^ q] (some D) (some C) none (some .halton) seed = .ok draws ∧ draws.shape = [2 ^ q, 2, 1] ∧
      ∃ u : Nat → ℝ, ∀ n, n + 1 < 2 ^ q →
        draws.get [n, 0, 0] = D.get [0, 0] + (chol C).get [0, 0, 0] * (erfinv ((u n - 0.5) * 2) * Real.sqrt 2) ∧
        draws.get [n, 1, 0] = D.get [1, 0] + (chol C).get [1, 0, 0] * (erfinv ((u n + 1 / 2 ^ (q + 1) - 0.5) * 2) * Real.sqrt 2) := by
  obtain ⟨draws, h1, h2, h3⟩ := C104_quasi src hsrc chol (2 ^ q) 2 1 (by norm_num) seed D C hD hL
  refine ⟨draws, h1, h2, fun n => haltonValue [2] [S] none (n + 1) 0, fun n hn => ⟨?_, ?_⟩⟩
  · rw [h3 n 0 0 (by omega) (by norm_num) (by norm_num), Finset.sum_range_one, hh _ _ n ?_]
    rw [Nat.zero_mul, Nat.zero_add, List.getElem?_range (by omega)]
  · rw [h3 n 1 0 (by omega) (by norm_num) (by norm_num), Finset.sum_range_one, hh _ _ (2 ^ q + n) ?_]
    · rw [show 2 ^ q + n + 1 = n + 1 + 2 ^ q by omega, LegacyBm.halton_shift S q (n + 1) hq hn]
    · rw [Nat.one_mul, List.getElem?_range (by omega)]

end Props
