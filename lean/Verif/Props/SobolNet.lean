import Verif.Model.SobolData
import Verif.Lemmas.SobolNet
import Verif.Lemmas.NetIntegral
import Verif.Props.Scrambling

/-! # C120 Sobol points are nets in several dimensions and integrate continuous functions -/

namespace Spec

/-- A line `[d, s, a, m_1, ..., m_s]` of the data file as published: `s` at least 1, `a` with `s - 1` binary digits, odd
numbers `m_i < 2^i`. -/
def DataLine (tokens : List Nat) : Prop :=
  1 ≤ tokens.getD 1 0 ∧ tokens.getD 2 0 < 2 ^ (tokens.getD 1 0 - 1) ∧ tokens.length = tokens.getD 1 0 + 3 ∧
    ∀ i, i < tokens.getD 1 0 → tokens.getD (i + 3) 0 % 2 = 1 ∧ tokens.getD (i + 3) 0 < 2 ^ (i + 1)

end Spec

namespace Lemmas
open Model Spec Polynomial

theorem bitPoly_xor_shift (a b k : ℕ) : bitPoly (a ^^^ (b <<< k)) = bitPoly a + X ^ k * bitPoly b := by
  ext i
  rw [coeff_add, coeff_X_pow_mul', bitPoly_coeff, bitPoly_coeff, Nat.testBit_xor, bitF_xor, Nat.testBit_shiftLeft]
  congr 1
  by_cases h : k ≤ i
  · rw [if_pos h, bitPoly_coeff, decide_eq_true h, Bool.true_and]
  · rw [if_neg h, decide_eq_false h, Bool.false_and]; rfl

theorem bitPoly_one : bitPoly 1 = 1 := by
  ext i
  rw [bitPoly_coeff, coeff_one]
  rcases Nat.eq_zero_or_pos i with h | h
  · subst h; rfl
  · rw [if_neg (by omega), Nat.testBit_lt_two_pow (lt_of_lt_of_le (by norm_num : 1 < 2 ^ 1) (Nat.pow_le_pow_right (by omega) h))]; rfl

/-- Euclid's algorithm on codes of polynomials. -/
def coprimeCheck : ℕ → ℕ → ℕ → Bool
  | 0, _, _ => false
  | fuel + 1, a, b =>
    if a = 1 ∨ b = 1 then true
    else if b.log2 ≤ a.log2 then coprimeCheck fuel (a ^^^ (b <<< (a.log2 - b.log2))) b
    else coprimeCheck fuel a (b ^^^ (a <<< (b.log2 - a.log2)))

theorem coprimeCheck_sound (fuel a b : ℕ) (h : coprimeCheck fuel a b = true) : IsCoprime (bitPoly a) (bitPoly b) := by
  induction fuel generalizing a b with
  | zero => cases h
  | succ fuel ih =>
    unfold coprimeCheck at h
    split at h
    · next h1 =>
      rcases h1 with rfl | rfl
      · rw [bitPoly_one]; exact isCoprime_one_left
      · rw [bitPoly_one]; exact isCoprime_one_right
    · split at h
      · have := ih _ _ h
        rw [bitPoly_xor_shift] at this
        exact this.of_add_mul_right_left
      · have := ih _ _ h
        rw [bitPoly_xor_shift] at this
        exact this.of_add_mul_right_right

/-- Scrambling and shifting the columns keeps nets. -/
theorem net_scrambled {K : Type} [Field K] [LinearOrder K] [IsStrictOrderedRing K] (t m s D N : ℕ) (C : ℕ → ℕ → ℕ) (S : ℕ → ℕ → ℕ) (sh : ℕ → ℕ)
    (hS : ∀ c, c < s → UnitDiagonal D (S c)) (hsh : ∀ c, c < s → sh c < 2 ^ D) (hC : ∀ c, c < s → ∀ j, j < D → C c j < 2 ^ D) (hmD : m ≤ D) (o : ℕ)
    (h : IsNet t m s N (fun n c => ((xorPoint (C c) 0 D (o + n) : ℕ) : K) / ((2 : ℕ) : K) ^ D)) :
    IsNet t m s N (fun n c => ((xorPoint (fun j => scr (S c) D D (C c j)) (sh c) D (o + n) : ℕ) : K) / ((2 : ℕ) : K) ^ D) := by
  intro d hd k' hk'
  have hdD : ∀ c, d c ≤ D := fun c => by
    have := Finset.single_le_sum (f := d) (fun i _ => Nat.zero_le _) (Finset.mem_univ c)
    omega
  choose k hk1 hk2 using fun c : Fin s => cell_permutation (S c) D (d c) (sh c) (hS c c.isLt) (hdD c) (hsh c c.isLt) (k' c) (hk' c)
  obtain ⟨T, hT1, hT2⟩ := h d hd k hk1
  refine ⟨T, hT1, fun n => ?_⟩
  rw [hT2 n]
  refine and_congr_right fun _ => forall_congr' fun c => ?_
  rw [inCell_iff 2 D (d c) _ _ (by omega) (hdD c), inCell_iff 2 D (d c) _ _ (by omega) (hdD c), xorPoint_scr]
  exact (hk2 c _ (xorPoint_lt _ _ _ _ _ (Nat.two_pow_pos _) (hC c c.isLt))).symm

theorem net_congr {K : Type} [Field K] [LinearOrder K] (t m s N : ℕ) (x y : ℕ → ℕ → K) (h : ∀ n, n < N → ∀ c, c < s → x n c = y n c)
    (hx : IsNet t m s N x) : IsNet t m s N y := by
  intro d hd k hk
  obtain ⟨S, h1, h2⟩ := hx d hd k hk
  refine ⟨S, h1, fun n => ?_⟩
  rw [h2 n]
  refine and_congr_right fun hn => forall_congr' fun c => ?_
  rw [h n hn c c.isLt]

end Lemmas

namespace Props
open Model Spec Lemmas Polynomial MeasureTheory Filter

section
variable {K : Type} [Field K] [LinearOrder K] [IsStrictOrderedRing K]

/-- C120 (`qmc/sobol.py`): if the polynomials of the coordinates are pairwise coprime, every aligned block of `2^m` points
of `sobol_sample`, plain or with a digital shift, is a `(t, m, dim)`-net in base 2, where `t` is the sum of the degrees
minus one. -/
theorem C120_sobol_sample (table : List (Nat × List Nat)) (hT : ∀ q ∈ table, ValidEntry q) (dim N m q t : Nat)
    (shift : Option (List Nat)) (hsh : ∀ s, shift = some s → s.length = dim ∧ ∀ x ∈ s, x < 2 ^ Nat.clog 2 N)
    (hd : dim ≤ table.length + 1) (hcop : CoprimeCodes table dim) (ht : netQuality table dim ≤ t) (hq : (q + 1) * 2 ^ m ≤ N) :
    IsNet t m dim (2 ^ m)
      (fun n c => ((sobolSample table dim N none shift none false : List (List K)).getD (q * 2 ^ m + n) []).getD c 0) := by
  have hs1 : (shift.getD (List.replicate dim 0)).length = dim := by
    cases shift with
    | none => simp
    | some s => exact (hsh s rfl).1
  have hs2 : ∀ c, c < dim → (shift.getD (List.replicate dim 0)).getD c 0 < 2 ^ Nat.clog 2 N := by
    intro c hc
    cases shift with
    | none =>
      simp only [Option.getD_none]
      rw [List.getD_eq_getElem?_getD, List.getElem?_replicate]
      split <;> exact Nat.two_pow_pos _
    | some s =>
      obtain ⟨h1, h2⟩ := hsh s rfl
      simp only [Option.getD_some]
      have hcs : c < s.length := by omega
      rw [List.getD_eq_getElem?_getD, List.getElem?_eq_getElem hcs]
      exact h2 _ (List.getElem_mem hcs)
  refine net_congr t m dim (2 ^ m) _ _ (fun n hn c hc => ?_)
    (sobol_net_core (K := K) table hT dim m q (Nat.clog 2 N) t (fun c => (shift.getD (List.replicate dim 0)).getD c 0) hs2 hd hcop ht
      (le_trans hq (Nat.le_pow_clog (by omega) N)))
  have hlt : q * 2 ^ m + n < N := by
    have : (q + 1) * 2 ^ m = q * 2 ^ m + 2 ^ m := by ring
    omega
  rw [sobolSample_getD table hT dim N c _ _ none shift hc hd (range_get N _ hlt) hs1, toUnit_false]

/-- C120: with scrambling matrices as drawn by `random_scrambling_matrices` and a digital shift the blocks stay nets. -/
theorem C120_scrambled (table : List (Nat × List Nat)) (hT : ∀ q ∈ table, ValidEntry q) (dim N m q t : Nat)
    (scrambling : List (List Nat)) (hscr : scrambling.length = dim ∧ ∀ s ∈ scrambling, ValidScrambling (Nat.clog 2 N) s)
    (shift : Option (List Nat)) (hsh : ∀ s, shift = some s → s.length = dim ∧ ∀ x ∈ s, x < 2 ^ Nat.clog 2 N) (hdim : 0 < dim)
    (hd : dim ≤ table.length + 1) (hcop : CoprimeCodes table dim) (ht : netQuality table dim ≤ t) (hq : (q + 1) * 2 ^ m ≤ N) :
    IsNet t m dim (2 ^ m)
      (fun n c => ((sobolSample table dim N none shift (some scrambling) false : List (List K)).getD (q * 2 ^ m + n) []).getD c 0) := by
  have hs1 : (shift.getD (List.replicate dim 0)).length = dim := by
    cases shift with
    | none => simp
    | some s => exact (hsh s rfl).1
  have hs2 : ∀ c, c < dim → (shift.getD (List.replicate dim 0)).getD c 0 < 2 ^ Nat.clog 2 N := by
    intro c hc
    cases shift with
    | none =>
      simp only [Option.getD_none]
      rw [List.getD_eq_getElem?_getD, List.getElem?_replicate]
      split <;> exact Nat.two_pow_pos _
    | some s =>
      obtain ⟨h1, h2⟩ := hsh s rfl
      simp only [Option.getD_some]
      have hcs : c < s.length := by omega
      rw [List.getD_eq_getElem?_getD, List.getElem?_eq_getElem hcs]
      exact h2 _ (List.getElem_mem hcs)
  have hND := Nat.le_pow_clog (by omega : 1 < 2) N
  have hmD : m ≤ Nat.clog 2 N := by
    have : 2 ^ m ≤ 2 ^ Nat.clog 2 N := le_trans (Nat.le_mul_of_pos_left _ (by omega)) (le_trans hq hND)
    exact (Nat.pow_le_pow_iff_right (by omega)).1 this
  have hget : ∀ c, c < dim → ValidScrambling (Nat.clog 2 N) (scrambling.getD c []) := by
    intro c hc
    have hcs : c < scrambling.length := by omega
    rw [List.getD_eq_getElem?_getD, List.getElem?_eq_getElem hcs]
    exact hscr.2 _ (List.getElem_mem hcs)
  have hcore := sobol_net_core (K := K) table hT dim m q (Nat.clog 2 N) t (fun _ => 0) (fun _ _ => Nat.two_pow_pos _) hd hcop ht (le_trans hq hND)
  have hcols : ∀ c, c < dim → ∀ j, j < Nat.clog 2 N → dirs table c j <<< (Nat.clog 2 N - 1 - j) < 2 ^ Nat.clog 2 N := fun c hc j hj =>
    (triangular_of_odd (Nat.clog 2 N) (Nat.clog 2 N) (dirs table c) (le_refl _) (fun j _ => dirs_odd table hT c (by omega) j) j hj).1
  refine net_congr t m dim (2 ^ m) _ _ (fun n hn c hc => ?_)
    (net_scrambled t m dim (Nat.clog 2 N) (2 ^ m) (fun c j => dirs table c j <<< (Nat.clog 2 N - 1 - j)) (fun c k => (scrambling.getD c []).getD k 0)
      (fun c => (shift.getD (List.replicate dim 0)).getD c 0) (fun c hc => unitDiagonal_of_valid _ _ (hget c hc)) hs2 hcols hmD (q * 2 ^ m) hcore)
  have hlt : q * 2 ^ m + n < N := by
    have : (q + 1) * 2 ^ m = q * 2 ^ m + 2 ^ m := by ring
    omega
  have hlen := sobolMatrices_length table dim N (Nat.clog 2 N) hdim hd
  have hlen2 : (List.zipWith (fun s c => scrambleMatrix s (Nat.clog 2 N) c) scrambling (sobolGeneratingMatrices table dim N (Nat.clog 2 N))).length = dim := by
    rw [List.length_zipWith, hlen, hscr.1, Nat.min_self]
  unfold sobolSample
  simp only []
  rw [sample_default, sample_getD _ _ _ _ _ c _ _ _ (range_get N _ hlt) (by omega) (by rw [hlen2]; omega), digitalNetPoint_eq, toUnit_false, hlen2]
  congr 2
  apply xorPoint_congr
  intro j hj
  rw [zipWith_getD _ _ _ [] [] _ _ (by omega) (by omega), scrambleMatrix_getD, sobolMatrices_getD table hT dim N _ c j hc hd (le_refl _) hj]

/-- C120 (`random_ops/sobol/sobol_impl.py`): the same for the blocks of indices covered by `sample` with `skip`. -/
theorem C120_sobol_impl (table : List (Nat × List Nat)) (hT : ∀ q ∈ table, ValidEntry q)
    (h32 : ∀ q ∈ table, Nat.log 2 q.1 ≤ 32) (dim N skip m q t : Nat) (hd : dim ≤ table.length + 1)
    (hN : Nat.clog 2 (skip + N + 1) ≤ 32) (hcop : CoprimeCodes table dim) (ht : netQuality table dim ≤ t)
    (hlo : skip + 1 ≤ q * 2 ^ m) (hhi : (q + 1) * 2 ^ m ≤ skip + 1 + N) :
    IsNet t m dim (2 ^ m)
      (fun n c => ((sobolImplSample table dim N skip : List (List K)).getD (q * 2 ^ m + n - (skip + 1)) []).getD c 0) := by
  have hND := Nat.le_pow_clog (by omega : 1 < 2) (skip + N + 1)
  refine net_congr t m dim (2 ^ m) _ _ (fun n hn c hc => ?_)
    (sobol_net_core (K := K) table hT dim m q (Nat.clog 2 (skip + N + 1)) t (fun _ => 0) (fun _ _ => Nat.two_pow_pos _) hd hcop ht (by omega))
  have e : (q + 1) * 2 ^ m = q * 2 ^ m + 2 ^ m := by ring
  rw [implSample_getD table hT h32 dim N skip c _ hc hd hN (by omega), show skip + 1 + (q * 2 ^ m + n - (skip + 1)) = q * 2 ^ m + n by omega]

end

/-- C120 (`load_data`): the table made from well formed lines is admissible, the degree of the polynomial of a line is
its number `s`, and no polynomial has the factor `x`, so all are coprime to that of the first coordinate. -/
theorem C120_load (lines : List (List Nat)) (hl : ∀ l ∈ lines, DataLine l) :
    (∀ q ∈ loadSobolTable lines, ValidEntry q) ∧ (loadSobolTable lines).length = lines.length ∧
    ∀ i, i < lines.length → Nat.log 2 (polyCode (loadSobolTable lines) (i + 1)) = (lines.getD i []).getD 1 0 ∧
      IsCoprime (bitPoly (polyCode (loadSobolTable lines) 0)) (bitPoly (polyCode (loadSobolTable lines) (i + 1))) := by
  have hlog : ∀ l, DataLine l → Nat.log 2 (sobolTableEntry l).1 = l.getD 1 0 := by
    intro l h
    obtain ⟨h1, h2, _⟩ := h
    unfold sobolTableEntry
    simp only []
    generalize l.getD 1 0 = s at *
    generalize l.getD 2 0 = a at *
    have hp : 2 ^ s = 2 * 2 ^ (s - 1) := by rw [← pow_succ']; congr 1; omega
    have hp' : 2 ^ (s + 1) = 2 * 2 ^ s := pow_succ' 2 s
    exact Nat.log_eq_of_pow_le_of_lt_pow (by omega) (by omega)
  refine ⟨?_, by simp [loadSobolTable], ?_⟩
  · intro q hq
    unfold loadSobolTable at hq
    rw [List.mem_map] at hq
    obtain ⟨l, hlm, rfl⟩ := hq
    have hdl := hl l hlm
    have hs := hlog l hdl
    obtain ⟨h1, h2, h3, h4⟩ := hdl
    refine ⟨?_, ?_, ?_⟩
    · have : 1 ≤ 2 ^ l.getD 1 0 := Nat.one_le_two_pow
      have : 2 ^ 1 ≤ 2 ^ l.getD 1 0 := Nat.pow_le_pow_right (by omega) h1
      show 2 ≤ 2 ^ l.getD 1 0 + 2 * l.getD 2 0 + 1
      omega
    · rw [hs]
      show l.getD 1 0 ≤ (l.drop 3).length
      rw [List.length_drop]; omega
    · intro j hj
      rw [hs] at hj
      have := h4 j hj
      show (l.drop 3).getD j 0 % 2 = 1 ∧ (l.drop 3).getD j 0 < 2 ^ (j + 1)
      rw [List.getD_eq_getElem?_getD, List.getElem?_drop, Nat.add_comm 3 j, ← List.getD_eq_getElem?_getD]
      exact this
  · intro i hi
    have hcode : polyCode (loadSobolTable lines) (i + 1) = (sobolTableEntry (lines.getD i [])).1 := by
      unfold polyCode loadSobolTable
      rw [if_neg (by omega), Nat.add_sub_cancel, getD_mapList _ _ [] _ _ hi]
    have hmem : lines.getD i [] ∈ lines := by
      rw [List.getD_eq_getElem?_getD, List.getElem?_eq_getElem hi]
      exact List.getElem_mem hi
    refine ⟨by rw [hcode]; exact hlog _ (hl _ hmem), ?_⟩
    have h0 : polyCode (loadSobolTable lines) 0 = 2 := rfl
    have hX : bitPoly 2 = X := by
      ext j
      rw [bitPoly_coeff, coeff_X]
      rcases Nat.lt_or_ge j 2 with hj | hj
      · interval_cases j <;> decide
      · rw [if_neg (by omega), Nat.testBit_lt_two_pow (lt_of_lt_of_le (by norm_num : 2 < 2 ^ 2) (Nat.pow_le_pow_right (by omega) hj))]; rfl
    rw [h0, hX, hcode]
    refine ⟨-(bitPoly (sobolTableEntry (lines.getD i [])).1).divX, 1, ?_⟩
    have hc0 : (bitPoly (sobolTableEntry (lines.getD i [])).1).coeff 0 = 1 := by
      rw [bitPoly_coeff, Nat.testBit_zero]
      unfold sobolTableEntry
      simp only []
      have hs1 : 1 ≤ (lines.getD i []).getD 1 0 := (hl _ hmem).1
      generalize (lines.getD i []).getD 1 0 = s at *
      have hp : 2 ^ s = 2 * 2 ^ (s - 1) := by rw [← pow_succ']; congr 1; omega
      rw [decide_eq_true (by omega)]; rfl
    have := divX_mul_X_add (bitPoly (sobolTableEntry (lines.getD i [])).1)
    rw [hc0, map_one] at this
    generalize bitPoly (sobolTableEntry (lines.getD i [])).1 = P at *
    linear_combination -this

/-- The points of `sobol_sample` lie in the unit cube. -/
theorem sobol_points_unit (table : List (Nat × List Nat)) (hT : ∀ q ∈ table, ValidEntry q) (dim m : Nat) (hd : dim ≤ table.length + 1) :
    ∀ n, n < 2 ^ m → ∀ c : Fin dim, 0 ≤ ((sobolSample table dim (2 ^ m) none none none false : List (List ℝ)).getD n []).getD c 0 ∧
      ((sobolSample table dim (2 ^ m) none none none false : List (List ℝ)).getD n []).getD c 0 < 1 := fun n hn c =>
  (C25_sobol_sample table hT dim (2 ^ m) c none (by simp) c.isLt hd).2 n hn

/-- C120: the error of the average of a function over the first `2^m` points, when the function changes by at most `L δ`
if no coordinate changes by more than `δ`. -/
theorem C120_error (table : List (Nat × List Nat)) (hT : ∀ q ∈ table, ValidEntry q) (dim m : Nat) (hdim : 0 < dim)
    (hd : dim ≤ table.length + 1) (hcop : CoprimeCodes table dim) (hm : netQuality table dim ≤ m) (f : (Fin dim → ℝ) → ℝ) (L : ℝ)
    (hf : ∀ u v, u ∈ unitCube dim → v ∈ unitCube dim → ∀ δ : ℝ, (∀ c, |u c - v c| ≤ δ) → |f u - f v| ≤ L * δ)
    (hint : IntegrableOn f (unitCube dim)) :
    |(∑ n ∈ Finset.range (2 ^ m), f (fun c => ((sobolSample table dim (2 ^ m) none none none false : List (List ℝ)).getD n []).getD c 0)) / 2 ^ m -
      ∫ u in unitCube dim, f u| ≤ L * (1 / 2 ^ ((m - netQuality table dim) / dim)) := by
  have hnet := C120_sobol_sample (K := ℝ) table hT dim (2 ^ m) m 0 (netQuality table dim) none (by simp) hd hcop (le_refl _) (by omega)
  simp only [Nat.zero_mul, Nat.zero_add] at hnet
  exact net_lipschitz (netQuality table dim) m dim hdim hm _ hnet (sobol_points_unit table hT dim m hd) f L hf hint

/-- C120: averages of a function that is continuous on the closed cube over the first `2^m` Sobol points tend to its
integral. -/
theorem C120_convergence (table : List (Nat × List Nat)) (hT : ∀ q ∈ table, ValidEntry q) (dim : Nat) (hdim : 0 < dim)
    (hd : dim ≤ table.length + 1) (hcop : CoprimeCodes table dim) (f : (Fin dim → ℝ) → ℝ) (hf : ContinuousOn f (Set.Icc 0 1)) :
    Tendsto (fun m : ℕ => (∑ n ∈ Finset.range (2 ^ m),
      f (fun c => ((sobolSample table dim (2 ^ m) none none none false : List (List ℝ)).getD n []).getD c 0)) / 2 ^ m)
      atTop (nhds (∫ u in unitCube dim, f u)) := by
  rw [Metric.tendsto_atTop]
  intro ε hε
  obtain ⟨m0, h⟩ := net_limit (netQuality table dim) dim hdim f hf (ε / 2) (by linarith)
  refine ⟨m0, fun m hm => ?_⟩
  have hnet := C120_sobol_sample (K := ℝ) table hT dim (2 ^ m) m 0 (netQuality table dim) none (by simp) hd hcop (le_refl _) (by omega)
  simp only [Nat.zero_mul, Nat.zero_add] at hnet
  rw [Real.dist_eq]
  exact lt_of_le_of_lt (h m hm _ hnet (sobol_points_unit table hT dim m hd)) (by linarith)

/-- The first thirty lines of the data file `new-joe-kuo-6.21201`. -/
def joeKuoLines : List (List Nat) := [
  [2, 1, 0, 1],
  [3, 2, 1, 1, 3],
  [4, 3, 1, 1, 3, 1],
  [5, 3, 2, 1, 1, 1],
  [6, 4, 1, 1, 1, 3, 3],
  [7, 4, 4, 1, 3, 5, 13],
  [8, 5, 2, 1, 1, 5, 5, 17],
  [9, 5, 4, 1, 1, 5, 5, 5],
  [10, 5, 7, 1, 1, 7, 11, 19],
  [11, 5, 11, 1, 1, 5, 1, 1],
  [12, 5, 13, 1, 1, 1, 3, 11],
  [13, 5, 14, 1, 3, 5, 5, 31],
  [14, 6, 1, 1, 3, 3, 9, 7, 49],
  [15, 6, 13, 1, 1, 1, 15, 21, 21],
  [16, 6, 16, 1, 3, 1, 13, 27, 49],
  [17, 6, 19, 1, 1, 1, 15, 7, 5],
  [18, 6, 22, 1, 3, 1, 15, 13, 25],
  [19, 6, 25, 1, 1, 5, 5, 19, 61],
  [20, 7, 1, 1, 3, 7, 11, 23, 15, 103],
  [21, 7, 4, 1, 3, 7, 13, 13, 15, 69],
  [22, 7, 7, 1, 1, 3, 13, 7, 35, 63],
  [23, 7, 8, 1, 3, 5, 9, 1, 25, 53],
  [24, 7, 14, 1, 3, 1, 13, 9, 35, 107],
  [25, 7, 19, 1, 3, 1, 5, 27, 61, 31],
  [26, 7, 21, 1, 1, 5, 11, 19, 41, 61],
  [27, 7, 28, 1, 3, 5, 3, 3, 13, 69],
  [28, 7, 31, 1, 1, 7, 13, 1, 19, 1],
  [29, 7, 32, 1, 3, 7, 5, 13, 19, 59],
  [30, 7, 37, 1, 1, 3, 9, 25, 29, 41],
  [31, 7, 41, 1, 3, 5, 13, 23, 1, 55]]

instance (l : List Nat) : Decidable (DataLine l) := by unfold DataLine; infer_instance

theorem joeKuo_valid : ∀ l ∈ joeKuoLines, DataLine l := by decide +kernel

/-- C120: the polynomials of the first 31 coordinates of the data file are pairwise coprime. -/
theorem C120_first_coordinates : CoprimeCodes (loadSobolTable joeKuoLines) 31 := by
  have h : ∀ c' < 31, ∀ c < c', coprimeCheck 64 (polyCode (loadSobolTable joeKuoLines) c) (polyCode (loadSobolTable joeKuoLines) c') = true := by
    decide +kernel
  intro c c' hc hc'
  exact coprimeCheck_sound _ _ _ (h c' hc' c hc)

theorem coprimeCodes_mono (table : List (Nat × List Nat)) (s s' : Nat) (h : s ≤ s') (hc : CoprimeCodes table s') : CoprimeCodes table s :=
  fun c c' h1 h2 => hc c c' h1 (by omega)

/-- In the first three dimensions of the data file blocks of 16 points form a `(1, 4, 3)`-net; the first block of 4 points. -/
example : IsNet 1 4 3 (2 ^ 4) (fun n c => ((sobolSample (loadSobolTable joeKuoLines) 3 64 none none none false : List (List Rat)).getD (2 * 2 ^ 4 + n) []).getD c 0) ∧
    (sobolSample (loadSobolTable joeKuoLines) 3 4 none none none false : List (List Rat)) =
      [[0, 0, 0], [1/2, 1/2, 1/2], [1/4, 3/4, 3/4], [3/4, 1/4, 1/4]] := by
  have hlen : (loadSobolTable joeKuoLines).length = 30 := by decide +kernel
  refine ⟨C120_sobol_sample _ (C120_load _ joeKuo_valid).1 3 64 4 2 1 none (by simp) (by omega)
    (coprimeCodes_mono _ 3 31 (by omega) C120_first_coordinates) ?_ (by norm_num), by decide +kernel⟩
  decide +kernel

end Props
