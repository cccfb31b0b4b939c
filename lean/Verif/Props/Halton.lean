import Verif.Lemmas.Halton
import Verif.Lemmas.Sobol
import Mathlib.Algebra.Order.Field.Rat
import Mathlib.Data.List.Perm.Basic
import Mathlib.Data.List.Nodup

/-! # C26 Halton points -/

namespace Lemmas
open Model Spec
variable {K : Type} [Field K] [LinearOrder K] [IsStrictOrderedRing K]

theorem sample_entry (radixes sizes : List Nat) (N : Nat) (idx : Option (List Nat)) (r : Option (List Nat × List K))
    (i n c : Nat) (hi : (idx.getD (List.range N))[i]? = some n) (hc : c < radixes.length) :
    ((haltonSample radixes sizes N idx r).getD i []).getD c 0 = haltonValue radixes sizes r (n + 1) c := by
  unfold haltonSample haltonIndices
  simp [List.getD_eq_getElem?_getD, hi, hc]

omit [LinearOrder K] [IsStrictOrderedRing K] in
theorem value_plain [CharZero K] (radixes sizes : List Nat) (c n : Nat) (hb : 0 < radixes.getD c 0)
    (hc : c < sizes.length) :
    (haltonValue radixes sizes none n c : K) =
      ((rev (radixes.getD c 0) (fun _ d => d) n (sizes.getD c 0) : Nat) : K) / ((radixes.getD c 0 : Nat) : K) ^ sizes.getD c 0 := by
  have hmax : sizes.getD c 0 ≤ sizes.foldl max 0 := by
    apply foldl_max_le; left
    rw [List.getD_eq_getElem?_getD, List.getElem?_eq_getElem hc]; exact List.getElem_mem hc
  rw [← digit_sum (K := K) _ _ _ hb (fun _ d => d) n hmax]
  unfold haltonValue
  simp only []
  congr 1
  apply List.map_congr_left
  intro e _
  congr 3
  unfold haltonCoeff
  by_cases h : sizes.getD c 0 ≤ e
  · simp only [if_pos h]; simp
  · simp only [if_neg h]; simp

omit [LinearOrder K] [IsStrictOrderedRing K] in
theorem value_random [CharZero K] (radixes sizes : List Nat) (numCoeffs c n : Nat) (shuffle : Nat → Nat → List Nat)
    (hs : ∀ i c, c < radixes.length → (shuffle i c).length = radixes.getD c 0) (z : List K)
    (hb : 0 < radixes.getD c 0) (hc : c < sizes.length) (hc' : c < radixes.length)
    (hnum : ∀ s ∈ sizes, s ≤ numCoeffs) :
    haltonValue radixes sizes (some (haltonPermutations numCoeffs radixes shuffle, z)) n c =
      ((rev (radixes.getD c 0) (fun e d => (shuffle e c).getD d 0) n (sizes.getD c 0) : Nat) : K) /
        ((radixes.getD c 0 : Nat) : K) ^ sizes.getD c 0 + z.getD c 0 := by
  have hmem : sizes.getD c 0 ∈ sizes := by
    rw [List.getD_eq_getElem?_getD, List.getElem?_eq_getElem hc]; exact List.getElem_mem hc
  have hmax : sizes.getD c 0 ≤ sizes.foldl max 0 := by
    apply foldl_max_le; left; exact hmem
  rw [← digit_sum (K := K) _ _ _ hb _ n hmax]
  unfold haltonValue
  simp only []
  congr 2
  apply List.map_congr_left
  intro e _
  congr 3
  unfold haltonCoeff
  by_cases h : sizes.getD c 0 ≤ e
  · simp only [if_pos h]; simp
  · simp only [if_neg h, Nat.mul_one]
    exact haltonPermuted_eq numCoeffs radixes shuffle hs c e _ hc' (by have := hnum _ hmem; omega) (Nat.mod_lt _ hb)

theorem digitPerms_of_perm (b S : Nat) (s : Nat → List Nat) (h : ∀ e, e < S → (s e).Perm (List.range b)) :
    DigitPerms b S (fun e d => (s e).getD d 0) := by
  intro e he
  have hl : (s e).length = b := by rw [(h e he).length_eq, List.length_range]
  have hn : (s e).Nodup := (h e he).nodup_iff.2 List.nodup_range
  constructor
  · intro d hd
    have hd' : d < (s e).length := by omega
    simp only [List.getD_eq_getElem?_getD, List.getElem?_eq_getElem hd', Option.getD_some]
    exact List.mem_range.1 ((h e he).mem_iff.1 (List.getElem_mem hd'))
  · intro d d' hd hd' heq
    have h1 : d < (s e).length := by omega
    have h2 : d' < (s e).length := by omega
    simp only [List.getD_eq_getElem?_getD, List.getElem?_eq_getElem h1, List.getElem?_eq_getElem h2,
      Option.getD_some] at heq
    exact (List.Nodup.getElem_inj_iff hn).1 heq

end Lemmas

namespace Props
open Model Spec Lemmas
variable {K : Type} [Field K] [LinearOrder K] [IsStrictOrderedRing K]

/-- C26: in each coordinate, with base `b` and number of digits `S`, the unrandomised Halton points, numbered from 1,
are stratified in base `b` as long as the indices fit in `S` digits, and lie in `[0, 1)`. -/
theorem C26_halton (radixes sizes : List Nat) (N c : Nat) (hc : c < radixes.length)
    (hlen : sizes.length = radixes.length) (hb : 1 < radixes.getD c 0)
    (hN : N + 1 ≤ radixes.getD c 0 ^ sizes.getD c 0) :
    Stratified (radixes.getD c 0) 1 (N + 1)
      (fun n => ((haltonSample radixes sizes N none none : List (List K)).getD (n - 1) []).getD c 0) ∧
    ∀ i, i < N → 0 ≤ ((haltonSample radixes sizes N none none : List (List K)).getD i []).getD c 0 ∧
      ((haltonSample radixes sizes N none none : List (List K)).getD i []).getD c 0 < 1 := by
  have hval : ∀ i, i < N → ((haltonSample radixes sizes N none none : List (List K)).getD i []).getD c 0 =
      ((rev (radixes.getD c 0) (fun _ d => d) (i + 1) (sizes.getD c 0) : Nat) + 0 : K) /
        ((radixes.getD c 0 : Nat) : K) ^ sizes.getD c 0 := by
    intro i hi
    rw [sample_entry radixes sizes N none none i i c (by simp [hi]) hc,
      value_plain radixes sizes c (i + 1) (by omega) (by omega), add_zero]
  have hid : DigitPerms (radixes.getD c 0) (sizes.getD c 0) (fun _ d => d) :=
    fun e _ => ⟨fun d hd => hd, fun d d' _ _ h => h⟩
  constructor
  · refine stratified_congr _ 1 (N + 1) _ _ (fun n hlo hn => ?_)
      (rev_stratified (K := K) _ _ (N + 1) hb (fun _ d => d) hid 0 (le_refl 0) zero_lt_one hN)
    have := hval (n - 1) (by omega)
    rw [show n - 1 + 1 = n by omega] at this
    exact this.symm
  · intro i hi
    rw [hval i hi]
    exact rev_range _ _ hb _ hid 0 (le_refl 0) zero_lt_one _

/-- C26: the same for the randomised points, for every choice of digit permutations and of uniform numbers in `[0, 1)` for
the zero correction. -/
theorem C26_randomized (radixes sizes : List Nat) (numCoeffs N c : Nat) (shuffle : Nat → Nat → List Nat)
    (uniform : List K) (hc : c < radixes.length) (hlen : sizes.length = radixes.length)
    (hb : 1 < radixes.getD c 0) (hnum : ∀ s ∈ sizes, s ≤ numCoeffs)
    (hs : ∀ i c, c < radixes.length → (shuffle i c).Perm (List.range (radixes.getD c 0)))
    (hu : 0 ≤ uniform.getD c 0 ∧ uniform.getD c 0 < 1) (hN : N + 1 ≤ radixes.getD c 0 ^ sizes.getD c 0) :
    let r := some (haltonPermutations numCoeffs radixes shuffle, haltonZeroCorrection radixes sizes uniform)
    Stratified (radixes.getD c 0) 1 (N + 1)
      (fun n => ((haltonSample radixes sizes N none r).getD (n - 1) []).getD c 0) ∧
    ∀ i, i < N → 0 ≤ ((haltonSample radixes sizes N none r).getD i []).getD c 0 ∧
      ((haltonSample radixes sizes N none r).getD i []).getD c 0 < 1 := by
  intro r
  have hz : (haltonZeroCorrection radixes sizes uniform).getD c 0 =
      uniform.getD c 0 / ((radixes.getD c 0 : Nat) : K) ^ sizes.getD c 0 := by
    unfold haltonZeroCorrection
    simp [List.getD_eq_getElem?_getD, hc]
  have hval : ∀ i, i < N → ((haltonSample radixes sizes N none r).getD i []).getD c 0 =
      ((rev (radixes.getD c 0) (fun e d => (shuffle e c).getD d 0) (i + 1) (sizes.getD c 0) : Nat) +
        uniform.getD c 0 : K) / ((radixes.getD c 0 : Nat) : K) ^ sizes.getD c 0 := by
    intro i hi
    rw [sample_entry radixes sizes N none r i i c (by simp [hi]) hc,
      value_random radixes sizes numCoeffs c (i + 1) shuffle
        (fun i c hc => by rw [(hs i c hc).length_eq, List.length_range]) _ (by omega) (by omega) hc hnum, hz, add_div]
  have hid := digitPerms_of_perm (radixes.getD c 0) (sizes.getD c 0) (fun e => shuffle e c) (fun e _ => hs e c hc)
  constructor
  · refine stratified_congr _ 1 (N + 1) _ _ (fun n hlo hn => ?_)
      (rev_stratified (K := K) _ _ (N + 1) hb _ hid _ hu.1 hu.2 hN)
    have := hval (n - 1) (by omega)
    rw [show n - 1 + 1 = n by omega] at this
    exact this.symm
  · intro i hi
    rw [hval i hi]
    exact rev_range _ _ hb _ hid _ hu.1 hu.2 _

/-- C26: point `i` for chosen `sequence_indices` is the point of that index. -/
theorem C26_sequence_indices (radixes sizes : List Nat) (N c i n : Nat) (idx : List Nat)
    (r : Option (List Nat × List K)) (hc : c < radixes.length) (hi : idx[i]? = some n) (hn : n < N) :
    ((haltonSample radixes sizes 0 (some idx) r).getD i []).getD c 0 =
      ((haltonSample radixes sizes N none r).getD n []).getD c 0 := by
  rw [sample_entry radixes sizes 0 (some idx) r i n c hi hc,
    sample_entry radixes sizes N none r n n c (by simp [hn]) hc]

/-- The primes 2 and 3 with 4 and 3 digits, 8 points. -/
example : (haltonSample [2, 3] [4, 3] 8 none none : List (List Rat)) =
    [[1/2, 1/3], [1/4, 2/3], [3/4, 1/9], [1/8, 4/9], [5/8, 7/9], [3/8, 2/9], [7/8, 5/9], [1/16, 8/9]] ∧
    (haltonSample [2, 3] [4, 3] 2 none (some (haltonPermutations 4 [2, 3] (fun i c => if c = 0 then [1, 0] else [2, 0, 1]),
      haltonZeroCorrection [2, 3] [4, 3] [1/2, 0])) : List (List Rat)) = [[15/32, 8/27], [23/32, 17/27]] ∧
    8 + 1 ≤ [2, 3].getD 0 0 ^ [4, 3].getD 0 0 ∧ 8 + 1 ≤ [2, 3].getD 1 0 ^ [4, 3].getD 1 0 := by
  decide +kernel

end Props
