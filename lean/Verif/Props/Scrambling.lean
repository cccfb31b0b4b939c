import Verif.Props.DigitalNet

/-! # C27 Scrambled and shifted digital nets -/

namespace Spec

/-- A scrambling matrix as drawn by `random_scrambling_matrices`: `D` numbers in `[2^(D-1), 2^D)`. -/
def ValidScrambling (D : Nat) (s : List Nat) : Prop :=
  s.length = D ∧ ∀ x ∈ s, 2 ^ (D - 1) ≤ x ∧ x < 2 ^ D

end Spec

namespace Lemmas
open Model Spec

theorem unitDiagonal_of_valid (D : Nat) (s : List Nat) (h : ValidScrambling D s) :
    UnitDiagonal D (fun k => s.getD k 0) := by
  intro k hk
  have hk' : k < s.length := by rw [h.1]; exact hk
  have he : s.getD k 0 = s[k] := by simp [List.getD_eq_getElem?_getD, List.getElem?_eq_getElem hk']
  obtain ⟨h1, h2⟩ := h.2 _ (List.getElem_mem hk')
  simp only [he]
  refine ⟨h2, ?_⟩
  rw [Nat.testBit_eq_decide_div_mod_eq]
  have : s[k] / 2 ^ (D - 1) = 1 := by
    apply Nat.div_eq_of_lt_le
    · omega
    · calc s[k] < 2 ^ D := h2
        _ = (1 + 1) * 2 ^ (D - 1) := by rw [← pow_succ']; congr 1; omega
  rw [this]; rfl

theorem scr_zero (S : Nat → Nat) (D k : Nat) : scr S D k 0 = 0 := by
  induction k with
  | zero => rfl
  | succ k ih => unfold scr; rw [ih]; simp

theorem scrambleMatrix_getD (s columns : List Nat) (D j : Nat) :
    (scrambleMatrix s D columns).getD j 0 = scr (fun k => s.getD k 0) D D (columns.getD j 0) := by
  unfold scrambleMatrix
  simp only [List.getD_eq_getElem?_getD, List.getElem?_map]
  cases h : columns[j]? with
  | none => simp [scr_zero]
  | some x => simp [scrambleEntry_eq]

/-- The leading `d` digits of the scrambled and shifted point are a permutation of those of the original. -/
theorem cell_permutation (S : Nat → Nat) (D d s : Nat) (hS : UnitDiagonal D S) (hd : d ≤ D) (hs : s < 2 ^ D)
    (k' : Nat) (hk' : k' < 2 ^ d) :
    ∃ k, k < 2 ^ d ∧ ∀ x, x < 2 ^ D → ((scr S D D x ^^^ s) / 2 ^ (D - d) = k' ↔ x / 2 ^ (D - d) = k) := by
  have hpow : 2 ^ D = 2 ^ d * 2 ^ (D - d) := by rw [← Nat.pow_add]; congr 1; omega
  have hpos := Nat.two_pow_pos (D - d)
  let g : Nat → Nat := fun k => (scr S D D (k * 2 ^ (D - d)) ^^^ s) / 2 ^ (D - d)
  have hlt : ∀ k, k < 2 ^ d → k * 2 ^ (D - d) < 2 ^ D := by
    intro k hk; rw [hpow]; exact Nat.mul_lt_mul_of_pos_right hk hpos
  have hg : ∀ n, 0 ≤ n → n < 0 + 2 ^ d → g n < 2 ^ d := by
    intro n _ _
    show (scr S D D (n * 2 ^ (D - d)) ^^^ s) / 2 ^ (D - d) < 2 ^ d
    rw [Nat.div_lt_iff_lt_mul hpos, ← hpow]
    exact Nat.xor_lt_two_pow (scr_lt S D D _ hS (le_refl D)) hs
  obtain ⟨k, ⟨⟨_, hk⟩, hgk⟩, _⟩ := pigeonhole 0 (2 ^ d) g hg (by
    intro n n' _ h1 _ h2 h3
    have h4 := (scr_top S D d _ _ hS hd (hlt n (by omega)) (hlt n' (by omega))).1 ((xor_top _ _ s _).1 h3)
    rwa [Nat.mul_div_cancel _ hpos, Nat.mul_div_cancel _ hpos] at h4) k' hk'
  refine ⟨k, by omega, fun x hx => ?_⟩
  rw [← hgk]
  show (scr S D D x ^^^ s) / 2 ^ (D - d) = (scr S D D (k * 2 ^ (D - d)) ^^^ s) / 2 ^ (D - d) ↔ _
  rw [xor_top, scr_top S D d _ _ hS hd hx (hlt k (by omega)), Nat.mul_div_cancel _ hpos]

/-- Identity scrambling, to treat shifts alone. -/
theorem shift_cell (D d s : Nat) (hd : d ≤ D) (hs : s < 2 ^ D) (k' : Nat) (hk' : k' < 2 ^ d) :
    ∃ k, k < 2 ^ d ∧ ∀ x, x < 2 ^ D → ((x ^^^ s) / 2 ^ (D - d) = k' ↔ x / 2 ^ (D - d) = k) := by
  have hpow : 2 ^ D = 2 ^ d * 2 ^ (D - d) := by rw [← Nat.pow_add]; congr 1; omega
  have hpos := Nat.two_pow_pos (D - d)
  have hlt : k' * 2 ^ (D - d) < 2 ^ D := by rw [hpow]; exact Nat.mul_lt_mul_of_pos_right hk' hpos
  refine ⟨(k' * 2 ^ (D - d) ^^^ s) / 2 ^ (D - d), ?_, fun x hx => ?_⟩
  · rw [Nat.div_lt_iff_lt_mul hpos, ← hpow]
    exact Nat.xor_lt_two_pow hlt hs
  · rw [← xor_top x (k' * 2 ^ (D - d) ^^^ s) s, Nat.xor_assoc, Nat.xor_self, Nat.xor_zero, Nat.mul_div_cancel _ hpos]

end Lemmas

namespace Props
open Model Spec Lemmas
variable {K : Type} [Field K] [LinearOrder K] [IsStrictOrderedRing K]

/-- Entry of sample `n`, coordinate `c`. -/
def entry (l : List (List K)) (n c : Nat) : K := (l.getD n []).getD c 0

/-- The data of a net and of its randomisation: `s` coordinates, `D`-digit columns, scrambling matrices and shifts as the
library draws them (or absent). -/
structure NetData (M : List (List Nat)) (s D N : Nat) (scrambling : Option (List (List Nat)))
    (shift : Option (List Nat)) : Prop where
  dim : M.length = s
  columns : ∀ C ∈ M, ∀ x ∈ C, x < 2 ^ D
  scr : ∀ S, scrambling = some S → S.length = s ∧ ∀ m ∈ S, ValidScrambling D m
  shift : ∀ sh, shift = some sh → sh.length = s ∧ ∀ x ∈ sh, x < 2 ^ D

/-- Plain and randomised entries as digit strings. -/
theorem entries (M : List (List Nat)) (s D N : Nat) (scrambling shift) (h : NetData M s D N scrambling shift) (c : Nat)
    (hc : c < s) :
    ∃ P Q : Nat → Nat, (∀ n, P n < 2 ^ D) ∧ (∀ n, Q n < 2 ^ D) ∧
      (∀ n, n < N → entry (digitalNetSample M N D none none none false : List (List K)) n c = (P n : K) / ((2 : Nat) : K) ^ D) ∧
      (∀ n, n < N → entry (digitalNetSample M N D none scrambling shift false : List (List K)) n c =
        (Q n : K) / ((2 : Nat) : K) ^ D) ∧
      ∀ d, d ≤ D → ∀ k', k' < 2 ^ d → ∃ k, k < 2 ^ d ∧ ∀ n, Q n / 2 ^ (D - d) = k' ↔ P n / 2 ^ (D - d) = k := by
  have hcM : c < M.length := by rw [h.dim]; exact hc
  have hcol : ∀ j, ((M.getD c []).getD j 0) < 2 ^ D := by
    intro j
    have h1 : M.getD c [] ∈ M := by
      rw [List.getD_eq_getElem?_getD, List.getElem?_eq_getElem hcM]; exact List.getElem_mem hcM
    rw [List.getD_eq_getElem?_getD]
    cases hj : (M.getD c [])[j]? with
    | none => exact Nat.two_pow_pos D
    | some x => exact h.columns _ h1 x (List.mem_of_getElem? hj)
  -- shift
  obtain ⟨sh, hshl, hshlt, hsh⟩ : ∃ sh : List Nat, sh.length = s ∧ (sh.getD c 0 < 2 ^ D) ∧
      (shift.getD (List.replicate s 0)) = sh := by
    refine ⟨_, ?_, ?_, rfl⟩
    · cases shift with
      | none => simp
      | some t => exact (h.shift t rfl).1
    · cases shift with
      | none =>
        simp only [Option.getD_none]
        rw [List.getD_eq_getElem?_getD, List.getElem?_replicate]
        split <;> exact Nat.two_pow_pos _
      | some t =>
        obtain ⟨h1, h2⟩ := h.shift t rfl
        have hct : c < t.length := by omega
        simp only [Option.getD_some]
        rw [List.getD_eq_getElem?_getD, List.getElem?_eq_getElem hct]
        exact h2 _ (List.getElem_mem hct)
  set P := fun n => xorPoint (fun j => (M.getD c []).getD j 0) 0 (Nat.clog 2 N) n with hP
  have hPlt : ∀ n, P n < 2 ^ D := fun n => xorPoint_lt _ _ _ _ _ (Nat.two_pow_pos D) (fun j _ => hcol j)
  have hplain : ∀ n, n < N → entry (digitalNetSample M N D none none none false : List (List K)) n c =
      (P n : K) / ((2 : Nat) : K) ^ D := by
    intro n hn
    unfold entry
    rw [sample_default, sample_getD _ _ _ n n c _ _ _ (range_get N n hn) hcM (by simpa using hcM), digitalNetPoint_eq,
      toUnit_false]
    have h0 : ((none : Option (List Nat)).getD (List.replicate M.length 0)).getD c 0 = 0 := by
      simp only [Option.getD_none]
      rw [List.getD_eq_getElem?_getD, List.getElem?_replicate]
      split <;> rfl
    rw [h0]
  cases scrambling with
  | none =>
    refine ⟨P, fun n => P n ^^^ sh.getD c 0, hPlt, fun n => Nat.xor_lt_two_pow (hPlt n) hshlt, hplain, ?_, ?_⟩
    · intro n hn
      unfold entry
      rw [sample_default, h.dim, hsh, sample_getD _ _ _ n n c _ _ _ (range_get N n hn) hcM (by omega),
        digitalNetPoint_eq, toUnit_false, xorPoint_shift]
    · intro d hd k' hk'
      obtain ⟨k, h1, h2⟩ := shift_cell D d (sh.getD c 0) hd hshlt k' hk'
      exact ⟨k, h1, fun n => h2 _ (hPlt n)⟩
  | some S =>
    obtain ⟨hSl, hSv⟩ := h.scr S rfl
    have hcS : c < S.length := by omega
    have hv : ValidScrambling D (S.getD c []) := by
      rw [List.getD_eq_getElem?_getD, List.getElem?_eq_getElem hcS]
      exact hSv _ (List.getElem_mem hcS)
    have hU := unitDiagonal_of_valid D _ hv
    refine ⟨P, fun n => scr (fun k => (S.getD c []).getD k 0) D D (P n) ^^^ sh.getD c 0, hPlt,
      fun n => Nat.xor_lt_two_pow (scr_lt _ D D _ hU (le_refl D)) hshlt, hplain, ?_, ?_⟩
    · intro n hn
      unfold entry
      rw [sample_default, h.dim, hsh]
      have hdef : (digitalNetSample M N D (some ((none : Option (List Nat)).getD (List.range N))) (some S) (some sh)
          false : List (List K)) = digitalNetSample (List.zipWith (fun s c => scrambleMatrix s D c) S M) N D
            (some ((none : Option (List Nat)).getD (List.range N))) none (some sh) false := rfl
      rw [hdef, sample_getD _ _ _ n n c _ _ _ (range_get N n hn) (by simp; omega) (by omega),
        digitalNetPoint_eq, toUnit_false, zipWith_getD _ _ _ [] [] _ _ hcS hcM]
      rw [xorPoint_congr _ (fun j => scr (fun k => (S.getD c []).getD k 0) D D ((M.getD c []).getD j 0)) _ _ _
        (fun j _ => scrambleMatrix_getD _ _ _ _), xorPoint_scr]
    · intro d hd k' hk'
      obtain ⟨k, h1, h2⟩ := cell_permutation _ D d (sh.getD c 0) hU hd hshlt k' hk'
      exact ⟨k, h1, fun n => h2 _ (hPlt n)⟩

/-- C27: scrambling and shifting permute the elementary intervals of each level: the points of the randomised net in an
interval are those of the plain net in another interval of the same length. -/
theorem C27_intervals_permuted (M : List (List Nat)) (s D N : Nat) (scrambling shift)
    (h : NetData M s D N scrambling shift) (c : Nat) (hc : c < s) (d : Nat) (hd : d ≤ D) (k' : Nat) (hk' : k' < 2 ^ d) :
    ∃ k, k < 2 ^ d ∧ ∀ n, n < N →
      (InCell 2 d k' (entry (digitalNetSample M N D none scrambling shift false : List (List K)) n c) ↔
        InCell 2 d k (entry (digitalNetSample M N D none none none false : List (List K)) n c)) := by
  obtain ⟨P, Q, _, _, h3, h4, h5⟩ := entries (K := K) M s D N scrambling shift h c hc
  obtain ⟨k, hk, hkn⟩ := h5 d hd k' hk'
  refine ⟨k, hk, fun n hn => ?_⟩
  rw [h3 n hn, h4 n hn, inCell_iff 2 D d _ _ (by omega) hd, inCell_iff 2 D d _ _ (by omega) hd]
  exact hkn n

/-- C27: one-dimensional stratification is kept. -/
theorem C27_stratified (M : List (List Nat)) (s D N : Nat) (scrambling shift)
    (h : NetData M s D N scrambling shift) (c : Nat) (hc : c < s) (hND : N ≤ 2 ^ D)
    (hx : Stratified 2 0 N (fun n => entry (digitalNetSample M N D none none none false : List (List K)) n c)) :
    Stratified 2 0 N (fun n => entry (digitalNetSample M N D none scrambling shift false : List (List K)) n c) := by
  intro m b hlo hhi k' hk'
  have hm : m ≤ D := by
    have h1 : 2 ^ m ≤ 2 ^ D := by
      calc 2 ^ m ≤ (b + 1) * 2 ^ m := Nat.le_mul_of_pos_left _ (by omega)
        _ ≤ N := hhi
        _ ≤ 2 ^ D := hND
    exact (Nat.pow_le_pow_iff_right (by omega)).1 h1
  obtain ⟨k, hk, hkn⟩ := C27_intervals_permuted (K := K) M s D N scrambling shift h c hc m hm k' hk'
  obtain ⟨n, ⟨h1, h2⟩, h3⟩ := hx m b hlo hhi k hk
  refine ⟨n, ⟨h1, (hkn n (by omega)).2 h2⟩, ?_⟩
  rintro n' ⟨h4, h5⟩
  exact h3 n' ⟨h4, (hkn n' (by omega)).1 h5⟩

/-- C27: `(t, m, s)`-nets stay `(t, m, s)`-nets. -/
theorem C27_net (M : List (List Nat)) (t m s D N : Nat) (scrambling shift)
    (h : NetData M s D N scrambling shift) (hmD : m ≤ D)
    (hx : IsNet t m s N (entry (digitalNetSample M N D none none none false : List (List K)))) :
    IsNet t m s N (entry (digitalNetSample M N D none scrambling shift false : List (List K))) := by
  intro d hd k' hk'
  have hdD : ∀ j, d j ≤ D := by
    intro j
    have : d j ≤ ∑ j, d j := Finset.single_le_sum (fun _ _ => Nat.zero_le _) (Finset.mem_univ j)
    omega
  choose k hk hkn using fun j : Fin s =>
    C27_intervals_permuted (K := K) M s D N scrambling shift h j.val j.isLt (d j) (hdD j) (k' j) (hk' j)
  obtain ⟨S, hS1, hS2⟩ := hx d hd k hk
  refine ⟨S, hS1, fun n => ?_⟩
  rw [hS2 n]
  constructor
  · rintro ⟨hn, hj⟩
    exact ⟨hn, fun j => (hkn j n hn).2 (hj j)⟩
  · rintro ⟨hn, hj⟩
    exact ⟨hn, fun j => (hkn j n hn).1 (hj j)⟩

/-- C27: the randomised samples lie in `[0, 1)`; with the tent transform in `[0, 1]`. -/
theorem C27_range (M : List (List Nat)) (s D N : Nat) (scrambling shift)
    (h : NetData M s D N scrambling shift) (c n : Nat) (hc : c < s) (hn : n < N) :
    0 ≤ entry (digitalNetSample M N D none scrambling shift false : List (List K)) n c ∧
    entry (digitalNetSample M N D none scrambling shift false : List (List K)) n c < 1 := by
  obtain ⟨P, Q, _, h2, _, h4, _⟩ := entries (K := K) M s D N scrambling shift h c hc
  rw [h4 n hn]
  exact unit_range 2 D _ (by omega) (h2 n)

/-- C27: the tent transform maps `[0, 1)` to `[0, 1]` ... -/
theorem C27_tent_range (x : K) (h0 : 0 ≤ x) (h1 : x < 1) : 0 ≤ tentTransform x ∧ tentTransform x ≤ 1 := by
  unfold tentTransform
  split
  · constructor <;> linarith
  · constructor <;> linarith

/-- C27 (deviation): ... and reaches 1, so that samples with `apply_tent_transform` need not lie in `[0, 1)`. -/
theorem C27_tent_reaches_one : tentTransform (1 / 2 : K) = 1 := by
  unfold tentTransform
  rw [if_neg (lt_irrefl _)]
  ring

example : NetData [[4, 2, 1], [4, 6, 5]] 2 3 8 (some [[5, 7, 4], [6, 6, 5]]) (some [3, 6]) where
  dim := rfl
  columns := by decide
  scr := by
    rintro S ⟨⟩
    unfold ValidScrambling
    decide
  shift := by rintro S ⟨⟩; decide

example : (digitalNetSample [[4, 2, 1], [4, 6, 5]] 8 3 none (some [[5, 7, 4], [6, 6, 5]]) (some [3, 6]) false :
    List (List Rat)) = [[3/8, 3/4], [3/4, 0], [0, 3/8], [5/8, 5/8], [1/4, 1/8], [7/8, 7/8], [1/8, 1/2], [1/2, 1/4]] := by
  decide +kernel

end Props
