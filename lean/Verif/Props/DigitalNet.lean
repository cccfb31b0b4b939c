import Verif.Lemmas.Sobol
import Mathlib.Algebra.Order.Field.Rat
import Mathlib.Data.Rat.Cast.Order
import Mathlib.Tactic.NormNum
import Mathlib.Data.Fintype.BigOperators

/-! # C25 Sobol points and C27 scrambled and shifted digital nets -/

namespace Spec

/-- An admissible row of the table of direction numbers: a polynomial of positive degree `s` over the two element
field, coded by its bits, and `s` odd initial numbers `m_1 < 2, m_2 < 4, ..., m_s < 2^s`. -/
def ValidEntry (q : Nat × List Nat) : Prop :=
  2 ≤ q.1 ∧ Nat.log 2 q.1 ≤ q.2.length ∧
  ∀ j, j < Nat.log 2 q.1 → q.2.getD j 0 % 2 = 1 ∧ q.2.getD j 0 < 2 ^ (j + 1)

/-- Exclusive or of a list. -/
def xorSum : List Nat → Nat
  | [] => 0
  | a :: l => a ^^^ xorSum l

end Spec

namespace Lemmas
open Model Spec

theorem zipWith_getD {α β γ : Type} (f : α → β → γ) (A : List α) (B : List β) (a : α) (b : β) (c : γ) (i : Nat)
    (hA : i < A.length) (hB : i < B.length) :
    (List.zipWith f A B).getD i c = f (A.getD i a) (B.getD i b) := by
  simp only [List.getD_eq_getElem?_getD, List.getElem?_zipWith, List.getElem?_eq_getElem hA,
    List.getElem?_eq_getElem hB]
  rfl

theorem getD_mapList {α β : Type} (f : α → β) (A : List α) (a : α) (b : β) (i : Nat) (hA : i < A.length) :
    (A.map f).getD i b = f (A.getD i a) := by
  simp [List.getD_eq_getElem?_getD, List.getElem?_eq_getElem hA]

theorem getD_range (N n : Nat) (h : n < N) : (List.range N).getD n 0 = n := by
  simp [List.getD_eq_getElem?_getD, List.getElem?_range h]

/-- One sample of a net. -/
theorem sample_getD {K : Type} [Field K] [LinearOrder K] (M : List (List Nat)) (N D n i c : Nat) (idx : List Nat)
    (sh : List Nat) (tent : Bool) (hi : idx[i]? = some n) (hc : c < M.length) (hsh : c < sh.length) :
    ((digitalNetSample M N D (some idx) none (some sh) tent : List (List K)).getD i []).getD c 0 =
      toUnit D (digitalNetPoint (M.getD c []) (Nat.clog 2 N) (sh.getD c 0) n) tent := by
  unfold digitalNetSample
  simp only [Option.getD_some]
  have hil : i < idx.length := (List.getElem?_eq_some_iff.1 hi).1
  rw [getD_mapList _ _ 0 _ _ hil, zipWith_getD _ _ _ [] 0 _ _ hc hsh]
  congr 2
  rw [List.getD_eq_getElem?_getD, hi]; rfl

theorem sample_default {K : Type} [Field K] [LinearOrder K] (M : List (List Nat)) (N D : Nat) (sc)
    (idx sh) (tent : Bool) :
    (digitalNetSample M N D idx sc sh tent : List (List K)) =
      digitalNetSample M N D (some (idx.getD (List.range N))) sc
        (some (sh.getD (List.replicate M.length 0))) tent := by
  unfold digitalNetSample
  cases idx <;> cases sh <;> rfl

/-- The matrices and direction numbers of the coordinates. -/
def dirs (table : List (Nat × List Nat)) (c j : Nat) : Nat :=
  if c = 0 then 1
  else dirNum (table.getD (c - 1) (0, [])).1 (Nat.log 2 (table.getD (c - 1) (0, [])).1)
    (fun j => (table.getD (c - 1) (0, [])).2.getD j 0) j

theorem dirs_odd (table : List (Nat × List Nat)) (hT : ∀ q ∈ table, ValidEntry q) (c : Nat)
    (hc : c - 1 < table.length ∨ c = 0) (j : Nat) : dirs table c j % 2 = 1 ∧ dirs table c j < 2 ^ (j + 1) := by
  unfold dirs
  split
  · refine ⟨rfl, ?_⟩
    calc 1 < 2 ^ 1 := by norm_num
      _ ≤ 2 ^ (j + 1) := Nat.pow_le_pow_right (by omega) (by omega)
  · rcases hc with hc | hc
    · have hv := hT _ (List.getElem_mem hc)
      have he : table.getD (c - 1) (0, []) = table[c - 1] := by
        simp [List.getD_eq_getElem?_getD, List.getElem?_eq_getElem hc]
      rw [he]
      have hdeg : 0 < Nat.log 2 table[c - 1].1 := Nat.log_pos (by omega) hv.1
      exact directions_odd _ _ _ _ hdeg (dirNum_spec _ _ _ hdeg) hv.2.2 j
    · omega

theorem sobolMatrices_length (table : List (Nat × List Nat)) (dim N D : Nat) (hdim : 0 < dim)
    (hd : dim ≤ table.length + 1) : (sobolGeneratingMatrices table dim N D).length = dim := by
  unfold sobolGeneratingMatrices
  simp; omega

theorem sobolMatrices_getD (table : List (Nat × List Nat)) (hT : ∀ q ∈ table, ValidEntry q) (dim N D c j : Nat)
    (hc : c < dim) (hd : dim ≤ table.length + 1) (hD : Nat.clog 2 N ≤ D) (hj : j < Nat.clog 2 N) :
    ((sobolGeneratingMatrices table dim N D).getD c []).getD j 0 = dirs table c j <<< (D - 1 - j) := by
  unfold sobolGeneratingMatrices dirs
  cases c with
  | zero =>
    simp only [List.getD_cons_zero, if_true]
    unfold identityMatrix
    rw [getD_mapRange _ _ _ hj]
  | succ c =>
    have hct : c < (table.take (dim - 1)).length := by simp; omega
    have hc' : c < table.length := by omega
    rw [List.getD_cons_succ, getD_mapList _ _ (0, []) _ _ hct, if_neg (by omega)]
    have he : (table.take (dim - 1)).getD c (0, []) = table.getD c (0, []) := by
      simp only [List.getD_eq_getElem?_getD]
      rw [List.getElem?_take_of_lt (by omega)]
    rw [he, show c + 1 - 1 = c by omega]
    have hv : 2 ≤ (table.getD c (0, [])).1 := by
      have h1 : table.getD c (0, []) = table[c] := by
        simp [List.getD_eq_getElem?_getD, List.getElem?_eq_getElem hc']
      rw [h1]; exact (hT _ (List.getElem_mem hc')).1
    exact sobolMatrix_getD _ _ _ _ hv hD j hj

/-- Sample `n`, coordinate `c` of the plain Sobol sequence. -/
theorem sobolSample_getD {K : Type} [Field K] [LinearOrder K] (table : List (Nat × List Nat))
    (hT : ∀ q ∈ table, ValidEntry q) (dim N c i n : Nat) (idx : Option (List Nat)) (sh : Option (List Nat))
    (hc : c < dim) (hd : dim ≤ table.length + 1) (hi : (idx.getD (List.range N))[i]? = some n)
    (hsh : (sh.getD (List.replicate dim 0)).length = dim) (tent : Bool) :
    ((sobolSample table dim N idx sh none tent : List (List K)).getD i []).getD c 0 =
      toUnit (Nat.clog 2 N) (xorPoint (fun j => dirs table c j <<< (Nat.clog 2 N - 1 - j))
        ((sh.getD (List.replicate dim 0)).getD c 0) (Nat.clog 2 N) n) tent := by
  unfold sobolSample
  simp only []
  have hlen := sobolMatrices_length table dim N (Nat.clog 2 N) (by omega) hd
  rw [sample_default, sample_getD _ _ _ n i c _ _ _ hi (by omega) (by rw [hlen]; omega), digitalNetPoint_eq, hlen]
  congr 1
  apply xorPoint_congr
  intro j hj
  exact sobolMatrices_getD table hT dim N _ c j hc hd (le_refl _) hj

theorem range_get (N n : Nat) (h : n < N) : ((none : Option (List Nat)).getD (List.range N))[n]? = some n := by
  simp [h]

theorem lt_pow_clog (N n : Nat) (h : n < N) : n < 2 ^ Nat.clog 2 N := lt_of_lt_of_le h (Nat.le_pow_clog (by omega) N)

end Lemmas

namespace Props
open Model Spec Lemmas

section
variable {K : Type} [Field K] [LinearOrder K] [IsStrictOrderedRing K]

/-- The table row of coordinate 3 of Joe and Kuo: polynomial `x^2+x+1`, numbers 1, 3. -/
def exTable : List (Nat × List Nat) := [(3, [1]), (7, [1, 3])]

theorem exTable_valid : ∀ q ∈ exTable, ValidEntry q := by
  have h1 : Nat.log 2 3 = 1 := by decide +kernel
  have h2 : Nat.log 2 7 = 2 := by decide +kernel
  unfold exTable ValidEntry
  intro q hq
  simp only [List.mem_cons, List.not_mem_nil, or_false] at hq
  rcases hq with rfl | rfl
  · rw [h1]; decide
  · rw [h2]; decide

/-- C25 (`qmc/sobol.py`): in every coordinate, the samples of `sobol_sample`, plain or with a digital shift, are
stratified in base 2 and lie in `[0, 1)`. -/
theorem C25_sobol_sample (table : List (Nat × List Nat)) (hT : ∀ q ∈ table, ValidEntry q) (dim N c : Nat)
    (shift : Option (List Nat)) (hsh : ∀ s, shift = some s → s.length = dim ∧ ∀ x ∈ s, x < 2 ^ Nat.clog 2 N)
    (hc : c < dim) (hd : dim ≤ table.length + 1) :
    Stratified 2 0 N (fun n => ((sobolSample table dim N none shift none false : List (List K)).getD n []).getD c 0) ∧
    ∀ n, n < N → 0 ≤ ((sobolSample table dim N none shift none false : List (List K)).getD n []).getD c 0 ∧
      ((sobolSample table dim N none shift none false : List (List K)).getD n []).getD c 0 < 1 := by
  have hs1 : (shift.getD (List.replicate dim 0)).length = dim := by
    cases shift with
    | none => simp
    | some s => exact (hsh s rfl).1
  have hs2 : (shift.getD (List.replicate dim 0)).getD c 0 < 2 ^ Nat.clog 2 N := by
    cases shift with
    | none =>
      simp only [Option.getD_none]
      rw [List.getD_eq_getElem?_getD, List.getElem?_replicate]
      split <;> exact Nat.two_pow_pos _
    | some s =>
      obtain ⟨h1, h2⟩ := hsh s rfl
      simp only [Option.getD_some]
      have hcs : c < s.length := by omega
      rw [List.getD_eq_getElem?_getD, List.getElem?_eq_getElem hcs]
      exact h2 _ (List.getElem_mem hcs)
  generalize hS : (shift.getD (List.replicate dim 0)).getD c 0 = S at hs2
  have hval : ∀ n, n < N → ((sobolSample table dim N none shift none false : List (List K)).getD n []).getD c 0 =
      ((xorPoint (fun j => dirs table c j <<< (Nat.clog 2 N - 1 - j)) S (Nat.clog 2 N) n : Nat) : K) /
        ((2 : Nat) : K) ^ Nat.clog 2 N := by
    intro n hn
    rw [sobolSample_getD table hT dim N c n n none shift hc hd (range_get N n hn) hs1, toUnit_false, hS]
  have htri := triangular_of_odd (Nat.clog 2 N) (Nat.clog 2 N) (dirs table c) (le_refl _)
    (fun j _ => dirs_odd table hT c (by omega) j)
  have hlt : ∀ n, xorPoint (fun j => dirs table c j <<< (Nat.clog 2 N - 1 - j)) S (Nat.clog 2 N) n <
      2 ^ Nat.clog 2 N := fun n => xorPoint_lt _ _ _ _ _ hs2 (fun j hj => (htri j hj).1)
  constructor
  · have := stratified_of_inj (K := K) 2 (Nat.clog 2 N) 0 N (by omega)
      (xorPoint (fun j => dirs table c j <<< (Nat.clog 2 N - 1 - j)) S (Nat.clog 2 N))
      (Nat.le_pow_clog (by omega) N) (fun n _ _ => hlt n)
      (fun m hm n n' _ hn _ hn' hb hp => triangular_inj _ _ S (le_refl _) _ htri m hm n n' (lt_pow_clog N n hn)
        (lt_pow_clog N n' hn') hb hp)
    exact stratified_congr 2 0 N _ _ (fun n _ hn => (hval n hn).symm) this
  · intro n hn
    rw [hval n hn]
    exact unit_range 2 _ _ (by omega) (hlt n)

/-- C25: the points of chosen `sequence_indices` are the points of the sequence with these indices. -/
theorem C25_sequence_indices (table : List (Nat × List Nat)) (hT : ∀ q ∈ table, ValidEntry q) (dim N c i n : Nat)
    (idx : List Nat) (hc : c < dim) (hd : dim ≤ table.length + 1) (hi : idx[i]? = some n) (hn : n < N) :
    ((sobolSample table dim N (some idx) none none false : List (List K)).getD i []).getD c 0 =
      ((sobolSample table dim N none none none false : List (List K)).getD n []).getD c 0 := by
  rw [sobolSample_getD table hT dim N c i n (some idx) none hc hd hi (by simp),
    sobolSample_getD table hT dim N c n n none none hc hd (range_get N n hn) (by simp)]

/-- C25: the direction numbers follow the published recurrence
`m_j = 2 a_1 m_{j-1} ^ ... ^ 2^(s-1) a_{s-1} m_{j-s+1} ^ 2^s m_{j-s} ^ m_{j-s}` where the coefficients are the bits of the
polynomial (bit `i` goes with `m_{j-s+i}`). -/
theorem C25_recurrence (poly : Nat) (initial : List Nat) (hv : ValidEntry (poly, initial)) (hs : Nat.log 2 poly ≤ 32)
    (j : Nat) (hj : j < 32) :
    (j < Nat.log 2 poly → (directionRow poly initial).getD j 0 = initial.getD j 0) ∧
    (Nat.log 2 poly ≤ j → (directionRow poly initial).getD j 0 =
      xorSum ((List.range (Nat.log 2 poly)).map (fun i =>
        poly / 2 ^ i % 2 * 2 ^ (Nat.log 2 poly - i) * (directionRow poly initial).getD (j - Nat.log 2 poly + i) 0)) ^^^
      (directionRow poly initial).getD (j - Nat.log 2 poly) 0) := by
  have hrow := directionRow_eq poly initial hv.2.1 hs
  have hdeg : 0 < Nat.log 2 poly := Nat.log_pos (by omega) hv.1
  have hm := dirNum_spec poly (Nat.log 2 poly) (fun j => initial.getD j 0) hdeg
  have hg : ∀ k, k < 32 → (directionRow poly initial).getD k 0 =
      dirNum poly (Nat.log 2 poly) (fun j => initial.getD j 0) k := by
    intro k hk; rw [hrow, rowN_getD _ _ _ _ _ hk]
  refine ⟨fun h => by rw [hg j hj, hm.1 j h], fun h => ?_⟩
  generalize hd : dirNum poly (Nat.log 2 poly) (fun j => initial.getD j 0) = m at *
  generalize hD : Nat.log 2 poly = deg at *
  rw [hg j hj, hm.2 j h, hg (j - deg) (by omega)]
  have hsum : ∀ l k : List Nat, xorSum (l ++ k) = xorSum l ^^^ xorSum k := by
    intro l k
    induction l with
    | nil => simp [xorSum]
    | cons a l ih => simp [xorSum, ih, Nat.xor_assoc]
  have hind : ∀ t, t ≤ deg → recPart poly deg m j t =
      xorSum ((List.range t).map (fun i => poly / 2 ^ i % 2 * 2 ^ (deg - i) *
        (directionRow poly initial).getD (j - deg + i) 0)) ^^^ m (j - deg) := by
    intro t
    induction t with
    | zero => intro _; simp [recPart, xorSum]
    | succ t ih =>
      intro ht
      unfold recPart
      rw [ih (by omega), List.range_succ, List.map_append, hsum]
      simp only [List.map_cons, List.map_nil, xorSum, Nat.xor_zero]
      rw [hg (j - deg + t) (by omega)]
      have hb : (if poly.testBit t = true then m (j - deg + t) <<< (deg - t) else 0) =
          poly / 2 ^ t % 2 * 2 ^ (deg - t) * m (j - deg + t) := by
        rw [Nat.testBit_eq_decide_div_mod_eq]
        rcases Nat.mod_two_eq_zero_or_one (poly / 2 ^ t) with h0 | h0
        · rw [h0]; simp
        · rw [h0, Nat.shiftLeft_eq]; simp [Nat.mul_comm]
      rw [hb, Nat.xor_assoc, Nat.xor_assoc, Nat.xor_comm (m (j - deg))]
  exact hind deg (le_refl deg)

example : ValidEntry (7, [1, 3]) ∧ (directionRow 7 [1, 3]).take 5 = [1, 3, 3, 9, 29] := by
  refine ⟨exTable_valid _ (by decide), ?_⟩
  unfold directionRow
  have h2 : Nat.log 2 7 = 2 := by decide +kernel
  rw [h2]; decide +kernel

theorem implSample_getD (table : List (Nat × List Nat)) (hT : ∀ q ∈ table, ValidEntry q)
    (h32 : ∀ q ∈ table, Nat.log 2 q.1 ≤ 32) (dim N skip c i : Nat)
    (hc : c < dim) (hd : dim ≤ table.length + 1) (hN : Nat.clog 2 (skip + N + 1) ≤ 32) (hi : i < N) :
    ((sobolImplSample table dim N skip : List (List K)).getD i []).getD c 0 =
      ((xorPoint (fun j => dirs table c j <<< (Nat.clog 2 (skip + N + 1) - 1 - j)) 0
        (Nat.clog 2 (skip + N + 1)) (skip + 1 + i) : Nat) : K) / ((2 : Nat) : K) ^ Nat.clog 2 (skip + N + 1) := by
  have hpos : 0 < Nat.clog 2 (skip + N + 1) := Nat.clog_pos (by omega) (by omega)
  unfold sobolImplSample
  simp only []
  generalize Nat.clog 2 (skip + N + 1) = D at *
  have hlen : (computeDirectionNumbers table dim).length = dim := by
    unfold computeDirectionNumbers; simp; omega
  rw [getD_mapList _ _ 0 _ _ (by simpa using hi), getD_mapList _ _ [] _ _ (by omega), getD_range N i hi,
    sobolIndexPoint_eq _ _ _ hpos]
  have hcol : ∀ j, j < D → ((computeDirectionNumbers table dim).getD c []).getD j 0 = dirs table c j := by
    intro j hj
    unfold computeDirectionNumbers dirs
    cases c with
    | zero =>
      rw [List.getD_cons_zero, if_pos rfl, List.getD_eq_getElem?_getD, List.getElem?_replicate, if_pos (by omega)]
      rfl
    | succ c =>
      have hct : c < (table.take (dim - 1)).length := by simp; omega
      have hc' : c < table.length := by omega
      rw [List.getD_cons_succ, getD_mapList _ _ (0, []) _ _ hct, if_neg (by omega)]
      have he : (table.take (dim - 1)).getD c (0, []) = table.getD c (0, []) := by
        simp only [List.getD_eq_getElem?_getD]
        rw [List.getElem?_take_of_lt (by omega)]
      rw [he, show c + 1 - 1 = c by omega]
      have h1 : table.getD c (0, []) = table[c] := by
        simp [List.getD_eq_getElem?_getD, List.getElem?_eq_getElem hc']
      rw [h1, directionRow_eq _ _ (hT _ (List.getElem_mem hc')).2.1 (h32 _ (List.getElem_mem hc')),
        rowN_getD _ _ _ _ _ (by omega)]
  rw [xorPoint_congr _ (fun j => dirs table c j <<< (D - 1 - j)) 0 D _ (fun j hj => by rw [hcol j hj])]
  simp [Nat.shiftLeft_eq]

/-- C25 (`random_ops/sobol/sobol_impl.py`): sample `i` is the point of index `skip + 1 + i`; the samples are stratified in
every coordinate on every aligned block of indices covered, and lie in `[0, 1)`. -/
theorem C25_sobol_impl (table : List (Nat × List Nat)) (hT : ∀ q ∈ table, ValidEntry q)
    (h32 : ∀ q ∈ table, Nat.log 2 q.1 ≤ 32) (dim N skip c : Nat)
    (hc : c < dim) (hd : dim ≤ table.length + 1) (hN : Nat.clog 2 (skip + N + 1) ≤ 32) :
    Stratified 2 (skip + 1) (skip + 1 + N)
      (fun n => ((sobolImplSample table dim N skip : List (List K)).getD (n - (skip + 1)) []).getD c 0) ∧
    ∀ i, i < N → 0 ≤ ((sobolImplSample table dim N skip : List (List K)).getD i []).getD c 0 ∧
      ((sobolImplSample table dim N skip : List (List K)).getD i []).getD c 0 < 1 := by
  have hval := (implSample_getD (K := K) table hT h32 dim N skip c · hc hd hN)
  have hle : skip + 1 + N ≤ 2 ^ Nat.clog 2 (skip + N + 1) := by
    have := Nat.le_pow_clog (by omega : 1 < 2) (skip + N + 1)
    omega
  generalize Nat.clog 2 (skip + N + 1) = D at *
  have htri := triangular_of_odd D D (dirs table c) (le_refl _) (fun j _ => dirs_odd table hT c (by omega) j)
  have hlt : ∀ n, xorPoint (fun j => dirs table c j <<< (D - 1 - j)) 0 D n < 2 ^ D :=
    fun n => xorPoint_lt _ _ _ _ _ (Nat.two_pow_pos _) (fun j hj => (htri j hj).1)
  constructor
  · have := stratified_of_inj (K := K) 2 D (skip + 1) (skip + 1 + N) (by omega)
      (xorPoint (fun j => dirs table c j <<< (D - 1 - j)) 0 D) hle (fun n _ _ => hlt n)
      (fun m hm n n' _ hn _ hn' hb hp => triangular_inj _ _ 0 (le_refl _) _ htri m hm n n' (by omega)
        (by omega) hb hp)
    refine stratified_congr 2 _ _ _ _ (fun n hlo hn => ?_) this
    have := hval (n - (skip + 1)) (by omega)
    rw [show skip + 1 + (n - (skip + 1)) = n by omega] at this
    exact this.symm
  · intro i hi
    rw [hval i hi]
    exact unit_range 2 _ _ (by omega) (hlt _)

/-- C25: the two implementations agree: sample `i` of `sobol_impl.sample` with `skip` is point `skip + 1 + i` of
`sobol_sample`, whatever number of results (hence digits) either is asked for. -/
theorem C25_implementations_agree (table : List (Nat × List Nat)) (hT : ∀ q ∈ table, ValidEntry q)
    (h32 : ∀ q ∈ table, Nat.log 2 q.1 ≤ 32) (dim N skip M c i : Nat)
    (hc : c < dim) (hd : dim ≤ table.length + 1) (hN : Nat.clog 2 (skip + N + 1) ≤ 32) (hi : i < N)
    (hM : skip + 1 + i < M) :
    ((sobolImplSample table dim N skip : List (List K)).getD i []).getD c 0 =
      ((sobolSample table dim M none none none false : List (List K)).getD (skip + 1 + i) []).getD c 0 := by
  rw [implSample_getD table hT h32 dim N skip c i hc hd hN hi,
    sobolSample_getD table hT dim M c _ _ none none hc hd (range_get M _ hM) (by simp), toUnit_false]
  have h0 : ((none : Option (List Nat)).getD (List.replicate dim 0)).getD c 0 = 0 := by
    simp only [Option.getD_none]
    rw [List.getD_eq_getElem?_getD, List.getElem?_replicate]
    split <;> rfl
  rw [h0]
  have h1 : skip + 1 + i < 2 ^ Nat.clog 2 (skip + N + 1) :=
    lt_of_lt_of_le (by omega) (Nat.le_pow_clog (by omega : 1 < 2) (skip + N + 1))
  have h2 : skip + 1 + i < 2 ^ Nat.clog 2 M := lt_pow_clog M _ hM
  generalize Nat.clog 2 (skip + N + 1) = D at *
  generalize Nat.clog 2 M = E at *
  generalize skip + 1 + i = n at *
  have key : ∀ L D, L ≤ D → n < 2 ^ L →
      ((xorPoint (fun j => dirs table c j <<< (D - 1 - j)) 0 D n : Nat) : K) / ((2 : Nat) : K) ^ D =
      ((xorPoint (fun j => dirs table c j <<< (L - 1 - j)) 0 L n : Nat) : K) / ((2 : Nat) : K) ^ L := by
    intro L D hLD hn
    rw [xorPoint_digits (dirs table c) L D n hLD hn, Nat.shiftLeft_eq]
    have hp : ((2 : Nat) : K) ^ D = ((2 : Nat) : K) ^ L * ((2 : Nat) : K) ^ (D - L) := by
      rw [← pow_add]; congr 1; omega
    rw [hp]
    push_cast
    field_simp
  rcases Nat.le_total D E with h | h
  · exact (key D E h h1).symm
  · exact key E D h h2

end

/-- The hypotheses hold for a table with two further coordinates and 8 points. -/
example : (∀ q ∈ exTable, ValidEntry q) ∧ (3 : Nat) ≤ exTable.length + 1 ∧
    (sobolSample exTable 3 4 none none none false : List (List Rat)) =
      [[0, 0, 0], [1/2, 1/2, 1/2], [1/4, 3/4, 3/4], [3/4, 1/4, 1/4]] ∧
    (sobolImplSample exTable 3 3 0 : List (List Rat)) =
      [[1/2, 1/2, 1/2], [1/4, 3/4, 3/4], [3/4, 1/4, 1/4]] := by
  refine ⟨exTable_valid, by decide, ?_, ?_⟩
  · decide +kernel
  · decide +kernel

end Props
