import Verif.Lemmas.DigitalNet
import Verif.Lemmas.Piecewise

/-! The Sobol recurrence. -/

namespace Lemmas
open Model Spec

/-- The first `t` terms of the recurrence for direction number `i`. -/
def recPart (a deg : Nat) (m : Nat → Nat) (i : Nat) : Nat → Nat
  | 0 => m (i - deg)
  | t + 1 => recPart a deg m i t ^^^ (if a.testBit t then m (i - deg + t) <<< (deg - t) else 0)

/-- The Sobol recurrence with initial numbers `init`. -/
def IsDirections (a deg : Nat) (init m : Nat → Nat) : Prop :=
  (∀ j, j < deg → m j = init j) ∧ ∀ j, deg ≤ j → m j = recPart a deg m j deg

theorem and_one_iff (a i : Nat) : ((a >>> i) &&& 1 = 1) ↔ a.testBit i = true := by
  rw [Nat.and_one_is_mod, Nat.testBit, Nat.one_and_eq_mod_two]
  rcases Nat.mod_two_eq_zero_or_one (a >>> i) with h | h <;> simp [h]

theorem recPart_congr (a deg : Nat) (m m' : Nat → Nat) (i t : Nat) (h0 : m (i - deg) = m' (i - deg))
    (h : ∀ k, k < t → m (i - deg + k) = m' (i - deg + k)) : recPart a deg m i t = recPart a deg m' i t := by
  induction t with
  | zero => exact h0
  | succ t ih => unfold recPart; rw [ih (fun k hk => h k (by omega)), h t (by omega)]

theorem nextDirection_eq (a deg : Nat) (l : List Nat) :
    nextDirection a deg l = recPart a deg (fun k => l.getD k 0) l.length deg := by
  unfold nextDirection
  have : ∀ t, (List.range t).foldl (fun v i =>
      if (a >>> i) &&& 1 = 1 then v ^^^ ((l.getD (l.length - deg + i) 0) <<< (deg - i)) else v)
      (l.getD (l.length - deg) 0) = recPart a deg (fun k => l.getD k 0) l.length t := by
    intro t
    induction t with
    | zero => rfl
    | succ t ih =>
      rw [List.range_succ, List.foldl_append, ih]
      simp only [List.foldl_cons, List.foldl_nil, and_one_iff, recPart]
      split <;> simp
  exact this deg

/-- The list of the first direction numbers. -/
def rowN (a deg : Nat) (init : Nat → Nat) : Nat → List Nat
  | 0 => []
  | n + 1 => rowN a deg init n ++ [if n < deg then init n else nextDirection a deg (rowN a deg init n)]

theorem rowN_length (a deg : Nat) (init : Nat → Nat) (n : Nat) : (rowN a deg init n).length = n := by
  induction n with
  | zero => rfl
  | succ n ih => simp [rowN, ih]

/-- Direction number `j`. -/
def dirNum (a deg : Nat) (init : Nat → Nat) (j : Nat) : Nat := (rowN a deg init (j + 1)).getD j 0

theorem rowN_getD (a deg : Nat) (init : Nat → Nat) (n j : Nat) (h : j < n) :
    (rowN a deg init n).getD j 0 = dirNum a deg init j := by
  induction n with
  | zero => omega
  | succ n ih =>
    rcases Nat.lt_or_ge j n with hj | hj
    · rw [← ih hj]
      conv_lhs => unfold rowN
      rw [List.getD_eq_getElem?_getD, List.getElem?_append_left (by rw [rowN_length]; omega),
        ← List.getD_eq_getElem?_getD]
    · rw [show n = j by omega]; rfl

theorem dirNum_last (a deg : Nat) (init : Nat → Nat) (j : Nat) :
    dirNum a deg init j = if j < deg then init j else nextDirection a deg (rowN a deg init j) := by
  unfold dirNum
  conv_lhs => unfold rowN
  rw [List.getD_eq_getElem?_getD, List.getElem?_append_right (by rw [rowN_length]), rowN_length]
  simp

theorem dirNum_spec (a deg : Nat) (init : Nat → Nat) (hdeg : 0 < deg) :
    IsDirections a deg init (dirNum a deg init) := by
  constructor
  · intro j hj
    rw [dirNum_last, if_pos hj]
  · intro j hj
    rw [dirNum_last, if_neg (by omega), nextDirection_eq, rowN_length]
    apply recPart_congr
    · exact rowN_getD _ _ _ _ _ (by omega)
    · intro k hk
      exact rowN_getD _ _ _ _ _ (by omega)

theorem directions_unique (a deg : Nat) (init m m' : Nat → Nat) (hdeg : 0 < deg) (h : IsDirections a deg init m)
    (h' : IsDirections a deg init m') (j : Nat) : m j = m' j := by
  induction j using Nat.strong_induction_on with
  | _ j ih =>
    rcases Nat.lt_or_ge j deg with hj | hj
    · rw [h.1 j hj, h'.1 j hj]
    · rw [h.2 j hj, h'.2 j hj]
      apply recPart_congr
      · exact ih _ (by omega)
      · intro k hk; exact ih _ (by omega)

/-- Direction numbers are odd and `m_j < 2^(j+1)` when the initial ones are. -/
theorem directions_odd (a deg : Nat) (init m : Nat → Nat) (hdeg : 0 < deg) (h : IsDirections a deg init m)
    (hinit : ∀ j, j < deg → init j % 2 = 1 ∧ init j < 2 ^ (j + 1)) (j : Nat) :
    m j % 2 = 1 ∧ m j < 2 ^ (j + 1) := by
  induction j using Nat.strong_induction_on with
  | _ j ih =>
    rcases Nat.lt_or_ge j deg with hj | hj
    · rw [h.1 j hj]; exact hinit j hj
    · rw [h.2 j hj]
      have key : ∀ t, t ≤ deg → (recPart a deg m j t).testBit 0 = true ∧ recPart a deg m j t < 2 ^ (j + 1) := by
        intro t
        induction t with
        | zero =>
          intro _
          obtain ⟨h1, h2⟩ := ih (j - deg) (by omega)
          refine ⟨by unfold recPart; rw [Nat.testBit_zero]; simpa using h1, ?_⟩
          exact lt_of_lt_of_le h2 (Nat.pow_le_pow_right (by omega) (by omega))
        | succ t iht =>
          intro ht
          obtain ⟨h1, h2⟩ := iht (by omega)
          unfold recPart
          have hs : (if a.testBit t = true then m (j - deg + t) <<< (deg - t) else 0) < 2 ^ (j + 1) := by
            split
            · have := (ih (j - deg + t) (by omega)).2
              rw [Nat.shiftLeft_eq]
              calc m (j - deg + t) * 2 ^ (deg - t) < 2 ^ (j - deg + t + 1) * 2 ^ (deg - t) :=
                    Nat.mul_lt_mul_of_pos_right this (Nat.two_pow_pos _)
                _ = 2 ^ (j + 1) := by rw [← Nat.pow_add]; congr 1; omega
            · exact Nat.two_pow_pos _
          refine ⟨?_, Nat.xor_lt_two_pow h2 hs⟩
          rw [Nat.testBit_xor, h1]
          split
          · rw [Nat.testBit_shiftLeft]
            have : decide (0 ≥ deg - t) = false := by simp; omega
            rw [this]; rfl
          · simp
      obtain ⟨h1, h2⟩ := key deg (le_refl deg)
      refine ⟨?_, h2⟩
      rw [Nat.testBit_zero] at h1
      simpa using h1

theorem getD_mapRange (n : Nat) (f : Nat → Nat) (i : Nat) (h : i < n) : ((List.range n).map f).getD i 0 = f i := by
  rw [List.getD_eq_getElem?_getD]
  simp [List.getElem?_range h]

theorem loopBody_getD (a deg : Nat) (A : List Nat) (c i : Nat) (h : i < A.length) :
    (sobolLoopBody a deg A c).getD i 0 =
      if max deg (c + 1) ≤ i ∧ i ≤ c + deg then
        (if i = c + deg then A.getD c 0 >>> deg else A.getD i 0) ^^^
          (if a.testBit (c + deg - i) then A.getD c 0 else 0)
      else A.getD i 0 := by
  unfold sobolLoopBody
  simp only [filterTensor_eq]
  rw [getD_mapRange _ _ i h]

theorem loopBody_length (a deg : Nat) (A : List Nat) (c : Nat) : (sobolLoopBody a deg A c).length = A.length := by
  unfold sobolLoopBody; simp

theorem xor_shl (a b k : Nat) : (a ^^^ b) <<< k = (a <<< k) ^^^ (b <<< k) := Nat.shiftLeft_xor_distrib

/-- Loop invariant of `_sobol_generating_matrices`. -/
theorem sobol_loop (a deg L D : Nat) (init m : Nat → Nat) (hdeg : 0 < deg) (hLD : L ≤ D)
    (hm : IsDirections a deg init m) (A0 : List Nat) (hlen : A0.length = L)
    (h0 : ∀ i, i < L → i < deg → A0.getD i 0 = init i <<< (D - 1 - i)) (c : Nat) (hc : c ≤ L) :
    ((List.range c).foldl (sobolLoopBody a deg) A0).length = L ∧
    ∀ i, i < L →
      (i < deg → ((List.range c).foldl (sobolLoopBody a deg) A0).getD i 0 = init i <<< (D - 1 - i)) ∧
      (deg ≤ i → i - deg < c → ((List.range c).foldl (sobolLoopBody a deg) A0).getD i 0 =
        recPart a deg m i (min (c - (i - deg)) deg) <<< (D - 1 - i)) := by
  induction c with
  | zero => exact ⟨hlen, fun i hi => ⟨h0 i hi, fun _ h => by omega⟩⟩
  | succ c ih =>
    obtain ⟨hl, ih⟩ := ih (by omega)
    rw [List.range_succ, List.foldl_append]
    simp only [List.foldl_cons, List.foldl_nil]
    generalize hA : (List.range c).foldl (sobolLoopBody a deg) A0 = A at hl ih
    refine ⟨by rw [loopBody_length, hl], fun i hi => ?_⟩
    rw [loopBody_getD a deg A c i (by omega)]
    obtain ⟨i1, i2⟩ := ih i hi
    have hcol : A.getD c 0 = m c <<< (D - 1 - c) := by
      obtain ⟨c1, c2⟩ := ih c (by omega)
      rcases Nat.lt_or_ge c deg with h | h
      · rw [c1 h, hm.1 c h]
      · rw [c2 h (by omega), show min (c - (c - deg)) deg = deg by omega, ← hm.2 c h]
    refine ⟨fun h => ?_, fun h hi' => ?_⟩
    · rw [if_neg (by omega)]; exact i1 h
    · rcases Nat.lt_or_ge c i with hci | hci
      · rw [if_pos (by omega)]
        rcases Nat.lt_or_ge (i - deg) c with h3 | h3
        · -- a further term
          rw [if_neg (by omega), i2 h h3]
          rw [show min (c + 1 - (i - deg)) deg = min (c - (i - deg)) deg + 1 by omega]
          conv_rhs => unfold recPart
          rw [xor_shl, show min (c - (i - deg)) deg = c + deg - i by omega]
          congr 1
          split
          · rw [hcol, show i - deg + (c + deg - i) = c by omega, ← Nat.shiftLeft_add]
            congr 1; omega
          · simp
        · -- first term
          have hic : i = c + deg := by omega
          subst hic
          rw [if_pos rfl, show min (c + 1 - (c + deg - deg)) deg = 0 + 1 by omega]
          unfold recPart
          unfold recPart
          rw [xor_shl, show c + deg - deg = c by omega, show c + deg - (c + deg) = 0 by omega, hcol]
          congr 1
          · rw [show D - 1 - c = (D - 1 - (c + deg)) + deg by omega, Nat.shiftLeft_add, Nat.shiftLeft_shiftRight]
          · split
            · rw [← Nat.shiftLeft_add, Nat.add_zero]
              congr 1; omega
            · simp
      · rw [if_neg (by omega), i2 h (by omega)]
        congr 2; omega

/-- The columns of the Sobol generating matrices are the shifted direction numbers. -/
theorem sobolMatrix_getD (poly L D : Nat) (dirs : List Nat) (hpoly : 2 ≤ poly) (hLD : L ≤ D) (j : Nat) (hj : j < L) :
    (sobolMatrix poly dirs L D).getD j 0 =
      dirNum poly (Nat.log 2 poly) (fun j => dirs.getD j 0) j <<< (D - 1 - j) := by
  have hdeg : 0 < Nat.log 2 poly := Nat.log_pos (by omega) hpoly
  have hm := dirNum_spec poly (Nat.log 2 poly) (fun j => dirs.getD j 0) hdeg
  unfold sobolMatrix
  have := (sobol_loop poly (Nat.log 2 poly) L D (fun j => dirs.getD j 0) _ hdeg hLD hm
    (sobolInitial dirs L D) (by unfold sobolInitial; simp)
    (by intro i hi _; unfold sobolInitial; rw [getD_mapRange _ _ i hi]) (L - 1) (by omega)).2 j hj
  rcases Nat.lt_or_ge j (Nat.log 2 poly) with h | h
  · rw [this.1 h, hm.1 j h]
  · rw [this.2 h (by omega), show min (L - 1 - (j - Nat.log 2 poly)) (Nat.log 2 poly) = Nat.log 2 poly by omega,
      ← hm.2 j h]

theorem sobolMatrix_length (poly L D : Nat) (dirs : List Nat) : (sobolMatrix poly dirs L D).length = L := by
  unfold sobolMatrix
  generalize hk : L - 1 = k
  have : ∀ k, ((List.range k).foldl (sobolLoopBody poly (Nat.log 2 poly)) (sobolInitial dirs L D)).length = L := by
    intro k
    induction k with
    | zero => simp [sobolInitial]
    | succ k ih => rw [List.range_succ, List.foldl_append]; simp [loopBody_length, ih]
  exact this k

/-- Shifted odd numbers form a triangular matrix. -/
theorem triangular_of_odd (D L : Nat) (m : Nat → Nat) (hLD : L ≤ D)
    (h : ∀ j, j < L → m j % 2 = 1 ∧ m j < 2 ^ (j + 1)) : Triangular D L (fun j => m j <<< (D - 1 - j)) := by
  intro j hj
  obtain ⟨h1, h2⟩ := h j hj
  refine ⟨?_, ?_, ?_⟩
  · show m j <<< (D - 1 - j) < 2 ^ D
    rw [Nat.shiftLeft_eq]
    calc m j * 2 ^ (D - 1 - j) < 2 ^ (j + 1) * 2 ^ (D - 1 - j) :=
          Nat.mul_lt_mul_of_pos_right h2 (Nat.two_pow_pos _)
      _ = 2 ^ D := by rw [← Nat.pow_add]; congr 1; omega
  · show (m j <<< (D - 1 - j)).testBit (D - 1 - j) = true
    rw [Nat.testBit_shiftLeft]
    simp [Nat.testBit_zero, h1]
  · intro q hq
    show (m j <<< (D - 1 - j)).testBit q = false
    rw [Nat.testBit_shiftLeft]
    have : decide (q ≥ D - 1 - j) = false := by simp; omega
    rw [this]; rfl

/-- The point of an index does not depend on the number of digits. -/
theorem xorPoint_digits (m : Nat → Nat) (L D n : Nat) (hLD : L ≤ D) (hn : n < 2 ^ L) :
    xorPoint (fun j => m j <<< (D - 1 - j)) 0 D n = xorPoint (fun j => m j <<< (L - 1 - j)) 0 L n <<< (D - L) := by
  have h1 : ∀ k, k ≤ L → xorPoint (fun j => m j <<< (D - 1 - j)) 0 k n =
      xorPoint (fun j => m j <<< (L - 1 - j)) 0 k n <<< (D - L) := by
    intro k
    induction k with
    | zero => intro _; simp [xorPoint]
    | succ k ih =>
      intro hk
      unfold xorPoint
      rw [ih (by omega), xor_shl]
      congr 1
      split
      · rw [← Nat.shiftLeft_add]; congr 1; omega
      · simp
  have h2 : ∀ t, xorPoint (fun j => m j <<< (D - 1 - j)) 0 (L + t) n =
      xorPoint (fun j => m j <<< (D - 1 - j)) 0 L n := by
    intro t
    induction t with
    | zero => rfl
    | succ t ih =>
      rw [show L + (t + 1) = (L + t) + 1 by omega]
      conv_lhs => unfold xorPoint
      rw [ih]
      have : n.testBit (L + t) = false :=
        Nat.testBit_lt_two_pow (lt_of_lt_of_le hn (Nat.pow_le_pow_right (by omega) (by omega)))
      rw [this]; simp
  have := h2 (D - L)
  rw [show L + (D - L) = D by omega] at this
  rw [this, h1 L (le_refl L)]

/-! ### `sobol_impl` -/

theorem directionRow_eq (a : Nat) (dirs : List Nat) (h1 : Nat.log 2 a ≤ dirs.length) (h2 : Nat.log 2 a ≤ 32) :
    directionRow a dirs = rowN a (Nat.log 2 a) (fun j => dirs.getD j 0) 32 := by
  unfold directionRow
  simp only []
  generalize hd : Nat.log 2 a = deg at *
  have hA : ∀ k, k ≤ deg → rowN a deg (fun j => dirs.getD j 0) k = dirs.take k := by
    intro k
    induction k with
    | zero => intro _; simp [rowN]
    | succ k ih =>
      intro hk
      unfold rowN
      rw [ih (by omega), if_pos (by omega), List.take_add_one]
      congr 1
      rw [List.getD_eq_getElem?_getD, List.getElem?_eq_getElem (by omega)]
      simp
  have hB : ∀ t, (List.range t).foldl (fun m _ => m ++ [nextDirection a deg m]) (dirs.take deg) =
      rowN a deg (fun j => dirs.getD j 0) (deg + t) := by
    intro t
    induction t with
    | zero => rw [Nat.add_zero, hA deg (le_refl deg)]; rfl
    | succ t ih =>
      rw [List.range_succ, List.foldl_append, ih]
      simp only [List.foldl_cons, List.foldl_nil]
      rw [show deg + (t + 1) = (deg + t) + 1 by omega]
      conv_rhs => unfold rowN
      rw [if_neg (by omega)]
  rw [hB, show deg + (32 - deg) = 32 by omega]

theorem sobolIndexPoint_eq (directions : List Nat) (D n : Nat) (hD : 0 < D) :
    sobolIndexPoint directions D n = xorPoint (fun j => directions.getD j 0 <<< (D - 1 - j)) 0 D n := by
  unfold sobolIndexPoint
  have hp : ∀ j, directions.getD j 0 <<< (D - 1 - j) * (1 &&& (n >>> j)) =
      if n.testBit j then directions.getD j 0 <<< (D - 1 - j) else 0 := by
    intro j
    rw [Nat.and_comm]
    by_cases h : n.testBit j = true
    · rw [(and_one_iff n j).2 h, if_pos h, Nat.mul_one]
    · rw [if_neg h]
      have : n >>> j &&& 1 = 0 := by
        have h' := fun hh => h ((and_one_iff n j).1 hh)
        rw [Nat.and_one_is_mod] at *
        rcases Nat.mod_two_eq_zero_or_one (n >>> j) with h0 | h0
        · exact h0
        · exact absurd h0 h'
      rw [this, Nat.mul_zero]
  simp only [hp]
  obtain ⟨E, rfl⟩ : ∃ E, D = E + 1 := ⟨D - 1, by omega⟩
  generalize hC : (fun j => directions.getD j 0 <<< (E + 1 - 1 - j)) = C
  have hC' : ∀ j, directions.getD j 0 <<< (E + 1 - 1 - j) = C j := fun j => by rw [← hC]
  simp only [hC']
  have : ∀ k, ((List.range (k + 1)).drop 1).foldl (fun r j => r ^^^ if n.testBit j = true then C j else 0)
      (if n.testBit 0 = true then C 0 else 0) = xorPoint C 0 (k + 1) n := by
    intro k
    induction k with
    | zero => simp [xorPoint]
    | succ k ih =>
      rw [List.range_succ, List.drop_append_of_le_length (by simp), List.foldl_append, ih]
      simp only [List.foldl_cons, List.foldl_nil]
      rfl
  exact this E

end Lemmas
