import Verif.Model.DigitalNet
import Verif.Spec.Net
import Mathlib.Data.Nat.Bitwise
import Mathlib.Data.Fintype.Card
import Mathlib.Data.Fintype.EquivFin
import Mathlib.Data.Finite.Defs
import Mathlib.Tactic.Ring
import Mathlib.Tactic.Linarith
import Mathlib.Tactic.Positivity
import Mathlib.Tactic.FieldSimp
import Mathlib.Algebra.Order.Field.Basic
import Mathlib.Data.Nat.Cast.Order.Ring

/-! Bits of digital nets. -/

namespace Lemmas
open Model Spec

theorem filterTensor_eq (v mask i : Nat) : filterTensor v mask i = if mask.testBit i then v else 0 := by
  unfold filterTensor
  have : ((mask >>> i) &&& 1 = 1) ↔ mask.testBit i = true := by
    rw [Nat.and_one_is_mod, Nat.testBit, Nat.one_and_eq_mod_two]
    have := Nat.mod_two_eq_zero_or_one (mask >>> i)
    rcases this with h | h <;> simp [h]
  by_cases h : mask.testBit i = true
  · rw [if_pos (this.2 h), if_pos h]
  · rw [if_neg (fun h' => h (this.1 h')), if_neg h]

/-- The point computed with the columns `0, ..., k-1`. -/
def xorPoint (C : Nat → Nat) (s : Nat) : Nat → Nat → Nat
  | 0, _ => s
  | k + 1, n => xorPoint C s k n ^^^ (if n.testBit k then C k else 0)

theorem digitalNetPoint_eq (columns : List Nat) (L s n : Nat) :
    digitalNetPoint columns L s n = xorPoint (fun j => columns.getD j 0) s L n := by
  unfold digitalNetPoint
  induction L with
  | zero => rfl
  | succ L ih =>
    rw [List.range_succ, List.foldl_append, ih]
    simp only [List.foldl_cons, List.foldl_nil, filterTensor_eq]
    rfl

theorem xorPoint_congr (C C' : Nat → Nat) (s L n : Nat) (h : ∀ j, j < L → C j = C' j) :
    xorPoint C s L n = xorPoint C' s L n := by
  induction L with
  | zero => rfl
  | succ L ih =>
    unfold xorPoint
    rw [ih (fun j hj => h j (by omega)), h L (by omega)]

theorem xorPoint_lt (C : Nat → Nat) (D s L n : Nat) (hs : s < 2 ^ D) (hC : ∀ j, j < L → C j < 2 ^ D) :
    xorPoint C s L n < 2 ^ D := by
  induction L with
  | zero => exact hs
  | succ L ih =>
    unfold xorPoint
    apply Nat.xor_lt_two_pow (ih (fun j hj => hC j (by omega)))
    split
    · exact hC L (by omega)
    · exact Nat.two_pow_pos D

/-- Bits at which all columns vanish come from the shift. -/
theorem xorPoint_testBit_of_zero (C : Nat → Nat) (s L n q : Nat) (h : ∀ j, j < L → (C j).testBit q = false) :
    (xorPoint C s L n).testBit q = s.testBit q := by
  induction L with
  | zero => rfl
  | succ L ih =>
    unfold xorPoint
    rw [Nat.testBit_xor, ih (fun j hj => h j (by omega))]
    split
    · rw [h L (by omega)]; simp
    · simp

/-- Indices agreeing above bit `j`: the bits of the points differ exactly as after `j + 1` columns. -/
theorem xorPoint_same_top (C : Nat → Nat) (s j L n n' q : Nat) (hj : j ≤ L)
    (h : ∀ i, j ≤ i → n.testBit i = n'.testBit i) :
    ((xorPoint C s L n).testBit q ^^ (xorPoint C s L n').testBit q) =
      ((xorPoint C s j n).testBit q ^^ (xorPoint C s j n').testBit q) := by
  induction L with
  | zero => rw [Nat.le_zero.1 hj]
  | succ L ih =>
    rcases Nat.lt_or_ge j (L + 1) with hlt | hge
    · conv_lhs => unfold xorPoint
      rw [Nat.testBit_xor, Nat.testBit_xor, h L (by omega), ← ih (by omega)]
      cases (xorPoint C s L n).testBit q <;> cases (xorPoint C s L n').testBit q <;>
        cases ((if n'.testBit L = true then C L else 0).testBit q) <;> rfl
    · rw [show j = L + 1 by omega]

/-- Unit upper triangular generating matrix: column `j` has bit `D-1-j` and no lower one, and `D` digits. -/
def Triangular (D L : Nat) (C : Nat → Nat) : Prop :=
  ∀ j, j < L → C j < 2 ^ D ∧ (C j).testBit (D - 1 - j) = true ∧ ∀ q, q < D - 1 - j → (C j).testBit q = false

/-- Injectivity of the leading digits on aligned blocks. -/
def TopInjective (D L : Nat) (p : Nat → Nat) : Prop :=
  ∀ m, m ≤ L → ∀ n n', n < 2 ^ L → n' < 2 ^ L → n / 2 ^ m = n' / 2 ^ m →
    p n / 2 ^ (D - m) = p n' / 2 ^ (D - m) → n = n'

theorem triangular_inj (D L s : Nat) (hLD : L ≤ D) (C : Nat → Nat) (hC : Triangular D L C) :
    TopInjective D L (xorPoint C s L) := by
  intro m hm n n' hn hn' hblock hp
  by_contra hne
  have hx : n ^^^ n' ≠ 0 := by
    intro h0
    exact hne (Nat.xor_eq_zero_iff.1 h0)
  obtain ⟨j, hj1, hj2⟩ := Nat.exists_most_significant_bit hx
  rw [Nat.testBit_xor] at hj1
  have hsame : ∀ i, j + 1 ≤ i → n.testBit i = n'.testBit i := by
    intro i hi
    have := hj2 i (by omega)
    rw [Nat.testBit_xor] at this
    simpa using this
  have hjm : j < m := by
    by_contra hc
    have : n.testBit j = n'.testBit j := by
      have h1 : (n / 2 ^ m).testBit (j - m) = (n' / 2 ^ m).testBit (j - m) := by rw [hblock]
      rw [Nat.testBit_div_two_pow, Nat.testBit_div_two_pow, Nat.sub_add_cancel (by omega)] at h1
      exact h1
    rw [this] at hj1
    simp at hj1
  obtain ⟨hlt, hbit, hlow⟩ := hC j (by omega)
  have h1 := xorPoint_same_top C s (j + 1) L n n' (D - 1 - j) (by omega) hsame
  have hz : ∀ i, i < j → (C i).testBit (D - 1 - j) = false := fun i hi =>
    (hC i (by omega)).2.2 (D - 1 - j) (by omega)
  have h2 : ((xorPoint C s (j + 1) n).testBit (D - 1 - j) ^^ (xorPoint C s (j + 1) n').testBit (D - 1 - j)) = true := by
    unfold xorPoint
    rw [Nat.testBit_xor, Nat.testBit_xor, xorPoint_testBit_of_zero C s j n _ hz,
      xorPoint_testBit_of_zero C s j n' _ hz]
    cases hb : n.testBit j <;> cases hb' : n'.testBit j <;> simp [hb, hb'] at hj1 ⊢ <;> simp [hbit]
  have h3 : (xorPoint C s L n).testBit (D - 1 - j) = (xorPoint C s L n').testBit (D - 1 - j) := by
    have h4 : (xorPoint C s L n / 2 ^ (D - m)).testBit (D - 1 - j - (D - m)) =
        (xorPoint C s L n' / 2 ^ (D - m)).testBit (D - 1 - j - (D - m)) := by rw [hp]
    rw [Nat.testBit_div_two_pow, Nat.testBit_div_two_pow, Nat.sub_add_cancel (by omega)] at h4
    exact h4
  rw [h2, h3] at h1
  simp at h1

/-- An element of a cell. -/
theorem div_eq_iff_cell (x k e : Nat) (he : 0 < e) : x / e = k ↔ k * e ≤ x ∧ x < (k + 1) * e := by
  constructor
  · rintro rfl
    exact ⟨Nat.div_mul_le_self x _, by rw [Nat.add_mul, Nat.one_mul]; exact Nat.lt_div_mul_add he⟩
  · rintro ⟨h1, h2⟩
    exact Nat.div_eq_of_lt_le h1 h2

/-- Pigeonhole: if `g` maps an interval of `M` indices injectively to numbers below `M`, it takes every value exactly
once. -/
theorem pigeonhole (a M : Nat) (g : Nat → Nat) (hg : ∀ n, a ≤ n → n < a + M → g n < M)
    (hinj : ∀ n n', a ≤ n → n < a + M → a ≤ n' → n' < a + M → g n = g n' → n = n') (k : Nat) (hk : k < M) :
    ∃! n, (a ≤ n ∧ n < a + M) ∧ g n = k := by
  let f : Fin M → Fin M := fun i => ⟨g (a + i.val), hg _ (by omega) (by have := i.isLt; omega)⟩
  have hi : Function.Injective f := by
    intro i i' hii
    have := hinj (a + i.val) (a + i'.val) (by omega) (by have := i.isLt; omega) (by omega)
      (by have := i'.isLt; omega) (congrArg Fin.val hii)
    exact Fin.ext (by omega)
  obtain ⟨i, hik⟩ := Finite.surjective_of_injective hi ⟨k, hk⟩
  refine ⟨a + i.val, ⟨⟨by omega, by have := i.isLt; omega⟩, congrArg Fin.val hik⟩, ?_⟩
  rintro n ⟨⟨h1, h2⟩, h3⟩
  exact hinj n _ h1 h2 (by omega) (by have := i.isLt; omega) (h3.trans (congrArg Fin.val hik).symm)

/-! ### Scrambling -/

/-- The linear map of a scrambling matrix. -/
def scr (S : Nat → Nat) (D : Nat) : Nat → Nat → Nat
  | 0, _ => 0
  | k + 1, x => scr S D k x ^^^ (if x.testBit (D - 1 - k) then S k >>> k else 0)

theorem scrambleEntry_eq (scrambling : List Nat) (D g : Nat) :
    scrambleEntry scrambling D g = scr (fun s => scrambling.getD s 0) D D g := by
  unfold scrambleEntry
  have : ∀ k, (List.range k).foldl
      (fun m s => m ^^^ filterTensor ((scrambling.getD s 0) >>> s) g (D - 1 - s)) 0 =
      scr (fun s => scrambling.getD s 0) D k g := by
    intro k
    induction k with
    | zero => rfl
    | succ k ih =>
      rw [List.range_succ, List.foldl_append, ih]
      simp only [List.foldl_cons, List.foldl_nil, filterTensor_eq]
      rfl
  exact this D

theorem scr_xor (S : Nat → Nat) (D k x y : Nat) : scr S D k (x ^^^ y) = scr S D k x ^^^ scr S D k y := by
  induction k with
  | zero => simp [scr]
  | succ k ih =>
    unfold scr
    rw [ih, Nat.testBit_xor]
    apply Nat.eq_of_testBit_eq
    intro q
    simp only [Nat.testBit_xor]
    cases x.testBit (D - 1 - k) <;> cases y.testBit (D - 1 - k) <;> simp <;>
      cases (scr S D k x).testBit q <;> cases (scr S D k y).testBit q <;> simp

/-- Scrambling matrices as drawn by `random_scrambling_matrices`: `D` digits, the leading one set. -/
def UnitDiagonal (D : Nat) (S : Nat → Nat) : Prop :=
  ∀ k, k < D → S k < 2 ^ D ∧ (S k).testBit (D - 1) = true

theorem scr_lt (S : Nat → Nat) (D k x : Nat) (hS : UnitDiagonal D S) (hk : k ≤ D) : scr S D k x < 2 ^ D := by
  induction k with
  | zero => exact Nat.two_pow_pos D
  | succ k ih =>
    unfold scr
    apply Nat.xor_lt_two_pow (ih (by omega))
    split
    · exact lt_of_le_of_lt (Nat.shiftRight_le _ _) (hS k (by omega)).1
    · exact Nat.two_pow_pos D

theorem shifted_high (S : Nat → Nat) (D k q : Nat) (hS : UnitDiagonal D S) (hk : k < D) (hq : D - 1 - k < q) :
    (S k >>> k).testBit q = false := by
  rw [Nat.testBit_shiftRight]
  apply Nat.testBit_lt_two_pow
  exact lt_of_lt_of_le (hS k hk).1 (Nat.pow_le_pow_right (by omega) (by omega))

/-- If the leading digits of `x` (those of weight `≥ q`) vanish, so do those of the scrambled number; and if
`q` is the leading set digit, it stays so. -/
theorem scr_lead (S : Nat → Nat) (D k x q : Nat) (hS : UnitDiagonal D S) (hk : k ≤ D)
    (hx : ∀ i, q < i → x.testBit i = false) (hq : q < D) :
    (∀ i, q < i → (scr S D k x).testBit i = false) ∧
    (scr S D k x).testBit q = (x.testBit q && decide (D - 1 - q < k)) := by
  induction k with
  | zero => constructor <;> intros <;> simp [scr]
  | succ k ih =>
    obtain ⟨h1, h2⟩ := ih (by omega)
    unfold scr
    rcases Nat.lt_trichotomy (D - 1 - k) q with h | h | h
    · -- later, lower digit
      have hz : ∀ i, q ≤ i → ((if x.testBit (D - 1 - k) = true then S k >>> k else 0)).testBit i = false := by
        intro i hi
        split
        · exact shifted_high S D k i hS (by omega) (by omega)
        · simp
      refine ⟨fun i hi => ?_, ?_⟩
      · rw [Nat.testBit_xor, h1 i hi, hz i (by omega)]; rfl
      · rw [Nat.testBit_xor, h2, hz q (le_refl q)]
        have e1 : decide (D - 1 - q < k) = true := by simp; omega
        have e2 : decide (D - 1 - q < k + 1) = true := by simp; omega
        rw [e1, e2]; simp
    · rw [h]
      refine ⟨fun i hi => ?_, ?_⟩
      · rw [Nat.testBit_xor, h1 i hi]
        split
        · rw [shifted_high S D k i hS (by omega) (by omega)]; rfl
        · simp
      · rw [Nat.testBit_xor, h2]
        have e1 : decide (D - 1 - q < k) = false := by simp; omega
        have e2 : decide (D - 1 - q < k + 1) = true := by simp; omega
        rw [e1, e2]
        have hd : (S k >>> k).testBit q = true := by
          rw [Nat.testBit_shiftRight, show k + q = D - 1 by omega]
          exact (hS k (by omega)).2
        cases hxq : x.testBit q <;> simp [hd]
    · rw [if_neg (by rw [hx _ h]; simp), Nat.xor_zero]
      refine ⟨h1, ?_⟩
      rw [h2]
      have e1 : decide (D - 1 - q < k) = false := by simp; omega
      have e2 : decide (D - 1 - q < k + 1) = false := by simp; omega
      rw [e1, e2]

/-- Scrambling respects, and keeps apart, the leading `d` digits. -/
theorem scr_top (S : Nat → Nat) (D d x y : Nat) (hS : UnitDiagonal D S) (hd : d ≤ D) (hx : x < 2 ^ D)
    (hy : y < 2 ^ D) :
    scr S D D x / 2 ^ (D - d) = scr S D D y / 2 ^ (D - d) ↔ x / 2 ^ (D - d) = y / 2 ^ (D - d) := by
  have hz : ∀ u v : Nat, u / 2 ^ (D - d) = v / 2 ^ (D - d) ↔ ∀ i, D - d ≤ i → (u ^^^ v).testBit i = false := by
    intro u v
    constructor
    · intro h i hi
      have : (u / 2 ^ (D - d)).testBit (i - (D - d)) = (v / 2 ^ (D - d)).testBit (i - (D - d)) := by rw [h]
      rw [Nat.testBit_div_two_pow, Nat.testBit_div_two_pow, Nat.sub_add_cancel hi] at this
      rw [Nat.testBit_xor, this]; simp
    · intro h
      apply Nat.eq_of_testBit_eq
      intro i
      rw [Nat.testBit_div_two_pow, Nat.testBit_div_two_pow]
      have := h (i + (D - d)) (by omega)
      rw [Nat.testBit_xor] at this
      simpa using this
  rw [hz, hz, ← scr_xor]
  have hxy : x ^^^ y < 2 ^ D := Nat.xor_lt_two_pow hx hy
  generalize x ^^^ y = z at hxy
  constructor
  · intro h i hi
    by_contra hc
    have hc : z.testBit i = true := by simpa using hc
    have hz0 : z ≠ 0 := by rintro rfl; simp at hc
    obtain ⟨j, hj1, hj2⟩ := Nat.exists_most_significant_bit hz0
    have hij : i ≤ j := by
      by_contra hcc
      rw [hj2 i (by omega)] at hc; simp at hc
    have hjD : j < D := by
      by_contra hcc
      have : z.testBit j = false := Nat.testBit_lt_two_pow
        (lt_of_lt_of_le hxy (Nat.pow_le_pow_right (by omega) (by omega)))
      rw [this] at hj1; simp at hj1
    have := (scr_lead S D D z j hS (le_refl D) (fun i hi => hj2 i hi) hjD).2
    rw [hj1, h j (by omega)] at this
    have e : decide (D - 1 - j < D) = true := by simp; omega
    rw [e] at this
    simp at this
  · intro h i hi
    by_cases hiD : i < D
    · rcases Nat.eq_zero_or_pos (D - d) with h0 | hpos
      · have : z = 0 := by
          apply Nat.eq_of_testBit_eq
          intro q
          rw [h q (by omega)]; simp
        rw [this]
        have hs0 : ∀ k, scr S D k 0 = 0 := by
          intro k
          induction k with
          | zero => rfl
          | succ k ih => unfold scr; rw [ih]; simp
        rw [hs0]; simp
      · have := (scr_lead S D D z (D - d - 1) hS (le_refl D) (fun q hq => h q (by omega)) (by omega)).1
        exact this i (by omega)
    · apply Nat.testBit_lt_two_pow
      exact lt_of_lt_of_le (scr_lt S D D z hS (le_refl D)) (Nat.pow_le_pow_right (by omega) (by omega))

/-- The points of the scrambled net are the scrambled points, xor the shift. -/
theorem xorPoint_scr (S C : Nat → Nat) (D s L n : Nat) :
    xorPoint (fun j => scr S D D (C j)) s L n = scr S D D (xorPoint C 0 L n) ^^^ s := by
  induction L with
  | zero =>
    have hs0 : ∀ k, scr S D k 0 = 0 := by
      intro k
      induction k with
      | zero => rfl
      | succ k ih => unfold scr; rw [ih]; simp
    simp only [xorPoint, hs0]; simp
  | succ L ih =>
    unfold xorPoint
    rw [ih]
    split
    · rw [scr_xor, Nat.xor_assoc, Nat.xor_assoc, Nat.xor_comm s]
    · simp

/-- A digital shift does not change which points share leading digits. -/
theorem xor_top (x y s e : Nat) :
    (x ^^^ s) / 2 ^ e = (y ^^^ s) / 2 ^ e ↔ x / 2 ^ e = y / 2 ^ e := by
  have hz : ∀ u v : Nat, u / 2 ^ e = v / 2 ^ e ↔ ∀ i, e ≤ i → u.testBit i = v.testBit i := by
    intro u v
    constructor
    · intro h i hi
      have : (u / 2 ^ e).testBit (i - e) = (v / 2 ^ e).testBit (i - e) := by rw [h]
      rw [Nat.testBit_div_two_pow, Nat.testBit_div_two_pow, Nat.sub_add_cancel hi] at this
      exact this
    · intro h
      apply Nat.eq_of_testBit_eq
      intro i
      rw [Nat.testBit_div_two_pow, Nat.testBit_div_two_pow]
      exact h _ (by omega)
  rw [hz, hz]
  constructor
  · intro h i hi
    have := h i hi
    rw [Nat.testBit_xor, Nat.testBit_xor] at this
    cases hx : x.testBit i <;> cases hy : y.testBit i <;> cases hs : s.testBit i <;> simp_all
  · intro h i hi
    rw [Nat.testBit_xor, Nat.testBit_xor, h i hi]

theorem xorPoint_shift (C : Nat → Nat) (s L n : Nat) : xorPoint C s L n = xorPoint C 0 L n ^^^ s := by
  induction L with
  | zero => simp [xorPoint]
  | succ L ih =>
    unfold xorPoint
    rw [ih, Nat.xor_assoc, Nat.xor_assoc, Nat.xor_comm s]

section
variable {K : Type} [Field K] [LinearOrder K] [IsStrictOrderedRing K]

/-- Elementary intervals of `p / base^D`. -/
theorem inCell_iff (base D m k p : Nat) (hb : 0 < base) (hm : m ≤ D) :
    InCell base m k ((p : K) / (base : K) ^ D) ↔ p / base ^ (D - m) = k := by
  have hB : (0 : K) < (base : K) := by exact_mod_cast hb
  rw [div_eq_iff_cell _ _ _ (Nat.pow_pos hb)]
  unfold InCell
  have hD : (base : K) ^ D = (base : K) ^ (D - m) * (base : K) ^ m := by
    rw [← pow_add]; congr 1; omega
  have h1 : (0 : K) < (base : K) ^ m := pow_pos hB m
  have h2 : (0 : K) < (base : K) ^ (D - m) := pow_pos hB (D - m)
  rw [hD]
  have e1 : (k : K) / (base : K) ^ m ≤ (p : K) / ((base : K) ^ (D - m) * (base : K) ^ m) ↔ k * base ^ (D - m) ≤ p := by
    rw [div_le_div_iff₀ h1 (mul_pos h2 h1), ← mul_assoc, mul_le_mul_iff_left₀ h1]
    exact_mod_cast Iff.rfl
  have e2 : (p : K) / ((base : K) ^ (D - m) * (base : K) ^ m) < ((k : K) + 1) / (base : K) ^ m ↔
      p < (k + 1) * base ^ (D - m) := by
    rw [div_lt_div_iff₀ (mul_pos h2 h1) h1, ← mul_assoc, mul_lt_mul_iff_left₀ h1]
    exact_mod_cast Iff.rfl
  rw [e1, e2]

/-- Injectivity of the leading digits gives stratification. -/
theorem stratified_of_inj (base D lo hi : Nat) (hb : 1 < base) (p : Nat → Nat) (hhi : hi ≤ base ^ D)
    (hp : ∀ n, lo ≤ n → n < hi → p n < base ^ D)
    (h : ∀ m, m ≤ D → ∀ n n', lo ≤ n → n < hi → lo ≤ n' → n' < hi → n / base ^ m = n' / base ^ m →
      p n / base ^ (D - m) = p n' / base ^ (D - m) → n = n') :
    Stratified base lo hi (fun n => (p n : K) / (base : K) ^ D) := by
  intro m b hlo hhi' k hk
  have hm : m ≤ D := by
    have h1 : base ^ m ≤ base ^ D := by
      calc base ^ m ≤ (b + 1) * base ^ m := Nat.le_mul_of_pos_left _ (by omega)
        _ ≤ hi := hhi'
        _ ≤ base ^ D := hhi
    exact (Nat.pow_le_pow_iff_right hb).1 h1
  have hbm : (b + 1) * base ^ m = b * base ^ m + base ^ m := by ring
  have hpow : base ^ D = base ^ m * base ^ (D - m) := by rw [← Nat.pow_add]; congr 1; omega
  have hpos : 0 < base ^ (D - m) := Nat.pow_pos (by omega)
  simp only [inCell_iff base D m k _ (by omega) hm, hbm]
  apply pigeonhole (b * base ^ m) (base ^ m) (fun n => p n / base ^ (D - m)) _ _ k hk
  · intro n h1 h2
    rw [Nat.div_lt_iff_lt_mul hpos, ← hpow]
    exact hp n (by omega) (by omega)
  · intro n n' h1 h2 h3 h4 h5
    refine h m hm n n' (by omega) (by omega) (by omega) (by omega) ?_ h5
    rw [(div_eq_iff_cell n b _ (Nat.pow_pos (by omega))).2 ⟨h1, by omega⟩,
      (div_eq_iff_cell n' b _ (Nat.pow_pos (by omega))).2 ⟨h3, by omega⟩]

omit [IsStrictOrderedRing K] in
theorem stratified_congr (base lo hi : Nat) (x y : Nat → K) (hxy : ∀ n, lo ≤ n → n < hi → x n = y n)
    (h : Stratified base lo hi x) : Stratified base lo hi y := by
  intro m b hlo hhi k hk
  obtain ⟨n, ⟨h1, h2⟩, h3⟩ := h m b hlo hhi k hk
  refine ⟨n, ⟨h1, ?_⟩, ?_⟩
  · rw [← hxy n (by omega) (by omega)]; exact h2
  · rintro n' ⟨h4, h5⟩
    apply h3 n' ⟨h4, ?_⟩
    rw [hxy n' (by omega) (by omega)]; exact h5

omit [LinearOrder K] [IsStrictOrderedRing K] in
theorem toUnit_false [LinearOrder K] (D p : Nat) : (toUnit D p false : K) = (p : K) / ((2 : Nat) : K) ^ D := by
  unfold toUnit
  simp [Nat.shiftLeft_eq]

theorem unit_range (base D p : Nat) (hb : 0 < base) (hp : p < base ^ D) :
    0 ≤ (p : K) / (base : K) ^ D ∧ (p : K) / (base : K) ^ D < 1 := by
  have hB : (0 : K) < (base : K) := by exact_mod_cast hb
  refine ⟨by positivity, ?_⟩
  rw [div_lt_one (pow_pos hB D)]
  exact_mod_cast hp

end

end Lemmas
