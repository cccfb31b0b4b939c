import Mathlib.Tactic.ByContra
import Verif.Model.BoundedCalendar
import Verif.Spec.Calendar

/-! Rank/select lemmas for 0/1 tables. -/

namespace Lemmas
open Model

/-- Number of `k < i` with `p k`. -/
def rank (p : Nat → Bool) (i : Nat) : Nat := ((List.range i).filter p).length

theorem rank_succ (p : Nat → Bool) (i : Nat) :
    rank p (i + 1) = rank p i + (if p i then 1 else 0) := by
  unfold rank
  rw [List.range_succ, List.filter_append, List.length_append]
  by_cases h : p i <;> simp [h]

theorem rank_zero (p : Nat → Bool) : rank p 0 = 0 := rfl

theorem rank_le_add (p : Nat → Bool) (i n : Nat) : rank p i ≤ rank p (i + n) := by
  induction n with
  | zero => simp
  | succ n ih =>
    rw [← Nat.add_assoc, rank_succ]; omega

theorem rank_mono (p : Nat → Bool) {i j : Nat} (h : i ≤ j) : rank p i ≤ rank p j := by
  have := rank_le_add p i (j - i)
  rwa [Nat.add_sub_cancel' h] at this

theorem rank_lt (p : Nat → Bool) {i j x : Nat} (h : i ≤ x) (hx : x < j) (hp : p x) :
    rank p i < rank p j := by
  have h1 := rank_mono p h
  have h2 := rank_mono p (show x + 1 ≤ j from hx)
  rw [rank_succ, if_pos hp] at h2
  omega

theorem rank_eq_of_none (p : Nat → Bool) {i j : Nat} (h : i ≤ j)
    (hn : ∀ x, i ≤ x → x < j → p x = false) : rank p i = rank p j := by
  obtain ⟨n, rfl⟩ := Nat.le.dest h
  induction n with
  | zero => rfl
  | succ n ih =>
    rw [← Nat.add_assoc, rank_succ, hn (i + n) (by omega) (by omega), if_neg (by simp)]
    rw [Nat.add_zero]
    exact ih (by omega) (fun x h1 h2 => hn x h1 (by omega))

theorem rank_eq_iff (p : Nat → Bool) {i j : Nat} (h : i ≤ j) :
    rank p i = rank p j ↔ ∀ x, i ≤ x → x < j → p x = false := by
  constructor
  · intro e x h1 h2
    cases hp : p x
    · rfl
    · have := rank_lt p h1 h2 hp; omega
  · exact rank_eq_of_none p h

theorem select_iff (p : Nat → Bool) (N k j : Nat) :
    ((List.range N).filter p)[k]? = some j ↔ j < N ∧ p j = true ∧ rank p j = k := by
  induction N with
  | zero => simp
  | succ N ih =>
    rw [List.range_succ, List.filter_append, List.getElem?_append]
    change (if k < rank p N then _ else _) = _ ↔ _
    split
    · rename_i hk
      rw [ih]
      constructor
      · rintro ⟨a, b, c⟩; exact ⟨by omega, b, c⟩
      · rintro ⟨a, b, c⟩
        refine ⟨?_, b, c⟩
        have : j ≠ N := by rintro rfl; omega
        omega
    · rename_i hk
      change (List.filter p [N])[k - rank p N]? = _ ↔ _
      by_cases hN : p N
      · rw [List.filter_cons_of_pos hN, List.filter_nil]
        constructor
        · intro h
          have hk0 : k - rank p N = 0 := by
            by_contra hne
            rw [List.getElem?_eq_none (by simp; omega)] at h
            simp at h
          rw [hk0] at h
          simp at h
          subst h
          exact ⟨by omega, hN, by omega⟩
        · rintro ⟨a, b, c⟩
          have : j = N := by
            by_contra hne
            have := rank_lt p (Nat.le_refl j) (show j < N by omega) b
            omega
          subst this
          rw [show k - rank p j = 0 by omega]; rfl
      · rw [List.filter_cons_of_neg hN, List.filter_nil]
        constructor
        · simp
        · rintro ⟨a, b, c⟩
          have hne : j ≠ N := by rintro rfl; exact hN b
          have := rank_lt p (Nat.le_refl j) (show j < N by omega) b
          omega

theorem cumsumExclusive_go_getElem? (l : List Int) (acc : Int) (i : Nat) :
    (cumsumExclusive.go acc l)[i]? = if i < l.length then some (acc + (l.take i).sum) else none := by
  induction l generalizing acc i with
  | nil => simp [cumsumExclusive.go]
  | cons a t ih =>
    cases i with
    | zero => simp [cumsumExclusive.go]
    | succ i =>
      simp only [cumsumExclusive.go, List.getElem?_cons_succ, ih, List.length_cons,
        Nat.add_lt_add_iff_right, List.take_succ_cons, List.sum_cons]
      split <;> simp [Int.add_assoc]

theorem cumsumExclusive_getElem? (l : List Int) (i : Nat) :
    (cumsumExclusive l)[i]? = if i < l.length then some (l.take i).sum else none := by
  unfold cumsumExclusive
  rw [cumsumExclusive_go_getElem?]; simp

/-- If the table `l` is the 0/1 table of `p`, prefix sums are ranks. -/
theorem sum_take_rank (l : List Int) (p : Nat → Bool)
    (h : ∀ k, k < l.length → l[k]? = some (if p k then 1 else 0)) (i : Nat) (hi : i ≤ l.length) :
    (l.take i).sum = (rank p i : Int) := by
  induction i with
  | zero => simp [rank_zero]
  | succ i ih =>
    have hk := h i (by omega)
    rw [List.take_add_one, hk, List.sum_append, ih (by omega), rank_succ]
    by_cases hp : p i <;> simp [hp]

theorem gather_ok_iff (t : List Int) (i v : Int) :
    gather t i = .ok v ↔ 0 ≤ i ∧ t[i.toNat]? = some v := by
  unfold gather
  split
  · constructor
    · intro h; cases h
    · rintro ⟨h, _⟩; omega
  · split
    · rename_i w hw
      rw [hw]
      constructor
      · intro h; cases h; exact ⟨by omega, rfl⟩
      · rintro ⟨_, h⟩; cases h; rfl
    · rename_i hw
      rw [hw]
      constructor
      · intro h; cases h
      · rintro ⟨_, h⟩; cases h

/-! ### `countIn` -/
open Spec

theorem countIn_eq_zero (B : Int → Prop) [DecidablePred B] {a b : Int} (h : b ≤ a) :
    countIn B a b = 0 := by
  unfold countIn; rw [Int.toNat_of_nonpos (by omega)]; rfl

theorem countIn_succ (B : Int → Prop) [DecidablePred B] {a b : Int} (h : a ≤ b) :
    countIn B a (b + 1) = countIn B a b + (if B b then 1 else 0) := by
  unfold countIn
  rw [show (b + 1 - a).toNat = (b - a).toNat + 1 by omega, List.range_succ, List.filter_append,
    List.length_append]
  congr 1
  have : a + Int.ofNat (b - a).toNat = b := by
    show a + ((b - a).toNat : Int) = b; omega
  simp only [List.filter_cons, this, List.filter_nil]
  split <;> simp_all

/-- `countIn` is determined by its recurrence. -/
theorem countIn_unique (B : Int → Prop) [DecidablePred B] (f : Int → Int) (lo hi : Int)
    (hf : ∀ x, lo ≤ x → x < hi → f (x + 1) = f x + (if B x then 1 else 0)) {a b : Int}
    (ha : lo ≤ a) (hb : b ≤ hi) (h : a ≤ b) : (countIn B a b : Int) = f b - f a := by
  obtain ⟨n, hn⟩ : ∃ n : Nat, b = a + n := ⟨(b - a).toNat, by omega⟩
  subst hn
  induction n with
  | zero => rw [countIn_eq_zero B (by omega)]; simp
  | succ n ih =>
    have := ih (by omega) (by omega)
    rw [show a + ((n + 1 : Nat) : Int) = (a + n) + 1 by omega, countIn_succ B (by omega),
      hf _ (by omega) (by omega)]
    split <;> omega

end Lemmas
