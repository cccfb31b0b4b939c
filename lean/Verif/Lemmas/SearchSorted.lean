import Verif.Model.SearchSorted
import Mathlib.Data.List.TakeWhile
import Mathlib.Order.Basic

/-! What `searchsorted` finds in a sorted list. -/

namespace Lemmas
open Model

variable {K : Type}

theorem takeWhile_getElem (p : K → Bool) (l : List K) :
    (l.takeWhile p).length ≤ l.length ∧
    (∀ i a, i < (l.takeWhile p).length → l[i]? = some a → p a = true) ∧
    (∀ a, l[(l.takeWhile p).length]? = some a → p a = false) := by
  induction l with
  | nil => simp
  | cons b l ih =>
    by_cases h : p b = true
    · rw [List.takeWhile_cons, if_pos h]
      obtain ⟨h1, h2, h3⟩ := ih
      refine ⟨by simpa using h1, ?_, ?_⟩
      · intro i a hi ha
        cases i with
        | zero => simp at ha; rw [← ha]; exact h
        | succ i => exact h2 i a (by simpa using hi) (by simpa using ha)
      · intro a ha
        exact h3 a (by simpa using ha)
    · rw [List.takeWhile_cons, if_neg h]
      refine ⟨by simp, by simp, ?_⟩
      intro a ha
      simp at ha
      rw [← ha]
      simpa using h

variable [LinearOrder K]

theorem getElem_sorted_le (l : List K) (hs : l.Pairwise (· ≤ ·)) (i j : Nat) (a b : K) (hij : i ≤ j)
    (ha : l[i]? = some a) (hb : l[j]? = some b) : a ≤ b := by
  rcases Nat.lt_or_ge i j with h | h
  · rw [List.getElem?_eq_some_iff] at ha hb
    obtain ⟨h1, rfl⟩ := ha
    obtain ⟨h2, rfl⟩ := hb
    exact List.pairwise_iff_getElem.1 hs i j h1 h2 h
  · have : i = j := by omega
    subst this
    rw [ha] at hb; cases hb; exact le_refl _

/-- `searchLeft` splits a sorted list into entries `< x` and entries `≥ x`. -/
theorem searchLeft_spec (l : List K) (hs : l.Pairwise (· ≤ ·)) (x : K) :
    searchLeft l x ≤ l.length ∧
    ∀ i a, l[i]? = some a → (i < searchLeft l x ↔ a < x) := by
  obtain ⟨h1, h2, h3⟩ := takeWhile_getElem (fun a => decide (a < x)) l
  refine ⟨h1, ?_⟩
  intro i a ha
  constructor
  · intro hi
    have := h2 i a hi ha
    simpa using this
  · intro hax
    by_contra hi
    have hlen : i < l.length := (List.getElem?_eq_some_iff.1 ha).1
    have hb : l[searchLeft l x]? = some (l[searchLeft l x]'(by omega)) := List.getElem?_eq_getElem _
    have h4 := h3 _ hb
    have h5 := getElem_sorted_le l hs _ i _ a (by omega) hb ha
    simp only [decide_eq_false_iff_not, not_lt] at h4
    exact absurd (lt_of_le_of_lt h5 hax) (not_lt.2 h4)

/-- `searchRight` splits a sorted list into entries `≤ x` and entries `> x`. -/
theorem searchRight_spec (l : List K) (hs : l.Pairwise (· ≤ ·)) (x : K) :
    searchRight l x ≤ l.length ∧
    ∀ i a, l[i]? = some a → (i < searchRight l x ↔ a ≤ x) := by
  obtain ⟨h1, h2, h3⟩ := takeWhile_getElem (fun a => decide (a ≤ x)) l
  refine ⟨h1, ?_⟩
  intro i a ha
  constructor
  · intro hi
    have := h2 i a hi ha
    simpa using this
  · intro hax
    by_contra hi
    have hlen : i < l.length := (List.getElem?_eq_some_iff.1 ha).1
    have hb : l[searchRight l x]? = some (l[searchRight l x]'(by omega)) := List.getElem?_eq_getElem _
    have h4 := h3 _ hb
    have h5 := getElem_sorted_le l hs _ i _ a (by omega) hb ha
    simp only [decide_eq_false_iff_not, not_le] at h4
    exact absurd (le_trans h5 hax) (not_le.2 h4)

/-- Characterisation of `searchLeft`. -/
theorem searchLeft_eq (l : List K) (hs : l.Pairwise (· ≤ ·)) (x : K) (k : Nat) (hk : k ≤ l.length)
    (h1 : ∀ a, 1 ≤ k → l[k - 1]? = some a → a < x) (h2 : ∀ a, l[k]? = some a → x ≤ a) :
    searchLeft l x = k := by
  obtain ⟨hle, hs'⟩ := searchLeft_spec l hs x
  rcases Nat.lt_trichotomy (searchLeft l x) k with h | h | h
  · have hb : l[k - 1]? = some (l[k - 1]'(by omega)) := List.getElem?_eq_getElem _
    have := (hs' _ _ hb).2 (h1 _ (by omega) hb)
    omega
  · exact h
  · have hb : l[k]? = some (l[k]'(by omega)) := List.getElem?_eq_getElem _
    have := (hs' _ _ hb).1 h
    exact absurd this (not_lt.2 (h2 _ hb))

theorem searchRight_eq (l : List K) (hs : l.Pairwise (· ≤ ·)) (x : K) (k : Nat) (hk : k ≤ l.length)
    (h1 : ∀ a, 1 ≤ k → l[k - 1]? = some a → a ≤ x) (h2 : ∀ a, l[k]? = some a → x < a) :
    searchRight l x = k := by
  obtain ⟨hle, hs'⟩ := searchRight_spec l hs x
  rcases Nat.lt_trichotomy (searchRight l x) k with h | h | h
  · have hb : l[k - 1]? = some (l[k - 1]'(by omega)) := List.getElem?_eq_getElem _
    have := (hs' _ _ hb).2 (h1 _ (by omega) hb)
    omega
  · exact h
  · have hb : l[k]? = some (l[k]'(by omega)) := List.getElem?_eq_getElem _
    have := (hs' _ _ hb).1 h
    exact absurd this (not_le.2 (h2 _ hb))

end Lemmas
