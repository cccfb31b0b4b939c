import Verif.Model.FiniteDifference
import Mathlib.Algebra.CharZero.Defs
import Mathlib.Algebra.Order.Field.Basic
import Mathlib.Algebra.BigOperators.Field
import Mathlib.Tactic.FieldSimp
import Mathlib.Tactic.Ring
import Mathlib.Tactic.Linarith
import Mathlib.Tactic.LinearCombination

/-!
# C115: finite difference methods
-/

namespace Props
open Model
open scoped BigOperators

theorem shiftIndex_eq (n : Nat) (o : Int) (i : Nat) (hi : i < n) :
    shiftIndex n o i = if 0 ≤ (i : Int) - o ∧ (i : Int) - o < n then some ((i : Int) - o).toNat else none := by
  unfold shiftIndex sliceBounds
  rcases lt_trichotomy o 0 with ho | ho | ho
  · rw [if_pos (show -o ≥ 0 by omega), if_neg (show ¬ o ≥ 0 by omega)]
    simp only
    by_cases h : 0 ≤ (i : Int) - o ∧ (i : Int) - o < n
    · rw [if_pos h, if_pos (by omega)]
      exact congrArg some (by omega)
    · rw [if_neg h, if_neg (by omega)]
  · subst ho
    simp only [neg_zero, ge_iff_le, le_refl, if_true, Int.toNat_zero, Nat.zero_min, Nat.zero_le, true_and, Nat.sub_zero, Nat.zero_add, sub_zero]
    rw [if_pos hi, if_pos (by omega)]
    simp
  · rw [if_neg (show ¬ -o ≥ 0 by omega), if_pos (show o ≥ 0 by omega)]
    simp only
    by_cases h : 0 ≤ (i : Int) - o ∧ (i : Int) - o < n
    · rw [if_pos h, if_pos (by omega)]
      exact congrArg some (by omega)
    · rw [if_neg h, if_neg (by omega)]

/-- C115, `shift`: the entry at an index is the one at the index less the offsets, if there is one, and NaN otherwise. -/
theorem C115_shift {K : Type} {d : Nat} (shape : Fin d → Nat) (x : (Fin d → Nat) → Option K) (o : Fin d → Int) (idx : Fin d → Nat) (h : ∀ a, idx a < shape a) :
    ((∀ a, 0 ≤ (idx a : Int) - o a ∧ (idx a : Int) - o a < shape a) → shiftArray shape x o idx = x fun a => ((idx a : Int) - o a).toNat) ∧
    (¬ (∀ a, 0 ≤ (idx a : Int) - o a ∧ (idx a : Int) - o a < shape a) → shiftArray shape x o idx = none) := by
  unfold shiftArray
  constructor
  · intro hv
    have e : ∀ a, shiftIndex (shape a) (o a) (idx a) = some ((idx a : Int) - o a).toNat := fun a => by rw [shiftIndex_eq _ _ _ (h a), if_pos (hv a)]
    rw [if_pos (fun a => by rw [e a]; rfl)]
    congr 1
    funext a
    rw [e a]
    rfl
  · intro hv
    rw [if_neg]
    intro hall
    refine hv fun a => ?_
    by_contra hc
    have := hall a
    rw [shiftIndex_eq _ _ _ (h a), if_neg hc] at this
    simp at this

/-- The two slices of every axis have the same length, so that the assignment is possible. -/
theorem C115_shift_lengths (n : Nat) (o : Int) : (sliceBounds n o).2 - (sliceBounds n o).1 = (sliceBounds n (-o)).2 - (sliceBounds n (-o)).1 := by
  unfold sliceBounds
  split_ifs <;> simp only <;> omega

section central
variable {K : Type} {d : Nat}

/-- The index with `k` on axis `a`. -/
def onAxis (idx : Fin d → Nat) (a : Fin d) (k : Nat) : Fin d → Nat := fun b => if b = a then k else idx b

theorem shift_unit (shape : Fin d → Nat) (x : (Fin d → Nat) → Option K) (idx : Fin d → Nat) (h : ∀ a, idx a < shape a) (a : Fin d) :
    shiftArray shape x (minusUnit a) idx = (if idx a + 1 < shape a then x (onAxis idx a (idx a + 1)) else none) ∧
    shiftArray shape x (-minusUnit a) idx = (if 0 < idx a then x (onAxis idx a (idx a - 1)) else none) := by
  constructor
  · obtain ⟨h1, h2⟩ := C115_shift shape x (minusUnit a) idx h
    by_cases hc : idx a + 1 < shape a
    · rw [if_pos hc, h1]
      · congr 1
        funext b
        unfold onAxis minusUnit
        by_cases hb : b = a
        · subst hb; rw [if_pos rfl, if_pos rfl]; omega
        · rw [if_neg hb, if_neg (Ne.symm hb)]; omega
      · intro b
        unfold minusUnit
        have := h b
        by_cases hb : a = b
        · subst hb; rw [if_pos rfl]; omega
        · rw [if_neg hb]; omega
    · rw [if_neg hc]
      refine h2 fun hall => hc ?_
      have := (hall a).2
      unfold minusUnit at this
      rw [if_pos rfl] at this
      omega
  · obtain ⟨h1, h2⟩ := C115_shift shape x (-minusUnit a) idx h
    by_cases hc : 0 < idx a
    · rw [if_pos hc, h1]
      · congr 1
        funext b
        simp only [Pi.neg_apply]
        unfold onAxis minusUnit
        by_cases hb : b = a
        · subst hb; rw [if_pos rfl, if_pos rfl]; omega
        · rw [if_neg hb, if_neg (Ne.symm hb)]; omega
      · intro b
        simp only [Pi.neg_apply]
        unfold minusUnit
        have := h b
        by_cases hb : a = b
        · subst hb; rw [if_pos rfl]; omega
        · rw [if_neg hb]; omega
    · rw [if_neg hc]
      refine h2 fun hall => hc ?_
      have := (hall a).1
      simp only [Pi.neg_apply] at this
      unfold minusUnit at this
      rw [if_pos rfl] at this
      omega

/-- A shift by one step on each of two axes, up (`true`) or down. -/
theorem shift_two (shape : Fin d → Nat) (x : (Fin d → Nat) → Option K) (idx : Fin d → Nat) (h : ∀ a, idx a < shape a) (a b : Fin d) (hab : a ≠ b)
    (p q : Int) (o : Fin d → Int) (ho : o = fun c => if c = a then -p else if c = b then -q else 0)
    (ha : 0 ≤ (idx a : Int) + p ∧ (idx a : Int) + p < shape a) (hb : 0 ≤ (idx b : Int) + q ∧ (idx b : Int) + q < shape b) :
    shiftArray shape x o idx = x (onAxis (onAxis idx a ((idx a : Int) + p).toNat) b ((idx b : Int) + q).toNat) := by
  subst ho
  rw [(C115_shift shape x _ idx h).1]
  · congr 1
    funext c
    unfold onAxis
    by_cases h1 : c = a
    · subst h1
      rw [if_pos rfl, if_neg hab, if_pos rfl, sub_neg_eq_add]
    · rw [if_neg h1]
      by_cases h2 : c = b
      · subst h2
        rw [if_pos rfl, if_pos rfl, sub_neg_eq_add]
      · rw [if_neg h2, if_neg h2, if_neg h1]
        omega
  · intro c
    have := h c
    by_cases h1 : c = a
    · subst h1; rw [if_pos rfl]; omega
    · rw [if_neg h1]
      by_cases h2 : c = b
      · subst h2; rw [if_pos rfl]; omega
      · rw [if_neg h2]; omega

theorem nanMap2_none_left (f : K → K → K) (y : Option K) : nanMap2 f none y = none := rfl

theorem nanMap2_none_right (f : K → K → K) (x : Option K) : nanMap2 f x none = none := by
  cases x <;> rfl

variable [Field K]

/-- C115, first derivatives: at inner points of the axis the difference of the neighbours, NaN at the ends. -/
theorem C115_central_first (shape : Fin d → Nat) (F : (Fin d → Nat) → K) (a : Fin d) (w : K) (idx : Fin d → Nat) (h : ∀ b, idx b < shape b) :
    ∃ r, centralDifference shape (fun i => some (F i)) [a] w = .ok r ∧
      (0 < idx a → idx a + 1 < shape a → r idx = some ((F (onAxis idx a (idx a + 1)) - F (onAxis idx a (idx a - 1))) / (2 * w))) ∧
      (idx a = 0 ∨ idx a + 1 = shape a → r idx = none) := by
  refine ⟨_, rfl, fun h1 h2 => ?_, fun h1 => ?_⟩
  · rw [(shift_unit shape _ idx h a).1, (shift_unit shape _ idx h a).2, if_pos h1, if_pos h2]
    rfl
  · rw [(shift_unit shape _ idx h a).1, (shift_unit shape _ idx h a).2]
    rcases h1 with h1 | h1
    · rw [if_neg (show ¬ 0 < idx a by omega)]
      split_ifs <;> rfl
    · rw [if_neg (show ¬ idx a + 1 < shape a by omega)]
      rfl

/-- C115, second derivatives on one axis. -/
theorem C115_central_second (shape : Fin d → Nat) (F : (Fin d → Nat) → K) (a : Fin d) (w : K) (idx : Fin d → Nat) (h : ∀ b, idx b < shape b) :
    ∃ r, centralDifference shape (fun i => some (F i)) [a, a] w = .ok r ∧
      (0 < idx a → idx a + 1 < shape a → r idx = some ((F (onAxis idx a (idx a + 1)) - 2 * F idx + F (onAxis idx a (idx a - 1))) / w ^ 2)) ∧
      (idx a = 0 ∨ idx a + 1 = shape a → r idx = none) := by
  unfold centralDifference
  simp only [if_true]
  refine ⟨_, rfl, fun h1 h2 => ?_, fun h1 => ?_⟩
  · rw [(shift_unit shape _ idx h a).1, (shift_unit shape _ idx h a).2, if_pos h1, if_pos h2]
    rfl
  · rw [(shift_unit shape _ idx h a).1, (shift_unit shape _ idx h a).2]
    rcases h1 with h1 | h1
    · rw [if_neg (show ¬ 0 < idx a by omega)]
      split_ifs <;> rfl
    · rw [if_neg (show ¬ idx a + 1 < shape a by omega)]
      rfl

/-- C115, mixed derivatives at inner points. -/
theorem C115_central_mixed (shape : Fin d → Nat) (F : (Fin d → Nat) → K) (a b : Fin d) (hab : a ≠ b) (w : K) (idx : Fin d → Nat) (h : ∀ b, idx b < shape b) :
    ∃ r, centralDifference shape (fun i => some (F i)) [a, b] w = .ok r ∧
      (0 < idx a → idx a + 1 < shape a → 0 < idx b → idx b + 1 < shape b → r idx = some
        ((F (onAxis (onAxis idx a (idx a + 1)) b (idx b + 1)) - F (onAxis (onAxis idx a (idx a + 1)) b (idx b - 1)) -
          F (onAxis (onAxis idx a (idx a - 1)) b (idx b + 1)) + F (onAxis (onAxis idx a (idx a - 1)) b (idx b - 1))) / (4 * w ^ 2))) := by
  unfold centralDifference
  simp only [if_neg hab]
  refine ⟨_, rfl, fun h1 h2 h3 h4 => ?_⟩
  rw [shift_two shape (fun i => some (F i)) idx h a b hab 1 1 (minusUnit a + minusUnit b) ?_ (by omega) (by omega),
    shift_two shape (fun i => some (F i)) idx h a b hab 1 (-1) (minusUnit a - minusUnit b) ?_ (by omega) (by omega),
    shift_two shape (fun i => some (F i)) idx h a b hab (-1) 1 (minusUnit b - minusUnit a) ?_ (by omega) (by omega),
    shift_two shape (fun i => some (F i)) idx h a b hab (-1) (-1) (-minusUnit a - minusUnit b) ?_ (by omega) (by omega)]
  · have e1 : ((idx a : Int) + 1).toNat = idx a + 1 := by omega
    have e2 : ((idx b : Int) + 1).toNat = idx b + 1 := by omega
    have e3 : ((idx a : Int) + -1).toNat = idx a - 1 := by omega
    have e4 : ((idx b : Int) + -1).toNat = idx b - 1 := by omega
    rw [e1, e2, e3, e4]
    rfl
  all_goals
    funext c
    simp only [Pi.add_apply, Pi.sub_apply, Pi.neg_apply, minusUnit, eq_comm (a := c)]
    by_cases h5 : a = c
    · subst h5
      simp [Ne.symm hab]
    · by_cases h6 : b = c
      · subst h6
        simp [h5]
      · simp [h5, h6]

/-- C115, mixed derivatives at the ends of one of the two axes. -/
theorem C115_mixed_boundary (shape : Fin d → Nat) (F : (Fin d → Nat) → K) (a b : Fin d) (hab : a ≠ b) (w : K) (idx : Fin d → Nat) (h : ∀ b, idx b < shape b)
    (hb : idx a = 0 ∨ idx a + 1 = shape a ∨ idx b = 0 ∨ idx b + 1 = shape b) :
    ∃ r, centralDifference shape (fun i => some (F i)) [a, b] w = .ok r ∧ r idx = none := by
  unfold centralDifference
  simp only [if_neg hab]
  refine ⟨_, rfl, ?_⟩
  rcases hb with hb | hb | hb | hb
  · rw [(C115_shift shape (fun i => some (F i)) (-minusUnit a - minusUnit b) idx h).2, nanMap2_none_right]
    · rfl
    · intro hall
      have := (hall a).1
      simp [minusUnit, Ne.symm hab, hb] at this
  · rw [(C115_shift shape (fun i => some (F i)) (minusUnit a + minusUnit b) idx h).2, nanMap2_none_left, nanMap2_none_left, nanMap2_none_left]
    · rfl
    · intro hall
      have := (hall a).2
      simp [minusUnit, Ne.symm hab] at this
      omega
  · rw [(C115_shift shape (fun i => some (F i)) (-minusUnit a - minusUnit b) idx h).2, nanMap2_none_right]
    · rfl
    · intro hall
      have := (hall b).1
      simp [minusUnit, hab, hb] at this
  · rw [(C115_shift shape (fun i => some (F i)) (minusUnit a + minusUnit b) idx h).2, nanMap2_none_left, nanMap2_none_left, nanMap2_none_left]
    · rfl
    · intro hall
      have := (hall b).2
      simp [minusUnit, hab] at this
      omega

/-- C115: no other derivatives are offered. -/
theorem C115_central_other (shape : Fin d → Nat) (f0 : (Fin d → Nat) → Option K) (w : K) :
    centralDifference shape f0 [] w = .ok f0 ∧ ∀ ds, 2 < ds.length → ∃ e, centralDifference shape f0 ds w = .error e := by
  refine ⟨rfl, fun ds h => ?_⟩
  match ds with
  | [] => simp at h
  | [_] => simp at h
  | [_, _] => simp at h
  | _ :: _ :: _ :: _ => exact ⟨_, rfl⟩

/-- C115: exact for functions that are polynomials of degree two (first derivative) or three (second derivative) along the axis. -/
theorem C115_central_exact [CharZero K] (shape : Fin d → Nat) (F : (Fin d → Nat) → K) (a : Fin d) (w : K) (hw : w ≠ 0) (idx : Fin d → Nat) (h : ∀ b, idx b < shape b)
    (hlo : 0 < idx a) (hhi : idx a + 1 < shape a) (c0 c1 c2 c3 : K)
    (hF : ∀ k, k < shape a → F (onAxis idx a k) = c0 + c1 * (k * w) + c2 * (k * w) ^ 2 + c3 * (k * w) ^ 3) :
    (c3 = 0 → ∃ r, centralDifference shape (fun i => some (F i)) [a] w = .ok r ∧ r idx = some (c1 + 2 * c2 * (idx a * w))) ∧
    ∃ r, centralDifference shape (fun i => some (F i)) [a, a] w = .ok r ∧ r idx = some (2 * c2 + 6 * c3 * (idx a * w)) := by
  have hself : F idx = F (onAxis idx a (idx a)) := by
    congr 1
    funext b
    unfold onAxis
    by_cases hb : b = a
    · subst hb; rw [if_pos rfl]
    · rw [if_neg hb]
  have hm : ((idx a - 1 : Nat) : K) = (idx a : K) - 1 := by
    rw [Nat.cast_sub hlo, Nat.cast_one]
  constructor
  · intro hc
    obtain ⟨r, h1, h2, _⟩ := C115_central_first shape F a w idx h
    refine ⟨r, h1, ?_⟩
    rw [h2 hlo hhi, hF _ hhi, hF _ (by omega), hc, hm]
    congr 1
    push_cast
    rw [div_eq_iff (mul_ne_zero two_ne_zero hw)]
    ring
  · obtain ⟨r, h1, h2, _⟩ := C115_central_second shape F a w idx h
    refine ⟨r, h1, ?_⟩
    rw [h2 hlo hhi, hself, hF _ hhi, hF _ (by omega), hF _ (by omega), hm]
    congr 1
    push_cast
    rw [div_eq_iff (pow_ne_zero 2 hw)]
    ring

/-- C115: mixed derivatives are exact for polynomials of degree two in each of the two coordinates. -/
theorem C115_mixed_exact [CharZero K] (shape : Fin d → Nat) (F : (Fin d → Nat) → K) (a b : Fin d) (hab : a ≠ b) (w : K) (hw : w ≠ 0) (idx : Fin d → Nat)
    (h : ∀ b, idx b < shape b) (ha0 : 0 < idx a) (ha1 : idx a + 1 < shape a) (hb0 : 0 < idx b) (hb1 : idx b + 1 < shape b) (c : Fin 3 → Fin 3 → K)
    (hF : ∀ k l, k < shape a → l < shape b → F (onAxis (onAxis idx a k) b l) = ∑ p, ∑ q, c p q * (k * w) ^ p.val * (l * w) ^ q.val) :
    ∃ r, centralDifference shape (fun i => some (F i)) [a, b] w = .ok r ∧
      r idx = some (c 1 1 + 2 * c 1 2 * (idx b * w) + 2 * c 2 1 * (idx a * w) + 4 * c 2 2 * (idx a * w) * (idx b * w)) := by
  obtain ⟨r, h1, h2⟩ := C115_central_mixed shape F a b hab w idx h
  refine ⟨r, h1, ?_⟩
  rw [h2 ha0 ha1 hb0 hb1, hF _ _ ha1 hb1, hF _ _ ha1 (by omega), hF _ _ (by omega) hb1, hF _ _ (by omega) (by omega)]
  have hm : ((idx a - 1 : Nat) : K) = (idx a : K) - 1 := by rw [Nat.cast_sub ha0, Nat.cast_one]
  have hm' : ((idx b - 1 : Nat) : K) = (idx b : K) - 1 := by rw [Nat.cast_sub hb0, Nat.cast_one]
  congr 1
  have h4 : (4 : K) * w ^ 2 ≠ 0 := mul_ne_zero (by norm_num) (pow_ne_zero 2 hw)
  rw [div_eq_iff h4]
  simp only [Fin.sum_univ_three, hm, hm', Fin.val_zero, Fin.val_one, Fin.val_two]
  push_cast
  ring

end central

/-! ## Taylor approximation -/

theorem mem_upperPairs (n : Nat) (p : Nat × Nat) : p ∈ upperPairs n ↔ p.1 < p.2 ∧ p.2 < n := by
  unfold upperPairs
  simp only [List.mem_flatMap, List.mem_range, List.mem_map, List.mem_filter, decide_eq_true_eq]
  constructor
  · rintro ⟨i, hi, j, ⟨hj, hij⟩, rfl⟩
    exact ⟨hij, hj⟩
  · rintro ⟨h1, h2⟩
    exact ⟨p.1, by omega, p.2, ⟨h2, h1⟩, rfl⟩

theorem nodup_upperPairs (n : Nat) : (upperPairs n).Nodup := by
  unfold upperPairs
  rw [List.nodup_flatMap]
  refine ⟨fun i _ => (List.Nodup.filter _ List.nodup_range).map fun a b h => by simpa using h, ?_⟩
  refine List.Nodup.pairwise_of_forall_ne List.nodup_range fun i _ j _ hij => ?_
  simp only [Function.onFun, List.disjoint_left, List.mem_map, not_exists, not_and]
  rintro p ⟨k, _, rfl⟩ l _ h
  exact hij (by simpa using (congrArg Prod.fst h).symm)

theorem sum_upperPairs {K : Type} [AddCommMonoid K] (n : Nat) (f : Nat × Nat → K) :
    ((upperPairs n).map f).sum = ∑ p ∈ (Finset.range n ×ˢ Finset.range n).filter (fun p => p.1 < p.2), f p := by
  rw [← List.sum_toFinset f (nodup_upperPairs n)]
  refine Finset.sum_congr ?_ fun _ _ => rfl
  ext p
  rw [List.mem_toFinset, mem_upperPairs, Finset.mem_filter, Finset.mem_product, Finset.mem_range, Finset.mem_range]
  omega

theorem length_upperPairs (n : Nat) : 2 * (upperPairs n).length = n * n - n := by
  have h1 : (upperPairs n).length = ((Finset.range n ×ˢ Finset.range n).filter (fun p => p.1 < p.2)).card := by
    have := sum_upperPairs n (fun _ => 1)
    simpa using this
  have h2 : ((Finset.range n ×ˢ Finset.range n).filter (fun p => p.2 < p.1)).card = ((Finset.range n ×ˢ Finset.range n).filter (fun p => p.1 < p.2)).card := by
    refine Finset.card_bij (fun p _ => (p.2, p.1)) ?_ ?_ ?_
    · intro p hp
      simp only [Finset.mem_filter, Finset.mem_product] at hp ⊢
      exact ⟨⟨hp.1.2, hp.1.1⟩, hp.2⟩
    · intro p _ q _ h
      exact Prod.ext (congrArg Prod.snd h) (congrArg Prod.fst h)
    · intro p hp
      simp only [Finset.mem_filter, Finset.mem_product] at hp
      exact ⟨(p.2, p.1), by simp only [Finset.mem_filter, Finset.mem_product]; exact ⟨⟨hp.1.2, hp.1.1⟩, hp.2⟩, rfl⟩
  have h3 : ((Finset.range n ×ˢ Finset.range n).filter (fun p => p.1 = p.2)).card = n := by
    have : (Finset.range n ×ˢ Finset.range n).filter (fun p => p.1 = p.2) = (Finset.range n).image (fun i => (i, i)) := by
      ext p
      simp only [Finset.mem_filter, Finset.mem_product, Finset.mem_image, Finset.mem_range]
      constructor
      · rintro ⟨⟨h1, _⟩, h2⟩
        exact ⟨p.1, h1, Prod.ext rfl h2⟩
      · rintro ⟨i, hi, rfl⟩
        exact ⟨⟨hi, hi⟩, rfl⟩
    rw [this, Finset.card_image_of_injective _ (fun i j h => by simpa using h), Finset.card_range]
  have h4 : n * n = (Finset.range n ×ˢ Finset.range n).card := by simp
  have h5 := Finset.card_filter_add_card_filter_not (s := Finset.range n ×ˢ Finset.range n) (fun p => p.1 < p.2)
  have h6 := Finset.card_filter_add_card_filter_not (s := (Finset.range n ×ˢ Finset.range n).filter (fun p => ¬ p.1 < p.2)) (fun p => p.1 = p.2)
  have e1 : ((Finset.range n ×ˢ Finset.range n).filter (fun p => ¬ p.1 < p.2)).filter (fun p => p.1 = p.2) = (Finset.range n ×ˢ Finset.range n).filter (fun p => p.1 = p.2) := by
    ext p; simp only [Finset.mem_filter]; exact ⟨fun h => ⟨h.1.1, h.2⟩, fun h => ⟨⟨h.1, by have := h.2; omega⟩, h.2⟩⟩
  have e2 : ((Finset.range n ×ˢ Finset.range n).filter (fun p => ¬ p.1 < p.2)).filter (fun p => ¬ p.1 = p.2) = (Finset.range n ×ˢ Finset.range n).filter (fun p => p.2 < p.1) := by
    ext p; simp only [Finset.mem_filter]
    exact ⟨fun h => ⟨h.1.1, by have := h.1.2; have := h.2; omega⟩, fun h => ⟨⟨h.1, by have := h.2; omega⟩, by have := h.2; omega⟩⟩
  rw [e1, e2] at h6
  omega

/-- C115: the derivatives up to order two, each exactly once, as many as the triangular number. -/
theorem C115_names (n : Nat) : (derivativeNames n).Nodup ∧ (derivativeNames n).length = triangular (n + 1) ∧
    ∀ ds, ds ∈ derivativeNames n ↔ ds.length ≤ 2 ∧ ds.Pairwise (· ≤ ·) ∧ ∀ i ∈ ds, i < n := by
  refine ⟨?_, ?_, ?_⟩
  · unfold derivativeNames
    simp only [List.nodup_append, List.nodup_map_iff_inj_on List.nodup_range, List.nodup_map_iff_inj_on (nodup_upperPairs n), List.mem_append, List.mem_map, List.mem_range,
      List.mem_singleton, List.nodup_singleton, true_and]
    refine ⟨⟨⟨?_, ?_⟩, ?_, ?_⟩, ?_, ?_⟩
    · intro i _ j _ h; simpa using h
    · rintro _ rfl _ ⟨i, _, rfl⟩; simp
    · intro i _ j _ h; simpa using h
    · rintro _ (rfl | ⟨i, _, rfl⟩) _ ⟨j, _, rfl⟩ <;> simp
    · intro p _ q _ h
      simp only [List.cons.injEq, and_true] at h
      exact Prod.ext h.1 h.2
    · rintro _ ((rfl | ⟨i, _, rfl⟩) | ⟨i, _, rfl⟩) _ ⟨p, hp, rfl⟩
      · simp
      · simp
      · intro h
        simp only [List.cons.injEq, and_true] at h
        have := ((mem_upperPairs n p).1 hp).1
        omega
  · unfold derivativeNames triangular
    simp only [List.length_append, List.length_map, List.length_range, List.length_singleton]
    have h := length_upperPairs n
    have h1 : n ≤ n * n := Nat.le_mul_self n
    have h2 : (n + 1) * (n + 1 + 1) = n * n + 3 * n + 2 := by ring
    rw [h2]
    omega
  · intro ds
    unfold derivativeNames
    simp only [List.mem_append, List.mem_map, List.mem_range, List.mem_singleton]
    constructor
    · rintro (((rfl | ⟨i, hi, rfl⟩) | ⟨i, hi, rfl⟩) | ⟨p, hp, rfl⟩)
      · simp
      · simp [hi]
      · simp [hi]
      · have := (mem_upperPairs n p).1 hp
        refine ⟨by simp, by simp; omega, ?_⟩
        simp only [List.mem_cons, List.not_mem_nil, or_false, forall_eq_or_imp, forall_eq]
        omega
    · rintro ⟨h1, h2, h3⟩
      match ds with
      | [] => exact Or.inl (Or.inl (Or.inl rfl))
      | [i] => exact Or.inl (Or.inl (Or.inr ⟨i, h3 i (by simp), rfl⟩))
      | [i, j] =>
        have hij : i ≤ j := by simpa using h2
        have hj := h3 j (by simp)
        rcases Nat.eq_or_lt_of_le hij with rfl | hlt
        · exact Or.inl (Or.inr ⟨i, hj, rfl⟩)
        · exact Or.inr ⟨(i, j), (mem_upperPairs n _).2 ⟨hlt, hj⟩, rfl⟩
      | _ :: _ :: _ :: _ => simp at h1

/-- The quadratic function with value `c`, gradient `g` and second derivatives `H` at `t`. -/
def quadratic {K : Type} [Field K] (n : Nat) (t : Nat → K) (c : K) (g : Nat → K) (H : Nat → Nat → K) (x : Nat → K) : K :=
  c + ∑ i ∈ Finset.range n, g i * (x i - t i) + (∑ i ∈ Finset.range n, ∑ j ∈ Finset.range n, H i j * (x i - t i) * (x j - t j)) / 2

/-- Its derivative with respect to the axes in a list. -/
def quadraticDerivative {K : Type} [Zero K] (c : K) (g : Nat → K) (H : Nat → Nat → K) : List Nat → K
  | [] => c
  | [i] => g i
  | [i, j] => H i j
  | _ => 0

theorem sum_getD_mul {K : Type} [Field K] (D : List Nat → K) : ∀ (row : List K) (names : List (List Nat)) (k : Nat), row.length = k → names.length = k →
    ∑ c : Fin k, row.getD c 0 * D (names.getD c []) = (List.zipWith (fun x ds => x * D ds) row names).sum
  | [], names, k, h1, h2 => by
    simp only [List.length_nil] at h1
    subst h1
    simp
  | x :: row, [], k, h1, h2 => by
    simp only [List.length_nil] at h2
    subst h2
    simp at h1
  | x :: row, ds :: names, k, h1, h2 => by
    obtain ⟨k, rfl⟩ : ∃ k', k = k' + 1 := ⟨k - 1, by simp only [List.length_cons] at h1; omega⟩
    rw [Fin.sum_univ_succ]
    simp only [List.zipWith_cons_cons, List.sum_cons, Fin.val_zero, Fin.val_succ]
    have := sum_getD_mul D row names k (by simpa using h1) (by simpa using h2)
    rw [← this]
    rfl

theorem length_taylorRow {K : Type} [Field K] (n : Nat) (t x : Nat → K) : (taylorRow n t x).length = (derivativeNames n).length := by
  simp [taylorRow, derivativeNames]

theorem taylorRow_quadratic {K : Type} [Field K] [CharZero K] (n : Nat) (t : Nat → K) (c : K) (g : Nat → K) (H : Nat → Nat → K) (hH : ∀ i j, H i j = H j i) (x : Nat → K) :
    (List.zipWith (fun y ds => y * quadraticDerivative c g H ds) (taylorRow n t x) (derivativeNames n)).sum = quadratic n t c g H x := by
  unfold taylorRow derivativeNames quadratic
  simp only
  rw [List.zipWith_append (by simp), List.zipWith_append (by simp), List.zipWith_append (by simp)]
  simp only [List.sum_append, List.zipWith_map, List.zipWith_self, List.zipWith_cons_cons, List.zipWith_nil_right, List.sum_cons, List.sum_nil, quadraticDerivative, one_mul, add_zero]
  rw [sum_upperPairs n (fun p => (x p.1 - t p.1) * (x p.2 - t p.2) * H p.1 p.2)]
  have hl : ∀ f : Nat → K, ((List.range n).map f).sum = ∑ i ∈ Finset.range n, f i := fun f => by
    rw [← List.sum_toFinset f List.nodup_range]
    exact Finset.sum_congr (by ext; simp) fun _ _ => rfl
  rw [hl, hl]
  rw [← Finset.sum_product' (Finset.range n) (Finset.range n) (fun i j => H i j * (x i - t i) * (x j - t j))]
  have h5 := Finset.sum_filter_add_sum_filter_not (Finset.range n ×ˢ Finset.range n) (fun p => p.1 < p.2) (fun p => H p.1 p.2 * (x p.1 - t p.1) * (x p.2 - t p.2))
  have h6 := Finset.sum_filter_add_sum_filter_not ((Finset.range n ×ˢ Finset.range n).filter (fun p => ¬ p.1 < p.2)) (fun p => p.1 = p.2) (fun p => H p.1 p.2 * (x p.1 - t p.1) * (x p.2 - t p.2))
  have e1 : ((Finset.range n ×ˢ Finset.range n).filter (fun p => ¬ p.1 < p.2)).filter (fun p => p.1 = p.2) = (Finset.range n).image (fun i => (i, i)) := by
    ext p
    simp only [Finset.mem_filter, Finset.mem_product, Finset.mem_image, Finset.mem_range]
    constructor
    · rintro ⟨⟨⟨h1, _⟩, _⟩, h2⟩
      exact ⟨p.1, h1, Prod.ext rfl h2⟩
    · rintro ⟨i, hi, rfl⟩
      exact ⟨⟨⟨hi, hi⟩, lt_irrefl _⟩, rfl⟩
  have e2 : ((Finset.range n ×ˢ Finset.range n).filter (fun p => ¬ p.1 < p.2)).filter (fun p => ¬ p.1 = p.2) = (Finset.range n ×ˢ Finset.range n).filter (fun p => p.2 < p.1) := by
    ext p; simp only [Finset.mem_filter]
    exact ⟨fun h => ⟨h.1.1, by have := h.1.2; have := h.2; omega⟩, fun h => ⟨⟨h.1, by have := h.2; omega⟩, by have := h.2; omega⟩⟩
  rw [e1, e2, Finset.sum_image (fun i _ j _ h => by simpa using h)] at h6
  have h7 : ∑ p ∈ (Finset.range n ×ˢ Finset.range n).filter (fun p => p.2 < p.1), H p.1 p.2 * (x p.1 - t p.1) * (x p.2 - t p.2) =
      ∑ p ∈ (Finset.range n ×ˢ Finset.range n).filter (fun p => p.1 < p.2), H p.1 p.2 * (x p.1 - t p.1) * (x p.2 - t p.2) := by
    refine Finset.sum_bij (fun p _ => (p.2, p.1)) ?_ ?_ ?_ ?_
    · intro p hp
      simp only [Finset.mem_filter, Finset.mem_product] at hp ⊢
      exact ⟨⟨hp.1.2, hp.1.1⟩, hp.2⟩
    · intro p _ q _ h
      exact Prod.ext (congrArg Prod.snd h) (congrArg Prod.fst h)
    · intro p hp
      simp only [Finset.mem_filter, Finset.mem_product] at hp
      exact ⟨(p.2, p.1), by simp only [Finset.mem_filter, Finset.mem_product]; exact ⟨⟨hp.1.2, hp.1.1⟩, hp.2⟩, rfl⟩
    · intro p _
      simp only
      rw [hH p.1 p.2]
      ring
  rw [h7] at h6
  rw [← h5, ← h6]
  have e3 : ∑ p ∈ (Finset.range n ×ˢ Finset.range n).filter (fun p => p.1 < p.2), (x p.1 - t p.1) * (x p.2 - t p.2) * H p.1 p.2 =
      ∑ p ∈ (Finset.range n ×ˢ Finset.range n).filter (fun p => p.1 < p.2), H p.1 p.2 * (x p.1 - t p.1) * (x p.2 - t p.2) :=
    Finset.sum_congr rfl fun p _ => by ring
  have e4 : ∑ i ∈ Finset.range n, (x i - t i) * (x i - t i) / 2 * H i i = (∑ i ∈ Finset.range n, H i i * (x i - t i) * (x i - t i)) / 2 := by
    rw [Finset.sum_div]
    exact Finset.sum_congr rfl fun i _ => by ring
  have e5 : ∑ i ∈ Finset.range n, (x i - t i) * g i = ∑ i ∈ Finset.range n, g i * (x i - t i) := Finset.sum_congr rfl fun i _ => by ring
  rw [e3, e4, e5]
  field_simp
  ring

/-- C115: the Taylor approximation gives the value and the derivatives up to order two of every quadratic function exactly, from any stencil for which the
equations can be solved; otherwise it fails. -/
theorem C115_taylor {K : Type} [Field K] [CharZero K] (n : Nat) (t : Nat → K) (stencil : Fin (triangular (n + 1)) → Nat → K) (c : K) (g : Nat → K) (H : Nat → Nat → K)
    (hH : ∀ i j, H i j = H j i) :
    (∀ r, taylorApprox n t stencil (fun s => quadratic n t c g H (stencil s)) = .ok r →
      ∀ k, r k = quadraticDerivative c g H ((derivativeNames n).getD k [])) ∧
    ((Matrix.of fun s (k : Fin (triangular (n + 1))) => (taylorRow n t (stencil s)).getD k 0).det ≠ 0 ↔
      ∃ r, taylorApprox n t stencil (fun s => quadratic n t c g H (stencil s)) = .ok r) := by
  unfold taylorApprox
  simp only
  constructor
  · intro r hr k
    split_ifs at hr with hdet
    · injection hr with hr
      rw [← hr]
      have hv : (fun s => quadratic n t c g H (stencil s)) = (Matrix.of fun s (k : Fin (triangular (n + 1))) => (taylorRow n t (stencil s)).getD k 0).mulVec
          (fun k => quadraticDerivative c g H ((derivativeNames n).getD k [])) := by
        funext s
        rw [← taylorRow_quadratic n t c g H hH (stencil s)]
        have hl := (C115_names n).2.1
        rw [← sum_getD_mul (quadraticDerivative c g H) _ _ (triangular (n + 1)) (by rw [length_taylorRow, hl]) hl]
        rfl
      rw [hv, Matrix.mulVec_mulVec, Matrix.nonsing_inv_mul _ (isUnit_iff_ne_zero.2 hdet), Matrix.one_mulVec]
  · constructor
    · intro h
      exact ⟨_, if_neg h⟩
    · rintro ⟨r, hr⟩ h
      rw [if_pos h] at hr
      cases hr

/-- C115: on a grid without structure the derivatives of a quadratic function are exact at every point with a solvable choice of neighbours. -/
theorem C115_nearest {K : Type} [Field K] [CharZero K] (n numPoints : Nat) (points : Nat → Nat → K) (nearest : Nat → Nat → Nat) (i : Nat) (c : K) (g : Nat → K)
    (H : Nat → Nat → K) (hH : ∀ i j, H i j = H j i) (r : Fin (triangular (n + 1)) → K)
    (hr : approxNearest n numPoints points (fun s => quadratic n (points i) c g H (points s)) nearest i = .ok r) (k : Fin (triangular (n + 1))) :
    r k = quadraticDerivative c g H ((derivativeNames n).getD k []) := by
  unfold approxNearest at hr
  split_ifs at hr with h
  exact (C115_taylor n (points i) (fun s => points (nearest i s.val)) c g H hH).1 r hr k

/-- C115, deviation: with exactly as many points as unknowns the search for neighbours fails, although the equations of these points can be solved. -/
theorem C115_nearest_fails {K : Type} [Field K] (n : Nat) (points : Nat → Nat → K) (values : Nat → K) (nearest : Nat → Nat → Nat) (i : Nat) :
    ∃ e, approxNearest n (triangular (n + 1)) points values nearest i = .error e := by
  unfold approxNearest
  rw [if_neg (lt_irrefl _)]
  exact ⟨_, rfl⟩

/-! ## Grids and the test function -/

/-- C115: the grid has its first point at zero and its last at one on each axis, and neighbours at a distance of the step. A single point fails. -/
theorem C115_grid {K : Type} [Field K] [LinearOrder K] [IsStrictOrderedRing K] (num ndim : Nat) (large : Bool) :
    (∃ e, differenceGrid K 1 ndim large = .error e) ∧
    (2 ≤ num → large = true → ∃ points w, differenceGrid K num ndim large = .ok (points, w) ∧ 0 < w ∧
      ∀ idx a, (idx a = 0 → points idx a = 0) ∧ (idx a = num - 1 → points idx a = 1) ∧ points idx a = idx a * w) := by
  constructor
  · unfold differenceGrid
    cases large with
    | true =>
      rw [if_pos rfl, if_pos rfl]
      exact ⟨"division by zero", rfl⟩
    | false =>
      rw [if_neg Bool.false_ne_true, if_pos rfl]
      generalize checkNotTooLarge 1 ndim = c
      cases c with
      | error e => exact ⟨e, rfl⟩
      | ok _ => exact ⟨"division by zero", rfl⟩
  · rintro h2 rfl
    have hpos : (0 : K) < (num : K) - 1 := by
      have : (1 : K) < (num : K) := by exact_mod_cast h2
      linarith
    refine ⟨fun idx a => (idx a : K) / ((num : K) - 1), 1 / ((num : K) - 1), ?_, div_pos one_pos hpos, fun idx a => ⟨fun h => ?_, fun h => ?_, ?_⟩⟩
    · unfold differenceGrid
      rw [if_pos rfl, if_neg (by omega)]
    · simp only [h, Nat.cast_zero, zero_div]
    · simp only [h]
      rw [Nat.cast_sub (by omega), Nat.cast_one, div_self hpos.ne']
    · simp only
      rw [mul_one_div]

/-- C115, deviation: the number of values is computed in 64 bits, so that the limit of ten million does not stop a grid with 1000 points on each of 22 axes. -/
theorem C115_size_deviates : checkNotTooLarge 1000 22 = .ok () ∧ (1000 : Int) ^ 22 * 22 > 10000000 := by
  constructor
  · decide +kernel
  · norm_num

/-- C115: the limit works as long as the number of values fits into 64 bits. -/
theorem C115_size_partial (num ndim : Nat) (h : num ^ ndim * ndim < 2 ^ 63) (h' : num ^ ndim < 2 ^ 63) :
    (∃ e, checkNotTooLarge num ndim = .error e) ↔ 10000000 < num ^ ndim * ndim := by
  have e : ∀ k : Nat, k < 2 ^ 63 → int64 (k : Int) = k := by
    intro k hk
    unfold int64
    omega
  unfold checkNotTooLarge
  have e1 : ((num : Int) ^ ndim) = ((num ^ ndim : Nat) : Int) := by push_cast; rfl
  have e2 : ((num ^ ndim : Nat) : Int) * (ndim : Int) = ((num ^ ndim * ndim : Nat) : Int) := by push_cast; rfl
  rw [e1, e _ h', e2, e _ h]
  generalize num ^ ndim * ndim = k
  by_cases hk : (k : Int) > 10000000
  · rw [if_pos hk]
    exact ⟨fun _ => by omega, fun _ => ⟨_, rfl⟩⟩
  · rw [if_neg hk]
    exact ⟨fun ⟨e, he⟩ => (by cases he), fun h => by omega⟩

/-- C115: the test function of Rosenbrock is never negative, and zero exactly at the point with all coordinates one (in dimension two or more). -/
theorem C115_rosenbrock {K : Type} [Field K] [LinearOrder K] [IsStrictOrderedRing K] (x : List K) :
    0 ≤ rosenbrock x ∧ (2 ≤ x.length → (rosenbrock x = 0 ↔ ∀ y ∈ x, y = 1)) := by
  have step : ∀ (u v : K) (l : List K), rosenbrock (u :: v :: l) = 100 * (v - u ^ 2) ^ 2 + (1 - u) ^ 2 + rosenbrock (v :: l) := by
    intro u v l
    unfold rosenbrock
    simp [List.dropLast]
  have nonneg : ∀ l : List K, 0 ≤ rosenbrock l := by
    intro l
    induction l with
    | nil => simp [rosenbrock]
    | cons u l ih =>
      cases l with
      | nil => simp [rosenbrock]
      | cons v l =>
        rw [step]
        have h1 := sq_nonneg (v - u ^ 2)
        have h2 := sq_nonneg (1 - u)
        linarith
  have zero : ∀ (l : List K) (u v : K), rosenbrock (u :: v :: l) = 0 ↔ ∀ y ∈ u :: v :: l, y = 1 := by
    intro l
    induction l with
    | nil =>
      intro u v
      rw [step]
      have h0 : rosenbrock [v] = 0 := by simp [rosenbrock]
      rw [h0]
      constructor
      · intro h
        have h1 := sq_nonneg (v - u ^ 2)
        have h2 := sq_nonneg (1 - u)
        have h3 : (1 - u) ^ 2 = 0 := by linarith
        have h4 : (v - u ^ 2) ^ 2 = 0 := by linarith
        have h5 : u = 1 := by have := pow_eq_zero_iff (two_ne_zero) |>.1 h3; linarith
        have h6 : v = u ^ 2 := by have := pow_eq_zero_iff (two_ne_zero) |>.1 h4; linarith
        rw [h5] at h6
        simp [h5, h6]
      · intro h
        rw [h u (by simp), h v (by simp)]
        ring
    | cons z l ih =>
      intro u v
      rw [step]
      have hn := nonneg (v :: z :: l)
      have h1 := sq_nonneg (v - u ^ 2)
      have h2 := sq_nonneg (1 - u)
      constructor
      · intro h
        have h3 : (1 - u) ^ 2 = 0 := by linarith
        have h4 : rosenbrock (v :: z :: l) = 0 := by linarith
        have h5 : u = 1 := by have := pow_eq_zero_iff (two_ne_zero) |>.1 h3; linarith
        have h6 := (ih v z).1 h4
        intro y hy
        rcases List.mem_cons.1 hy with rfl | hy
        · exact h5
        · exact h6 y hy
      · intro h
        have h6 := (ih v z).2 fun y hy => h y (List.mem_cons_of_mem _ hy)
        rw [h6, h u (by simp), h v (by simp)]
        ring
  refine ⟨nonneg x, fun h => ?_⟩
  match x with
  | [] => simp at h
  | [_] => simp at h
  | u :: v :: l => exact zero l u v

/-- `f(x) = x²` on five points with step one half: first derivative 2 and second derivative 2 at the third point, NaN at the first. -/
example : ∃ r r2, centralDifference (K := ℚ) (d := 1) (fun _ => 5) (fun i => some (((i 0 : ℚ) / 2) ^ 2)) [0] (1 / 2) = .ok r ∧ r (fun _ => 2) = some 2 ∧ r (fun _ => 0) = none ∧
    centralDifference (K := ℚ) (d := 1) (fun _ => 5) (fun i => some (((i 0 : ℚ) / 2) ^ 2)) [0, 0] (1 / 2) = .ok r2 ∧ r2 (fun _ => 2) = some 2 := by
  refine ⟨_, _, rfl, ?_, ?_, rfl, ?_⟩ <;> decide +kernel

example : derivativeNames 2 = [[], [0], [1], [0, 0], [1, 1], [0, 1]] ∧ rosenbrock ([1, 2, 3] : List ℚ) = 201 := by decide +kernel

end Props
