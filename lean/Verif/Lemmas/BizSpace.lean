import Verif.Lemmas.BoundedRoll
import Verif.Model.UnboundedCalendar

/-! Business day space: lemmas for the arithmetic calendar. -/

namespace Lemmas
open Model Spec

/-! ### lower bound -/

theorem getD_getElem (a : List Int) (d : Int) {i : Nat} (h : i < a.length) : a.getD i d = a[i] := by
  rw [List.getD_eq_getElem?_getD, List.getElem?_eq_getElem h]; rfl

theorem lowerBoundLoop_spec (a : List Int) (x : Int) (ha : a.Pairwise (· ≤ ·)) :
    ∀ fuel first len, len ≤ fuel → first + len ≤ a.length →
      (∀ i, i < first → a.getD i 0 < x) → (∀ i, first + len ≤ i → i < a.length → x ≤ a.getD i 0) →
      let r := lowerBoundLoop a x fuel first len
      r ≤ a.length ∧ (∀ i, i < r → a.getD i 0 < x) ∧ (∀ i, r ≤ i → i < a.length → x ≤ a.getD i 0) := by
  have hsort : ∀ i j, i ≤ j → j < a.length → a.getD i 0 ≤ a.getD j 0 := by
    intro i j hij hj
    rw [getD_getElem _ _ (by omega : i < a.length), getD_getElem _ _ hj]
    rcases Nat.lt_or_eq_of_le hij with h | rfl
    · exact List.pairwise_iff_getElem.1 ha i j (by omega) hj h
    · exact Int.le_refl _
  intro fuel
  induction fuel with
  | zero =>
    intro first len h1 h2 h3 h4
    simp only [lowerBoundLoop]
    exact ⟨by omega, h3, fun i hi => h4 i (by omega)⟩
  | succ fuel ih =>
    intro first len h1 h2 h3 h4
    simp only [lowerBoundLoop]
    by_cases hl : len = 0
    · rw [if_pos hl]; exact ⟨by omega, h3, fun i hi => h4 i (by omega)⟩
    · rw [if_neg hl]
      by_cases hx : a.getD (first + len / 2) 0 < x
      · rw [if_pos hx]
        apply ih
        · omega
        · omega
        · intro i hi
          by_cases hf : i < first
          · exact h3 i hf
          · have := hsort i (first + len / 2) (by omega) (by omega)
            omega
        · intro i hi1 hi2; exact h4 i (by omega) hi2
      · rw [if_neg hx]
        apply ih
        · omega
        · omega
        · exact h3
        · intro i hi1 hi2
          have := hsort (first + len / 2) i hi1 hi2
          omega

theorem searchsortedLeft_spec (a : List Int) (x : Int) (ha : a.Pairwise (· ≤ ·)) :
    ∃ r : Nat, searchsortedLeft a x = r ∧ r ≤ a.length ∧
      ∀ i, i < a.length → (a.getD i 0 < x ↔ i < r) := by
  obtain ⟨h1, h2, h3⟩ := lowerBoundLoop_spec a x ha a.length 0 a.length (Nat.le_refl _) (by omega)
    (fun i hi => by omega) (fun i hi1 hi2 => by omega)
  refine ⟨_, rfl, h1, fun i hi => ⟨fun h => ?_, fun h => h2 i h⟩⟩
  by_contra hge
  have := h3 i (by omega) hi
  omega

theorem countP_of_prefix (p : Int → Bool) (a : List Int) (r : Nat) (hr : r ≤ a.length)
    (h : ∀ i, i < a.length → (p (a.getD i 0) = true ↔ i < r)) : a.countP p = r := by
  rw [← List.take_append_drop r a, List.countP_append]
  have h1 : (a.take r).countP p = r := by
    have : (a.take r).length = r := by rw [List.length_take]; omega
    refine Eq.trans (List.countP_eq_length.2 ?_) this
    intro v hv
    obtain ⟨i, hi, rfl⟩ := List.mem_iff_getElem.1 hv
    rw [List.getElem_take, ← getD_getElem _ 0]
    rw [List.length_take] at hi
    exact (h i (by omega)).2 (by omega)
  have h2 : (a.drop r).countP p = 0 := by
    rw [List.countP_eq_zero]
    intro v hv
    obtain ⟨i, hi, rfl⟩ := List.mem_iff_getElem.1 hv
    rw [List.getElem_drop, ← getD_getElem _ 0]
    rw [List.length_drop] at hi
    intro hp
    have := (h (r + i) (by omega)).1 hp
    omega
  omega

theorem searchsortedLeft_eq (a : List Int) (x : Int) (ha : a.Pairwise (· ≤ ·)) :
    searchsortedLeft a x = (a.countP (fun v => decide (v < x)) : Nat) := by
  obtain ⟨r, h1, h2, h3⟩ := searchsortedLeft_spec a x ha
  rw [h1, countP_of_prefix _ a r h2]
  intro i hi
  rw [decide_eq_true_iff]; exact h3 i hi

/-! ### Business day spaces -/

/-- `F` numbers the days of `B` consecutively (days outside `B` get the number of the previous day
of `B`) and `G` finds the day of a number. -/
structure BizSpace (F G : Int → Int) (B : Int → Prop) [DecidablePred B] : Prop where
  step : ∀ o, F (o + 1) = F o + (if B (o + 1) then 1 else 0)
  mem : ∀ k, B (G k)
  inv : ∀ k, F (G k) = k

namespace BizSpace
variable {F G : Int → Int} {B : Int → Prop} [DecidablePred B] (S : BizSpace F G B)
include S

theorem mono_add (o : Int) (n : Nat) : F o ≤ F (o + n) := by
  induction n with
  | zero => simp
  | succ n ih =>
    have := S.step (o + n)
    rw [show o + ((n + 1 : Nat) : Int) = o + n + 1 by omega, this]
    split <;> omega

theorem mono {a b : Int} (h : a ≤ b) : F a ≤ F b := by
  have := S.mono_add a (b - a).toNat
  rwa [show a + ((b - a).toNat : Int) = b by omega] at this

theorem lt {a b x : Int} (h1 : a < x) (h2 : x ≤ b) (hx : B x) : F a < F b := by
  have e := S.step (x - 1)
  rw [show x - 1 + 1 = x by omega, if_pos hx] at e
  have := S.mono (show a ≤ x - 1 by omega)
  have := S.mono h2
  omega

theorem none_between {a b : Int} (h : F a = F b) (x : Int) (h1 : a < x) (h2 : x ≤ b) : ¬ B x :=
  fun hx => by have := S.lt h1 h2 hx; omega

theorem last (o : Int) : LastOnOrBefore B o (G (F o)) := by
  have h := S.inv (F o)
  refine ⟨?_, S.mem _, fun x h1 h2 => S.none_between h x h1 h2⟩
  by_contra hlt
  have := S.lt (show o < G (F o) by omega) (Int.le_refl _) (S.mem _)
  omega

theorem G_F {o : Int} (h : B o) : G (F o) = o :=
  last_unique (S.last o) ⟨Int.le_refl o, h, fun x h1 h2 => by omega⟩

theorem first {o : Int} (h : ¬ B o) : FirstOnOrAfter B o (G (F o + 1)) := by
  have hi := S.inv (F o + 1)
  have hle : o ≤ G (F o + 1) := by
    by_contra hlt
    have := S.mono (show G (F o + 1) ≤ o by omega)
    omega
  refine ⟨hle, S.mem _, fun x h1 h2 hx => ?_⟩
  have hxo : x ≠ o := by rintro rfl; exact h hx
  have a := S.lt (show o < x by omega) (Int.le_refl x) hx
  have b := S.lt h2 (Int.le_refl _) (S.mem (F o + 1))
  omega

/-- Number of the first business day on or after `o`. -/
theorem first' (o : Int) : FirstOnOrAfter B o (G (if B o then F o else F o + 1)) := by
  by_cases h : B o
  · rw [if_pos h, S.G_F h]; exact ⟨Int.le_refl o, h, fun x h1 h2 => by omega⟩
  · rw [if_neg h]; exact S.first h

theorem pred (o : Int) : (if B o then F o else F o + 1) = F (o - 1) + 1 := by
  have := S.step (o - 1)
  rw [show o - 1 + 1 = o by omega] at this
  split <;> rename_i h
  · rw [if_pos h] at this; exact this
  · rw [if_neg h] at this; omega

theorem count {a b : Int} (h : a ≤ b) : (countIn B a b : Int) = F (b - 1) - F (a - 1) := by
  refine countIn_unique B (fun x => F (x - 1)) a b (fun x _ _ => ?_) (Int.le_refl a) (Int.le_refl b) h
  have := S.step (x - 1)
  rw [show x - 1 + 1 = x by omega] at this
  show F (x + 1 - 1) = _
  rw [show x + 1 - 1 = x by omega]
  exact this

theorem after {d n : Int} (hd : B d) : BusinessDaysAfter B d n (G (F d + n)) := by
  have hi := S.inv (F d + n)
  have hm := S.mem (F d + n)
  have s1 := S.step (G (F d + n) - 1)
  rw [show G (F d + n) - 1 + 1 = G (F d + n) by omega, if_pos hm] at s1
  have s2 := S.step (d - 1)
  rw [show d - 1 + 1 = d by omega, if_pos hd] at s2
  refine ⟨hm, fun hn => ?_, fun hn => ?_⟩
  · have hle : d ≤ G (F d + n) := by
      by_contra hlt
      have := S.lt (show G (F d + n) < d by omega) (Int.le_refl d) hd
      omega
    exact ⟨hle, by rw [S.count hle]; omega⟩
  · have hle : G (F d + n) ≤ d := by
      by_contra hlt
      have := S.lt (show d < G (F d + n) by omega) (Int.le_refl _) hm
      omega
    exact ⟨hle, by rw [S.count hle]; omega⟩

end BizSpace

/-- `r` is determined by `BusinessDaysAfter`. -/
theorem after_unique {B : Int → Prop} [DecidablePred B] {d n r r' : Int}
    (h : BusinessDaysAfter B d n r) (h' : BusinessDaysAfter B d n r') : r = r' := by
  obtain ⟨a, b, c⟩ := h
  obtain ⟨a', b', c'⟩ := h'
  have mono : ∀ x y : Int, d ≤ x → x ≤ y → B x → x < y → countIn B d x < countIn B d y := by
    intro x y hx hxy hB hlt
    obtain ⟨n, hn⟩ : ∃ n : Nat, y = x + 1 + n := ⟨(y - x - 1).toNat, by omega⟩
    subst hn
    clear hlt hxy
    induction n with
    | zero =>
      rw [show x + 1 + ((0 : Nat) : Int) = x + 1 by omega, countIn_succ B hx, if_pos hB]; omega
    | succ n ih =>
      rw [show x + 1 + ((n + 1 : Nat) : Int) = x + 1 + n + 1 by omega, countIn_succ B (by omega)]
      omega
  have split : ∀ x y z : Int, x ≤ y → y ≤ z → countIn B x z = countIn B x y + countIn B y z := by
    intro x y z hx hy
    obtain ⟨n, hn⟩ : ∃ n : Nat, z = y + n := ⟨(z - y).toNat, by omega⟩
    subst hn
    clear hy
    induction n with
    | zero => rw [show y + ((0 : Nat) : Int) = y by omega, countIn_eq_zero B (Int.le_refl y)]; omega
    | succ n ih =>
      rw [show y + ((n + 1 : Nat) : Int) = y + n + 1 by omega, countIn_succ B (by omega),
        countIn_succ B (by omega)]
      omega
  have pos : ∀ x y : Int, B x → x < y → 0 < countIn B x y := by
    intro x y hB hxy
    rw [split x (x + 1) y (by omega) (by omega), countIn_succ B (Int.le_refl x), if_pos hB]; omega
  rcases Int.le_total 0 n with hn | hn
  · obtain ⟨p, q⟩ := b hn
    obtain ⟨p', q'⟩ := b' hn
    by_contra hne
    rcases Int.lt_or_gt_of_ne hne with hl | hl
    · have := mono r r' p (by omega) a hl; omega
    · have := mono r' r p' (by omega) a' hl; omega
  · obtain ⟨p, q⟩ := c hn
    obtain ⟨p', q'⟩ := c' hn
    by_contra hne
    rcases Int.lt_or_gt_of_ne hne with hl | hl
    · have := split r r' d (by omega) (by omega)
      have := pos r r' a hl
      omega
    · have := split r' r d (by omega) (by omega)
      have := pos r' r a' hl
      omega

/-! ### Weekday space -/

theorem week_facts : ∀ a b c d e f g : Bool,
    let m := [a, b, c, d, e, f, g]
    (∀ r, r < 6 → (weekdayOffsets m).getD (r + 1) 0 =
      (weekdayOffsets m).getD r 0 + (if (weekdayMask m).getD (r + 1) false then 1 else 0)) ∧
    ((weekdayOffsets m).getD 0 0 + numWorkdays m = (weekdayOffsets m).getD 6 0 +
      (if (weekdayMask m).getD 0 false then 1 else 0)) ∧
    (∀ j, j < (numWorkdays m).toNat → ∃ v, v < 7 ∧ (ordinalOffsets m)[j]? = some (Int.ofNat v) ∧
      (weekdayMask m).getD v false = true ∧ (weekdayOffsets m).getD v 0 = j) ∧
    (numWorkdays m = 0 ↔ (a && b && c && d && e && f && g) = true) ∧ 0 ≤ numWorkdays m := by
  decide +kernel

/-- Back from weekday numbers to ordinals, without the error cases. -/
def weekG (m : List Bool) (k : Int) : Int :=
  (k / numWorkdays m) * 7 + (ordinalOffsets m).getD (k % numWorkdays m).toNat 0

theorem list7 {α : Type} (m : List α) (h : m.length = 7) :
    ∃ a b c d e f g, m = [a, b, c, d, e, f, g] := by
  match m, h with
  | [a, b, c, d, e, f, g], _ => exact ⟨a, b, c, d, e, f, g, rfl⟩

theorem numWorkdays_pos {m : List Bool} (hm : m.length = 7) (hw : false ∈ m) : 0 < numWorkdays m := by
  obtain ⟨a, b, c, d, e, f, g, rfl⟩ := list7 m hm
  obtain ⟨_, _, _, h4, h5⟩ := week_facts a b c d e f g
  have : numWorkdays [a, b, c, d, e, f, g] ≠ 0 := by
    intro h
    have h := h4.1 h
    simp only [Bool.and_eq_true] at h
    obtain ⟨⟨⟨⟨⟨⟨rfl, rfl⟩, rfl⟩, rfl⟩, rfl⟩, rfl⟩, rfl⟩ := h
    simp at hw
  omega

theorem weekSpace {m : List Bool} (hm : m.length = 7) (hw : false ∈ m) :
    BizSpace (fun o => (weekdayForward m o).1) (weekG m) (fun o => (weekdayForward m o).2 = true) := by
  have hn := numWorkdays_pos hm hw
  obtain ⟨a, b, c, d, e, f, g, rfl⟩ := list7 m hm
  obtain ⟨h1, h2, h3, _, _⟩ := week_facts a b c d e f g
  generalize [a, b, c, d, e, f, g] = m at *
  have key : ∀ k : Int, ∃ v : Nat, v < 7 ∧ weekG m k = (k / numWorkdays m) * 7 + v ∧
      (weekdayMask m).getD v false = true ∧ (weekdayOffsets m).getD v 0 = k % numWorkdays m := by
    intro k
    have hk0 := Int.emod_nonneg k (show numWorkdays m ≠ 0 by omega)
    have hk1 := Int.emod_lt_of_pos k hn
    obtain ⟨v, hv, hv1, hv2, hv3⟩ := h3 (k % numWorkdays m).toNat (by omega)
    refine ⟨v, hv, ?_, hv2, by rw [hv3]; omega⟩
    unfold weekG
    rw [List.getD_eq_getElem?_getD, hv1]; rfl
  refine ⟨?_, ?_, ?_⟩
  · intro o
    change (o + 1) / 7 * numWorkdays m + (weekdayOffsets m).getD ((o + 1) % 7).toNat 0 =
      o / 7 * numWorkdays m + (weekdayOffsets m).getD (o % 7).toNat 0 +
        if (weekdayMask m).getD ((o + 1) % 7).toNat false = true then 1 else 0
    by_cases h6 : o % 7 = 6
    · rw [show (o + 1) / 7 = o / 7 + 1 by omega, show (o + 1) % 7 = 0 by omega, h6]
      have := h2
      rw [Int.add_mul]
      simp only [Int.toNat_zero, show Int.toNat 6 = 6 from rfl]
      omega
    · have hlt : o % 7 < 6 := by omega
      rw [show (o + 1) / 7 = o / 7 by omega, show ((o + 1) % 7).toNat = (o % 7).toNat + 1 by omega,
        h1 (o % 7).toNat (by omega)]
      omega
  · intro k
    obtain ⟨v, hv, e1, e2, e3⟩ := key k
    simp only [weekdayForward]
    rw [show (weekG m k % 7).toNat = v by omega]
    exact e2
  · intro k
    obtain ⟨v, hv, e1, e2, e3⟩ := key k
    simp only [weekdayForward]
    rw [show (weekG m k % 7).toNat = v by omega, show weekG m k / 7 = k / numWorkdays m by omega, e3]
    have := Int.mul_ediv_add_emod k (numWorkdays m)
    rw [Int.mul_comm] at this
    exact this

theorem weekdayBackward_eq {m : List Bool} (hm : m.length = 7) (hw : false ∈ m) (k : Int) :
    weekdayBackward m k = .ok (weekG m k) := by
  have hn := numWorkdays_pos hm hw
  obtain ⟨a, b, c, d, e, f, g, rfl⟩ := list7 m hm
  obtain ⟨_, _, h3, _, _⟩ := week_facts a b c d e f g
  generalize [a, b, c, d, e, f, g] = m at *
  have hk0 := Int.emod_nonneg k (show numWorkdays m ≠ 0 by omega)
  have hk1 := Int.emod_lt_of_pos k hn
  obtain ⟨v, hv, hv1, hv2, hv3⟩ := h3 (k % numWorkdays m).toNat (by omega)
  unfold weekdayBackward weekG
  rw [if_neg (by omega), (gather_ok_iff _ _ (Int.ofNat v)).2 ⟨hk0, hv1⟩, bind_ok,
    List.getD_eq_getElem?_getD, hv1]
  rfl

theorem weekG_zero_lt {m : List Bool} (hm : m.length = 7) (hw : false ∈ m) : weekG m 0 < 7 := by
  have hn := numWorkdays_pos hm hw
  obtain ⟨a, b, c, d, e, f, g, rfl⟩ := list7 m hm
  obtain ⟨_, _, h3, _, _⟩ := week_facts a b c d e f g
  generalize [a, b, c, d, e, f, g] = m at *
  obtain ⟨v, hv, hv1, hv2, hv3⟩ := h3 0 (by omega)
  unfold weekG
  rw [Int.zero_ediv, Int.zero_emod, List.getD_eq_getElem?_getD]
  simp only [Int.toNat_zero, hv1]
  show 0 * 7 + (v : Int) < 7
  omega

theorem weekdayForward_iff (m : List Bool) (o : Int) :
    (weekdayForward m o).2 = !(m.getD (weekday o) false) := by
  have h : (o % 7).toNat < 7 := by omega
  have e : ((o % 7).toNat + 6) % 7 = weekday o := by unfold weekday; omega
  simp only [weekdayForward, weekdayMask, List.getD_eq_getElem?_getD, List.getElem?_map,
    List.getElem?_range h, Option.map_some, Option.getD_some, e]

/-! ### Holiday space -/

section
variable {hs : List Int}

theorem countP_le_succ (hnd : hs.Nodup) (x : Int) :
    (hs.countP (fun v => decide (v ≤ x + 1)) : Int) =
      hs.countP (fun v => decide (v ≤ x)) + (if x + 1 ∈ hs then 1 else 0) := by
  induction hs with
  | nil => simp
  | cons a t ih =>
    rw [List.nodup_cons] at hnd
    have := ih hnd.2
    rw [List.countP_cons, List.countP_cons]
    simp only [decide_eq_true_eq, List.mem_cons]
    by_cases ha : x + 1 = a
    · subst ha
      rw [if_neg hnd.1] at this
      simp only [true_or, if_true, Int.le_refl]
      rw [if_neg (show ¬ (x + 1 ≤ x) by omega)]
      omega
    · simp only [ha, false_or]
      by_cases hax : a ≤ x
      · rw [if_pos hax, if_pos (show a ≤ x + 1 by omega)]; omega
      · rw [if_neg hax, if_neg (show ¬ a ≤ x + 1 by omega)]; omega

theorem reverse_neg_sorted (h : hs.Pairwise (· < ·)) :
    ((hs.map (fun h => -h)).reverse).Pairwise (· ≤ ·) := by
  rw [List.pairwise_reverse, List.pairwise_map]
  exact h.imp (fun hab => by omega)

theorem countP_reverse_neg (x : Int) :
    ((hs.map (fun h => -h)).reverse).countP (fun v => decide (v < -x)) =
      hs.countP (fun v => decide (x < v)) := by
  rw [List.countP_reverse, List.countP_map]
  congr 1
  funext v
  simp only [Function.comp]
  rw [decide_eq_decide]; omega

theorem countP_compl (x : Int) :
    (hs.countP (fun v => decide (x < v)) : Int) + hs.countP (fun v => decide (v ≤ x)) = hs.length := by
  induction hs with
  | nil => rfl
  | cons a t ih =>
    simp only [List.countP_cons, decide_eq_true_eq, List.length_cons]
    by_cases h : x < a
    · rw [if_pos h, if_neg (show ¬ a ≤ x by omega)]; omega
    · rw [if_neg h, if_pos (show a ≤ x by omega)]; omega

theorem bizdayFwd_fst (h : hs.Pairwise (· < ·)) (x : Int) :
    (bizdayFwd hs x).1 = x + 1 - hs.countP (fun v => decide (v ≤ x)) := by
  simp only [bizdayFwd]
  rw [searchsortedLeft_eq _ _ (reverse_neg_sorted h), countP_reverse_neg]
  have := countP_compl (hs := hs) x
  omega

theorem sorted_le (h : hs.Pairwise (· < ·)) : hs.Pairwise (· ≤ ·) := h.imp (fun h => by omega)
theorem sorted_nodup (h : hs.Pairwise (· < ·)) : hs.Nodup := h.imp (fun h => by omega)

theorem bizdayFwd_snd (h : hs.Pairwise (· < ·)) (x : Int) :
    (bizdayFwd hs x).2 = true ↔ x ∉ hs := by
  have e := countP_le_succ (sorted_nodup h) (x - 1)
  rw [show x - 1 + 1 = x by omega] at e
  have e2 : hs.countP (fun v => decide (v ≤ x - 1)) = hs.countP (fun v => decide (v < x)) := by
    congr 1; funext v; rw [decide_eq_decide]; omega
  simp only [bizdayFwd]
  rw [searchsortedLeft_eq _ _ (reverse_neg_sorted h), countP_reverse_neg,
    searchsortedLeft_eq _ _ (sorted_le h), bne_iff_ne]
  have := countP_compl (hs := hs) x
  rw [e2] at e
  by_cases hx : x ∈ hs
  · rw [if_pos hx] at e
    simp only [hx, not_true_eq_false, iff_false]
    omega
  · rw [if_neg hx] at e
    simp only [hx, not_false_eq_true, iff_true]
    omega

theorem bizdayAt_getD {i : Nat} (hi : i < hs.length) :
    (bizdayAtHolidays hs).getD i 0 = hs.getD i 0 - i := by
  unfold bizdayAtHolidays
  rw [List.getD_eq_getElem?_getD, List.getElem?_map, List.getElem?_range hi]
  rfl

theorem sorted_gap (h : hs.Pairwise (· < ·)) {i j : Nat} (hij : i ≤ j) (hj : j < hs.length) :
    hs.getD i 0 + (j - i : Int) ≤ hs.getD j 0 := by
  obtain ⟨n, rfl⟩ := Nat.le.dest hij
  clear hij
  induction n with
  | zero => simp
  | succ n ih =>
    have := ih (by omega)
    have h2 := List.pairwise_iff_getElem.1 h (i + n) (i + (n + 1)) (by omega) hj (by omega)
    rw [← getD_getElem hs 0 (by omega), ← getD_getElem hs 0 hj] at h2
    omega

theorem bizdayAt_sorted (h : hs.Pairwise (· < ·)) : (bizdayAtHolidays hs).Pairwise (· ≤ ·) := by
  rw [List.pairwise_iff_getElem]
  intro i j hi hj hij
  have hl : (bizdayAtHolidays hs).length = hs.length := by simp [bizdayAtHolidays]
  rw [← getD_getElem _ 0 hi, ← getD_getElem _ 0 hj, bizdayAt_getD (by omega), bizdayAt_getD (by omega)]
  have := sorted_gap h (Nat.le_of_lt hij) (by omega)
  omega

theorem bizdayBack_spec (h : hs.Pairwise (· < ·)) (k : Int) :
    bizdayBack hs k ∉ hs ∧ (bizdayFwd hs (bizdayBack hs k)).1 = k := by
  obtain ⟨L, e, hL, hi⟩ := searchsortedLeft_spec (bizdayAtHolidays hs) k (bizdayAt_sorted h)
  have hl : (bizdayAtHolidays hs).length = hs.length := by simp [bizdayAtHolidays]
  rw [hl] at hL hi
  have hy : bizdayBack hs k = k + L - 1 := by unfold bizdayBack; rw [e]
  have h1 : ∀ i, i < hs.length → (hs.getD i 0 ≤ bizdayBack hs k ↔ i < L) ∧ hs.getD i 0 ≠ bizdayBack hs k := by
    intro i hl'
    have a := hi i hl'
    rw [bizdayAt_getD hl'] at a
    by_cases hiL : i < L
    · have := a.2 hiL
      exact ⟨⟨fun _ => hiL, fun _ => by omega⟩, by omega⟩
    · have := mt a.1 hiL
      exact ⟨⟨fun _ => by omega, fun h => absurd h hiL⟩, by omega⟩
  constructor
  · intro hmem
    obtain ⟨i, hi', e'⟩ := List.mem_iff_getElem.1 hmem
    rw [← getD_getElem _ 0 hi'] at e'
    exact (h1 i hi').2 e'
  · rw [bizdayFwd_fst h, countP_of_prefix _ hs L hL]
    · omega
    · intro i hi'
      rw [decide_eq_true_iff]
      exact (h1 i hi').1

theorem holidaySpace (h : hs.Pairwise (· < ·)) :
    BizSpace (fun x => (bizdayFwd hs x).1) (bizdayBack hs) (fun x => x ∉ hs) := by
  refine ⟨fun x => ?_, fun k => (bizdayBack_spec h k).1, fun k => (bizdayBack_spec h k).2⟩
  rw [bizdayFwd_fst h, bizdayFwd_fst h, countP_le_succ (sorted_nodup h)]
  by_cases hx : x + 1 ∈ hs <;> simp [hx] <;> omega
end

/-- Composition of two business day spaces. -/
theorem BizSpace.comp {F1 G1 F2 G2 : Int → Int} {B1 B2 : Int → Prop} [DecidablePred B1]
    [DecidablePred B2] (S1 : BizSpace F1 G1 B1) (S2 : BizSpace F2 G2 B2) :
    BizSpace (fun o => F2 (F1 o)) (fun k => G1 (G2 k)) (fun o => B1 o ∧ B2 (F1 o)) := by
  refine ⟨fun o => ?_, fun k => ⟨S1.mem _, ?_⟩, fun k => ?_⟩
  · have h1 := S1.step o
    by_cases hb : B1 (o + 1)
    · rw [if_pos hb] at h1
      have h2 := S2.step (F1 o)
      rw [h1]
      simp only [hb, true_and]
      exact h2
    · rw [if_neg hb] at h1
      simp [hb, h1]
  · simp only [S1.inv]; exact S2.mem _
  · simp only [S1.inv, S2.inv]

theorem BizSpace.congr {F G : Int → Int} {B B' : Int → Prop} [DecidablePred B] [DecidablePred B']
    (S : BizSpace F G B) (h : ∀ o, B o ↔ B' o) : BizSpace F G B' := by
  refine ⟨fun o => ?_, fun k => (h _).1 (S.mem k), S.inv⟩
  have e := S.step o
  by_cases hb : B (o + 1)
  · rw [if_pos hb] at e; rw [if_pos ((h _).1 hb)]; exact e
  · rw [if_neg hb] at e; rw [if_neg (fun hb' => hb ((h _).2 hb'))]; exact e

end Lemmas
