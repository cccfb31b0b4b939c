import Verif.Model.LinearInterpolation
import Verif.Lemmas.SearchSorted
import Mathlib.Algebra.Order.Field.Basic
import Mathlib.Algebra.Field.Rat
import Mathlib.Algebra.Order.Ring.Rat
import Mathlib.Algebra.BigOperators.Group.List.Basic
import Mathlib.Tactic.FieldSimp
import Mathlib.Tactic.Ring
import Mathlib.Tactic.Linarith
import Mathlib.Tactic.NormNum

/-! # C21: linear interpolation -/

namespace Props
open Model Lemmas

section
variable {K : Type} [Field K] [LinearOrder K]

theorem oneHot_getElem? (i n j : Nat) (hj : j < n) :
    (oneHot i n : List K)[j]? = some (if j = i then 1 else 0) := by
  unfold oneHot
  rw [List.getElem?_map, List.getElem?_range hj]; rfl

theorem oneHot_succ (i n : Nat) : (oneHot (i + 1) (n + 1) : List K) = 0 :: oneHot i n := by
  unfold oneHot
  rw [List.range_succ_eq_map, List.map_cons, List.map_map]
  congr 1
  apply List.map_congr_left
  intro j _
  simp

theorem oneHot_zero (n : Nat) : (oneHot 0 (n + 1) : List K) = 1 :: List.replicate n 0 := by
  unfold oneHot
  rw [List.range_succ_eq_map, List.map_cons, List.map_map]
  congr 1
  rw [List.eq_replicate_iff]
  refine ⟨by simp, ?_⟩
  intro b hb
  obtain ⟨j, _, rfl⟩ := List.mem_map.1 hb
  simp

theorem zip_replicate_zero (l : List K) (n : Nat) : (List.zipWith (· * ·) l (List.replicate n 0)).sum = 0 := by
  induction l generalizing n with
  | nil => simp
  | cons a l ih =>
    cases n with
    | zero => simp
    | succ n => simp [List.replicate_succ, ih]

/-- The one-hot variant of the lookup is the lookup. -/
theorem getSliceTpu_eq (l : List K) (i : Nat) : getSliceTpu l i = getSlice l i := by
  unfold getSliceTpu getSlice
  induction l generalizing i with
  | nil => simp
  | cons a l ih =>
    cases i with
    | zero =>
      rw [List.length_cons, oneHot_zero, List.zipWith_cons_cons, List.sum_cons, zip_replicate_zero]
      simp
    | succ i =>
      rw [List.length_cons, oneHot_succ, List.zipWith_cons_cons, List.sum_cons, ih]
      simp

/-- C21.  `optimize_for_tpu` does not change the result. -/
theorem C21_tpu (x : K) (xd yd : List K) (ls rs : K) :
    linearInterpolate x xd yd ls rs true = linearInterpolate x xd yd ls rs false := by
  unfold linearInterpolate
  simp only [if_true, getSliceTpu_eq, Bool.false_eq_true, if_false]

/-- C21.  Left of (or at) the first knot: the first ordinate plus the left slope times the distance (0 by
default). -/
theorem C21_left (x x0 y0 : K) (xd yd : List K) (ls rs : K)
    (hs : (x0 :: xd).Pairwise (· ≤ ·)) (h : x ≤ x0) :
    linearInterpolate x (x0 :: xd) (y0 :: yd) ls rs = y0 + ls * (x - x0) := by
  have hu : searchLeft (x0 :: xd) x = 0 := by
    apply searchLeft_eq _ hs _ _ (by omega)
    · intro a h1; omega
    · intro a ha; simp at ha; rw [← ha]; exact h
  unfold linearInterpolate
  simp only [hu]
  rw [if_neg (by simp)]
  simp

/-- C21.  Right of the last knot: the last ordinate plus the right slope times the distance. -/
theorem C21_right (x xn yn : K) (xd yd : List K) (ls rs : K) (hs : xd.Pairwise (· ≤ ·))
    (hx : xd.getLast? = some xn) (hy : yd.getLast? = some yn) (h : xn < x) :
    linearInterpolate x xd yd ls rs = yn + rs * (x - xn) := by
  have hne : xd ≠ [] := by rintro rfl; simp at hx
  have hpos : 0 < xd.length := List.length_pos_iff.2 hne
  have hu : searchLeft xd x = xd.length := by
    apply searchLeft_eq _ hs _ _ (le_refl _)
    · intro a _ ha
      rw [← List.getLast?_eq_getElem?, hx] at ha
      cases ha; exact h
    · intro a ha; simp at ha
  unfold linearInterpolate
  simp only [hu, if_true]
  rw [List.getLastD_eq_getLast?, List.getLastD_eq_getLast?, hx, hy]; rfl

/-- C21.  Between two neighbouring knots: the value on the chord. -/
theorem C21_cell (x a b c d : K) (xd yd : List K) (ls rs : K) (i : Nat) (hs : xd.Pairwise (· ≤ ·))
    (hxa : xd[i]? = some a) (hxb : xd[i + 1]? = some b) (hyc : yd[i]? = some c) (hyd : yd[i + 1]? = some d)
    (h1 : a < x) (h2 : x ≤ b) :
    linearInterpolate x xd yd ls rs = c + (x - a) * ((d - c) / (b - a)) := by
  have hlen : i + 1 < xd.length := (List.getElem?_eq_some_iff.1 hxb).1
  have hu : searchLeft xd x = i + 1 := by
    apply searchLeft_eq _ hs _ _ (by omega)
    · intro e _ he
      rw [Nat.add_sub_cancel, hxa] at he; cases he; exact h1
    · intro e he
      rw [hxb] at he; cases he; exact h2
  unfold linearInterpolate
  simp only [hu]
  have hc : ¬ (i + 1 = 0 ∨ i + 1 = xd.length) := by omega
  rw [if_neg (show ¬ i + 1 = xd.length by omega), if_neg (show ¬ i + 1 = 0 by omega), if_neg hc]
  have e1 : (max (((i + 1 : Nat) : Int) - 1) 0).toNat = i := by omega
  have e2 : (min ((i + 1 : Nat) : Int) ((xd.length : Int) - 1)).toNat = i + 1 := by omega
  rw [e1, e2]
  simp only [Bool.false_eq_true, if_false, getSlice, List.getD_eq_getElem?_getD, hxa, hxb, hyc, hyd, Option.getD_some]

/-- C21.  The three cases above cover every query: it is at or left of the first knot, right of the last one or in
a cell between two neighbouring knots. -/
theorem C21_cases (x x0 xn : K) (xd : List K) (hs : xd.Pairwise (· ≤ ·))
    (h0 : xd[0]? = some x0) (hn : xd.getLast? = some xn) :
    x ≤ x0 ∨ xn < x ∨ ∃ i a b, xd[i]? = some a ∧ xd[i + 1]? = some b ∧ a < x ∧ x ≤ b := by
  obtain ⟨hle, hsp⟩ := searchLeft_spec xd hs x
  rcases Nat.eq_zero_or_pos (searchLeft xd x) with h | h
  · left
    by_contra hc
    have := (hsp 0 x0 h0).2 (not_le.1 hc)
    omega
  · rcases Nat.lt_or_ge (searchLeft xd x) xd.length with h' | h'
    · right; right
      have ha : xd[searchLeft xd x - 1]? = some (xd[searchLeft xd x - 1]'(by omega)) := List.getElem?_eq_getElem _
      have hb : xd[searchLeft xd x]? = some (xd[searchLeft xd x]'h') := List.getElem?_eq_getElem _
      refine ⟨searchLeft xd x - 1, _, xd[searchLeft xd x]'h', ha, ?_, (hsp _ _ ha).1 (by omega), ?_⟩
      · rw [Nat.sub_add_cancel h]; exact hb
      · by_contra hc
        have := (hsp _ _ hb).2 (not_le.1 hc)
        omega
    · right; left
      rw [List.getLast?_eq_getElem?] at hn
      have hl : xd.length - 1 < searchLeft xd x := by omega
      exact (hsp _ _ hn).1 hl

end

section
variable {K : Type} [Field K] [LinearOrder K] [IsStrictOrderedRing K]

/-- C21.  At a knot the interpolant is the ordinate of the knot. -/
theorem C21_knot (xd yd : List K) (ls rs : K) (i : Nat) (a c : K) (hs : xd.Pairwise (· < ·))
    (hl : yd.length = xd.length) (hxa : xd[i]? = some a) (hyc : yd[i]? = some c) :
    linearInterpolate a xd yd ls rs = c := by
  have hs' : xd.Pairwise (· ≤ ·) := hs.imp le_of_lt
  cases i with
  | zero =>
    obtain ⟨x0, xt, rfl⟩ : ∃ x0 xt, xd = x0 :: xt := by
      cases xd with
      | nil => simp at hxa
      | cons x0 xt => exact ⟨_, _, rfl⟩
    obtain ⟨y0, yt, rfl⟩ : ∃ y0 yt, yd = y0 :: yt := by
      cases yd with
      | nil => simp at hyc
      | cons x0 xt => exact ⟨_, _, rfl⟩
    simp at hxa hyc
    subst hxa hyc
    rw [C21_left _ _ _ _ _ _ _ hs' (le_refl _)]
    ring
  | succ i =>
    have hlen : i + 1 < xd.length := (List.getElem?_eq_some_iff.1 hxa).1
    have hb : xd[i]? = some (xd[i]'(by omega)) := List.getElem?_eq_getElem _
    have hc : yd[i]? = some (yd[i]'(by omega)) := List.getElem?_eq_getElem _
    have hlt : xd[i]'(by omega) < a := by
      obtain ⟨h1, rfl⟩ := List.getElem?_eq_some_iff.1 hxa
      exact List.pairwise_iff_getElem.1 hs i (i + 1) (by omega) h1 (by omega)
    rw [C21_cell a _ a _ c xd yd ls rs i hs' hb hxa hc hyc hlt (le_refl _)]
    have : a - xd[i]'(by omega) ≠ 0 := sub_ne_zero.2 hlt.ne'
    field_simp
    ring

/-- C21.  Between neighbouring knots the value lies between the two ordinates. -/
theorem C21_between (x a b c d : K) (xd yd : List K) (ls rs : K) (i : Nat) (hs : xd.Pairwise (· ≤ ·))
    (hxa : xd[i]? = some a) (hxb : xd[i + 1]? = some b) (hyc : yd[i]? = some c) (hyd : yd[i + 1]? = some d)
    (h1 : a < x) (h2 : x ≤ b) :
    min c d ≤ linearInterpolate x xd yd ls rs ∧ linearInterpolate x xd yd ls rs ≤ max c d := by
  rw [C21_cell x a b c d xd yd ls rs i hs hxa hxb hyc hyd h1 h2]
  have hba : 0 < b - a := by linarith
  have hw0 : 0 ≤ (x - a) / (b - a) := div_nonneg (by linarith) hba.le
  have hw1 : (x - a) / (b - a) ≤ 1 := by rw [div_le_one hba]; linarith
  have e : c + (x - a) * ((d - c) / (b - a)) = c + (x - a) / (b - a) * (d - c) := by ring
  rw [e]
  rcases le_total c d with h | h
  · rw [min_eq_left h, max_eq_right h]
    constructor
    · have := mul_nonneg hw0 (sub_nonneg.2 h); linarith
    · have := mul_le_mul_of_nonneg_right hw1 (sub_nonneg.2 h); linarith
  · rw [min_eq_right h, max_eq_left h]
    constructor
    · have := mul_le_mul_of_nonneg_right hw1 (sub_nonneg.2 h); linarith
    · have := mul_nonneg hw0 (sub_nonneg.2 h); linarith

/-- C21.  Data on a straight line are reproduced inside the range, and everywhere if the slopes outside are that
of the line. -/
theorem C21_affine (x x0 xn α β : K) (xd : List K) (ls rs : K) (hs : xd.Pairwise (· ≤ ·))
    (h0 : xd[0]? = some x0) (hn : xd.getLast? = some xn)
    (hleft : x < x0 → ls = α) (hright : xn < x → rs = α) :
    linearInterpolate x xd (xd.map (fun t => α * t + β)) ls rs = α * x + β := by
  rcases C21_cases x x0 xn xd hs h0 hn with h | h | ⟨i, a, b, ha, hb, h1, h2⟩
  · obtain ⟨x0', xt, rfl⟩ : ∃ x0 xt, xd = x0 :: xt := by
      cases xd with
      | nil => simp at h0
      | cons x0 xt => exact ⟨_, _, rfl⟩
    simp at h0; subst h0
    rw [List.map_cons, C21_left _ _ _ _ _ _ _ hs h]
    rcases lt_or_eq_of_le h with h' | h'
    · rw [hleft h']; ring
    · rw [h']; ring
  · rw [C21_right x xn (α * xn + β) xd _ ls rs hs hn (by rw [List.getLast?_map, hn]; rfl) h, hright h]
    ring
  · rw [C21_cell x a b (α * a + β) (α * b + β) xd _ ls rs i hs ha hb (by rw [List.getElem?_map, ha]; rfl)
      (by rw [List.getElem?_map, hb]; rfl) h1 h2]
    have : b - a ≠ 0 := by intro hc; linarith
    field_simp
    ring

/-- C21.  Monotone data give a monotone interpolant (slopes outside not negative). -/
theorem C21_monotone (x x' : K) (xd yd : List K) (ls rs : K) (hs : xd.Pairwise (· ≤ ·))
    (hy : yd.Pairwise (· ≤ ·)) (hl : yd.length = xd.length) (hne : xd ≠ []) (hls : 0 ≤ ls) (hrs : 0 ≤ rs)
    (hxx : x ≤ x') : linearInterpolate x xd yd ls rs ≤ linearInterpolate x' xd yd ls rs := by
  obtain ⟨x0, xt, rfl⟩ := List.exists_cons_of_ne_nil hne
  obtain ⟨y0, yt, rfl⟩ : ∃ y0 yt, yd = y0 :: yt := by
    cases yd with
    | nil => simp at hl
    | cons x0 xt => exact ⟨_, _, rfl⟩
  obtain ⟨xn, hxn⟩ : ∃ xn, (x0 :: xt).getLast? = some xn := ⟨_, List.getLast?_eq_some_getLast (by simp)⟩
  obtain ⟨yn, hyn⟩ : ∃ yn, (y0 :: yt).getLast? = some yn := ⟨_, List.getLast?_eq_some_getLast (by simp)⟩
  have hyn' := hyn
  rw [List.getLast?_eq_getElem?] at hyn'
  -- ordinates of the knots bound the values
  have ord : ∀ (i j : Nat) (c d : K), i ≤ j → (y0 :: yt)[i]? = some c → (y0 :: yt)[j]? = some d → c ≤ d :=
    fun i j c d hij hc hd => getElem_sorted_le _ hy i j c d hij hc hd
  have yat : ∀ (i : Nat) (a : K), (x0 :: xt)[i]? = some a → ∃ c, (y0 :: yt)[i]? = some c := by
    intro i a ha
    have := (List.getElem?_eq_some_iff.1 ha).1
    exact ⟨_, List.getElem?_eq_getElem (by omega)⟩
  have hpos := List.length_pos_iff.2 hne
  rcases C21_cases x x0 xn _ hs rfl hxn with h | h | ⟨i, a, b, ha, hb, h1, h2⟩
  · rw [C21_left _ _ _ _ _ _ _ hs h]
    have hv : y0 + ls * (x - x0) ≤ y0 := by
      have := mul_nonneg hls (sub_nonneg.2 h); linarith
    rcases C21_cases x' x0 xn _ hs rfl hxn with h' | h' | ⟨j, a', b', ha', hb', h1', h2'⟩
    · rw [C21_left _ _ _ _ _ _ _ hs h']
      have := mul_le_mul_of_nonneg_left hxx hls
      linarith
    · rw [C21_right _ _ _ _ _ _ _ hs hxn hyn h']
      have h3 := ord 0 _ y0 yn (by omega) rfl hyn'
      have h4 := mul_nonneg hrs (sub_nonneg.2 h'.le)
      linarith
    · obtain ⟨c, hc⟩ := yat _ _ ha'
      obtain ⟨d, hd⟩ := yat _ _ hb'
      have h3 := (C21_between x' a' b' c d _ _ ls rs j hs ha' hb' hc hd h1' h2').1
      have h4 := ord 0 j y0 c (by omega) rfl hc
      rw [min_eq_left (ord j (j + 1) c d (by omega) hc hd)] at h3
      linarith
  · have h' : xn < x' := lt_of_lt_of_le h hxx
    rw [C21_right _ _ _ _ _ _ _ hs hxn hyn h', C21_right _ _ _ _ _ _ _ hs hxn hyn h]
    have := mul_le_mul_of_nonneg_left hxx hrs
    linarith
  · obtain ⟨c, hc⟩ := yat _ _ ha
    obtain ⟨d, hd⟩ := yat _ _ hb
    have hcd := ord i (i + 1) c d (by omega) hc hd
    have hub := (C21_between x a b c d _ _ ls rs i hs ha hb hc hd h1 h2).2
    rw [max_eq_right hcd] at hub
    rcases C21_cases x' x0 xn _ hs rfl hxn with h' | h' | ⟨j, a', b', ha', hb', h1', h2'⟩
    · have := getElem_sorted_le _ hs 0 i x0 a (by omega) rfl ha
      exact absurd (lt_of_lt_of_le h1 (le_trans hxx h')) (not_lt.2 this)
    · rw [C21_right _ _ _ _ _ _ _ hs hxn hyn h']
      have hlt := (List.getElem?_eq_some_iff.1 hd).1
      have h3 := ord (i + 1) _ d yn (by omega) hd hyn'
      have h4 := mul_nonneg hrs (sub_nonneg.2 h'.le)
      linarith
    · obtain ⟨c', hc'⟩ := yat _ _ ha'
      obtain ⟨d', hd'⟩ := yat _ _ hb'
      have hcd' := ord j (j + 1) c' d' (by omega) hc' hd'
      rcases Nat.lt_trichotomy i j with hij | hij | hij
      · have h3 := (C21_between x' a' b' c' d' _ _ ls rs j hs ha' hb' hc' hd' h1' h2').1
        rw [min_eq_left hcd'] at h3
        have h4 := ord (i + 1) j d c' (by omega) hd hc'
        linarith
      · subst hij
        rw [ha] at ha'; rw [hb] at hb'
        cases ha'; cases hb'
        rw [C21_cell x a b c d _ _ ls rs i hs ha hb hc hd h1 h2,
          C21_cell x' a b c d _ _ ls rs i hs ha hb hc hd h1' h2']
        have hba : 0 ≤ (d - c) / (b - a) := div_nonneg (by linarith) (by linarith)
        have := mul_le_mul_of_nonneg_right hxx hba
        linarith
      · have := getElem_sorted_le _ hs (j + 1) i b' a (by omega) hb' ha
        exact absurd (lt_of_lt_of_le h1 (le_trans hxx h2')) (not_lt.2 this)

/- Concrete instances. -/
example : linearInterpolate (3/2 : ℚ) [1, 2, 4] [10, 20, 0] = 15 := by decide +kernel
example : linearInterpolate (2 : ℚ) [1, 2, 4] [10, 20, 0] = 20 := by decide +kernel
example : linearInterpolate (5 : ℚ) [1, 2, 4] [10, 20, 0] 0 3 true = 3 := by decide +kernel
example : linearInterpolate (0 : ℚ) [1, 2, 4] [10, 20, 0] (-7) 3 = 17 := by decide +kernel
example : ([1, 2, 4] : List ℚ).Pairwise (· < ·) := by norm_num

end

end Props
