import Verif.Model.ConstantForward
import Verif.Props.LinearInterpolation
import Mathlib.Tactic.LinearCombination

/-! # C36 Constant forward interpolation of yields -/

namespace Lemmas
open Model

variable {K : Type} [Field K] [LinearOrder K] [IsStrictOrderedRing K]

omit [Field K] [IsStrictOrderedRing K] in
theorem foldl_min_sorted (a : K) (l : List K) (h : (a :: l).Pairwise (· ≤ ·)) : l.foldl min a = a := by
  induction l with
  | nil => rfl
  | cons b l ih =>
    rw [List.foldl_cons, min_eq_left (List.rel_of_pairwise_cons h List.mem_cons_self)]
    exact ih (h.sublist (by simp))

omit [Field K] [IsStrictOrderedRing K] in
theorem foldl_max_sorted (a : K) (l : List K) (h : (a :: l).Pairwise (· ≤ ·)) : l.foldl max a = (a :: l).getLast (by simp) := by
  induction l generalizing a with
  | nil => rfl
  | cons b l ih =>
    rw [List.foldl_cons, max_eq_right (List.rel_of_pairwise_cons h List.mem_cons_self), List.getLast_cons_cons]
    exact ih b (List.Pairwise.of_cons h)

/-- The function with the clipping evaluated for sorted times. -/
theorem constantForward_eq (t t0 tn : K) (times yields : List K) (hs : times.Pairwise (· < ·))
    (h0 : times.head? = some t0) (hn : times.getLast? = some tn) :
    constantForward t times yields =
      let c := min tn (max t0 t)
      if c = 0 then none else some (linearInterpolate c times (List.zipWith (fun x y => x * y) times yields) / c) := by
  have hs' : times.Pairwise (· ≤ ·) := hs.imp le_of_lt
  rcases times with _ | ⟨a, l⟩
  · simp at h0
  · simp only [List.head?_cons, Option.some.injEq] at h0
    subst h0
    have e : (a :: l).getLast (by simp) = tn := by
      rw [List.getLast?_eq_some_getLast (by simp)] at hn
      simpa using hn
    unfold constantForward
    simp only [List.headD_cons, List.foldl_cons, min_self, max_self, foldl_min_sorted a l hs', foldl_max_sorted a l hs', e]

theorem head_le (times : List K) (hs : times.Pairwise (· < ·)) (t0 : K) (h0 : times.head? = some t0) (i : Nat) (a : K)
    (ha : times[i]? = some a) : t0 ≤ a :=
  getElem_sorted_le times (hs.imp le_of_lt) 0 i t0 a (Nat.zero_le i) (by rw [← List.head?_eq_getElem?]; exact h0) ha

theorem le_last (times : List K) (hs : times.Pairwise (· < ·)) (tn : K) (hn : times.getLast? = some tn) (i : Nat) (a : K)
    (ha : times[i]? = some a) : a ≤ tn := by
  rw [List.getLast?_eq_getElem?] at hn
  have := (List.getElem?_eq_some_iff.1 ha).1
  exact getElem_sorted_le times (hs.imp le_of_lt) i _ a tn (by omega) ha hn

end Lemmas

namespace Props
open Model Lemmas

variable {K : Type} [Field K] [LinearOrder K] [IsStrictOrderedRing K]

theorem exists_ends (times : List K) (i : Nat) (a : K) (h : times[i]? = some a) :
    ∃ t0 tn, times.head? = some t0 ∧ times.getLast? = some tn := by
  rcases times with _ | ⟨t0, l⟩
  · simp at h
  · exact ⟨t0, _, rfl, List.getLast?_eq_some_getLast (by simp)⟩

/-- C36: at a positive reference time the yield is the reference yield. For reference time zero see `C36_zero_time`. -/
theorem C36_knot (times yields : List K) (i : Nat) (a y : K) (hs : times.Pairwise (· < ·))
    (hl : yields.length = times.length) (ha : times[i]? = some a) (hy : yields[i]? = some y) (hpos : a ≠ 0) :
    constantForward a times yields = some y := by
  obtain ⟨t0, tn, h0, hn⟩ := exists_ends times i a ha
  rw [constantForward_eq a t0 tn times yields hs h0 hn]
  simp only
  rw [max_eq_right (head_le times hs t0 h0 i a ha), min_eq_right (le_last times hs tn hn i a ha), if_neg hpos,
    C21_knot times _ 0 0 i a (a * y) hs (by simp [hl]) ha (by rw [List.getElem?_zipWith, ha, hy])]
  congr 1
  field_simp

/-- C36: between two neighbouring reference times the product of time and yield is on the chord, so the forward rate from the
left one to the query is the forward rate of the whole interval. -/
theorem C36_constant_forward (times yields : List K) (i : Nat) (a b ya yb t : K) (hs : times.Pairwise (· < ·))
    (ha : times[i]? = some a) (hb : times[i + 1]? = some b)
    (hya : yields[i]? = some ya) (hyb : yields[i + 1]? = some yb) (h1 : a < t) (h2 : t ≤ b) (ht : t ≠ 0) :
    ∃ y, constantForward t times yields = some y ∧
      (t * y - a * ya) / (t - a) = (b * yb - a * ya) / (b - a) := by
  obtain ⟨t0, tn, h0, hn⟩ := exists_ends times i a ha
  have e1 : t0 ≤ t := (head_le times hs t0 h0 i a ha).trans h1.le
  have e2 : t ≤ tn := h2.trans (le_last times hs tn hn (i + 1) b hb)
  rw [constantForward_eq t t0 tn times yields hs h0 hn]
  simp only
  rw [max_eq_right e1, min_eq_right e2, if_neg ht]
  refine ⟨_, rfl, ?_⟩
  rw [C21_cell t a b (a * ya) (b * yb) times _ 0 0 i (hs.imp le_of_lt) ha hb (by rw [List.getElem?_zipWith, ha, hya])
    (by rw [List.getElem?_zipWith, hb, hyb]) h1 h2]
  have g1 : t - a ≠ 0 := sub_ne_zero.2 h1.ne'
  have g2 : b - a ≠ 0 := by intro hc; linarith
  field_simp
  ring

/-- C36: the forward rate between any two queries in the same interval is the forward rate of the interval. -/
theorem C36_constant_forward_any (times yields : List K) (i : Nat) (a b ya yb t t' : K) (hs : times.Pairwise (· < ·))
    (ha : times[i]? = some a) (hb : times[i + 1]? = some b)
    (hya : yields[i]? = some ya) (hyb : yields[i + 1]? = some yb) (h1 : a < t) (htt : t < t') (h2 : t' ≤ b) (ht : t ≠ 0)
    (ht' : t' ≠ 0) :
    ∃ y y', constantForward t times yields = some y ∧ constantForward t' times yields = some y' ∧
      (t' * y' - t * y) / (t' - t) = (b * yb - a * ya) / (b - a) := by
  obtain ⟨y, hy, e⟩ := C36_constant_forward times yields i a b ya yb t hs ha hb hya hyb h1 (htt.le.trans h2) ht
  obtain ⟨y', hy', e'⟩ := C36_constant_forward times yields i a b ya yb t' hs ha hb hya hyb (h1.trans htt) h2 ht'
  refine ⟨y, y', hy, hy', ?_⟩
  have g1 : t - a ≠ 0 := sub_ne_zero.2 h1.ne'
  have g2 : t' - a ≠ 0 := sub_ne_zero.2 (h1.trans htt).ne'
  have g3 : t' - t ≠ 0 := sub_ne_zero.2 htt.ne'
  rw [div_eq_iff g1] at e
  rw [div_eq_iff g2] at e'
  rw [div_eq_iff g3]
  linear_combination e' - e

/-- C36: outside the range of the reference times the yield is that of the nearest one. For first time zero see
`C36_zero_time`. -/
theorem C36_flat_outside (times yields : List K) (t0 tn y0 yn : K) (hs : times.Pairwise (· < ·))
    (hl : yields.length = times.length) (h0 : times.head? = some t0) (hn : times.getLast? = some tn)
    (hy0 : yields.head? = some y0) (hyn : yields.getLast? = some yn) (hpos : 0 < t0) (t : K) :
    (t ≤ t0 → constantForward t times yields = some y0) ∧ (tn ≤ t → constantForward t times yields = some yn) := by
  have k0 : times[0]? = some t0 := by rw [← List.head?_eq_getElem?]; exact h0
  have kn : times[times.length - 1]? = some tn := by rw [← List.getLast?_eq_getElem?]; exact hn
  have hle := le_last times hs tn hn 0 t0 k0
  constructor
  · intro h
    rw [← C36_knot times yields 0 t0 y0 hs hl k0 (by rw [← List.head?_eq_getElem?]; exact hy0) hpos.ne',
      constantForward_eq t t0 tn times yields hs h0 hn, constantForward_eq t0 t0 tn times yields hs h0 hn, max_eq_left h, max_self]
  · intro h
    rw [← C36_knot times yields _ tn yn hs hl kn (by rw [← hl, ← List.getLast?_eq_getElem?]; exact hyn)
      (hpos.trans_le hle).ne', constantForward_eq t t0 tn times yields hs h0 hn,
      constantForward_eq tn t0 tn times yields hs h0 hn, max_eq_right (hle.trans h), max_eq_right hle, min_eq_left h, min_self]

/-- C36: a flat curve is reproduced. -/
theorem C36_flat_curve (times : List K) (t0 tn y : K) (hs : times.Pairwise (· < ·)) (h0 : times.head? = some t0)
    (hn : times.getLast? = some tn) (hpos : 0 < t0) (t : K) :
    constantForward t times (times.map fun _ => y) = some y := by
  rw [constantForward_eq t t0 tn times _ hs h0 hn]
  have hle := le_last times hs tn hn 0 t0 (by rw [← List.head?_eq_getElem?]; exact h0)
  have hc : 0 < min tn (max t0 t) := lt_min (hpos.trans_le hle) (lt_max_of_lt_left hpos)
  simp only
  rw [if_neg hc.ne']
  have e : List.zipWith (fun x y => x * y) times (times.map fun _ => y) = times.map fun t => y * t + 0 := by
    rw [List.zipWith_map_right, List.zipWith_self]
    apply List.map_congr_left
    intro a _
    ring
  rw [e, C21_affine _ t0 tn y 0 times 0 0 (hs.imp le_of_lt) (by rw [← List.head?_eq_getElem?]; exact h0) hn]
  · congr 1
    field_simp
    ring
  · intro hlt
    exact absurd hlt (not_lt.2 (le_min hle (le_max_left _ _)))
  · intro hlt
    exact absurd hlt (not_lt.2 (min_le_left _ _))

/-- C36 (deviation): if the first reference time is zero, as in the documented example, the result at time zero and before is the
quotient of zero by zero. -/
theorem C36_zero_time (times yields : List K) (t : K) (hs : times.Pairwise (· < ·)) (h0 : times.head? = some 0) (ht : t ≤ 0) :
    constantForward t times yields = none := by
  obtain ⟨t0, tn, h0', hn⟩ := exists_ends times 0 0 (by rw [← List.head?_eq_getElem?]; exact h0)
  have hle := le_last times hs tn hn 0 0 (by rw [← List.head?_eq_getElem?]; exact h0)
  rw [constantForward_eq t 0 tn times yields hs h0 hn, max_eq_left ht, min_eq_right hle]
  simp

example : constantForward (3 : ℚ) [1, 2, 4] [1 / 100, 2 / 100, 3 / 100] = some (8 / 300) ∧
    constantForward (1 / 2 : ℚ) [1, 2, 4] [1 / 100, 2 / 100, 3 / 100] = some (1 / 100) ∧
    constantForward (9 : ℚ) [1, 2, 4] [1 / 100, 2 / 100, 3 / 100] = some (3 / 100) ∧
    constantForward (0 : ℚ) [0, 1] [1 / 100, 2 / 100] = none := by
  decide +kernel

end Props
