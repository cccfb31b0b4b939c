import Verif.Model.Grids
import Verif.Lemmas.Schedules
import Mathlib.Analysis.SpecialFunctions.Pow.Real
import Mathlib.Algebra.Order.Field.Basic

/-! # C80 Grids for partial differential equations -/

namespace Spec

/-- `g` has `n` points from `a` to `b` with equal gaps. -/
structure IsUniform {K : Type} [Field K] [LinearOrder K] (g : List K) (a b : K) (n : Nat) : Prop where
  size : g.length = n
  first : g.head? = some a
  last : g.getLast? = some b
  increasing : g.Pairwise (· < ·)
  gaps : ∃ d, ∀ (i : Nat) (x y : K), g[i]? = some x → g[i + 1]? = some y → y - x = d

/-- `g` has `n` positive points from `a` to `b` with equal ratios. -/
structure IsGeometric (g : List ℝ) (a b : ℝ) (n : Nat) : Prop where
  size : g.length = n
  first : g.head? = some a
  last : g.getLast? = some b
  positive : ∀ x ∈ g, 0 < x
  increasing : g.Pairwise (· < ·)
  ratios : ∃ d, ∀ (i : Nat) (x y : ℝ), g[i]? = some x → g[i + 1]? = some y → y / x = d

/-- `g` is the sorted list of the points of `h` and one more point. -/
structure IsExtended {K : Type} [LE K] (g h : List K) (p : K) : Prop where
  sorted : g.Pairwise (· ≤ ·)
  points : g.Perm (p :: h)

end Spec

namespace Lemmas
open Model Spec

variable {K : Type} [Field K] [LinearOrder K] [IsStrictOrderedRing K]

theorem linspace_get (a b : K) (n i : Nat) (h : i < n) :
    (tfLinspace a b n)[i]? = some (a + (i : K) * ((b - a) / ((max (n - 1) 1 : Nat) : K))) := by
  unfold tfLinspace
  rw [List.getElem?_map, List.getElem?_range h]
  rfl

theorem linspace_length (a b : K) (n : Nat) : (tfLinspace a b n).length = n := by
  unfold tfLinspace
  simp

theorem linspace_uniform (a b : K) (n : Nat) (hn : 2 ≤ n) (hab : a < b) : IsUniform (tfLinspace a b n) a b n := by
  have hm : max (n - 1) 1 = n - 1 := by omega
  have hpos : (0 : K) < ((n - 1 : Nat) : K) := by exact_mod_cast (by omega : 0 < n - 1)
  refine ⟨linspace_length a b n, ?_, ?_, ?_, ⟨(b - a) / ((n - 1 : Nat) : K), ?_⟩⟩
  · rw [List.head?_eq_getElem?, linspace_get a b n 0 (by omega)]
    simp
  · rw [List.getLast?_eq_getElem?, linspace_length, linspace_get a b n (n - 1) (by omega), hm]
    congr 1
    field_simp
    ring
  · unfold tfLinspace
    rw [List.pairwise_map]
    refine List.pairwise_lt_range.imp ?_
    intro i j hij
    have : (i : K) < (j : K) := by exact_mod_cast hij
    rw [hm]
    have hd : 0 < (b - a) / ((n - 1 : Nat) : K) := div_pos (sub_pos.2 hab) hpos
    have := mul_lt_mul_of_pos_right this hd
    linarith
  · intro i x y hx hy
    have hi : i + 1 < n := by
      have := (List.getElem?_eq_some_iff.1 hy).1
      rwa [linspace_length] at this
    rw [linspace_get a b n i (by omega), hm] at hx
    rw [linspace_get a b n (i + 1) hi, hm] at hy
    rw [← Option.some.inj hx, ← Option.some.inj hy]
    push_cast
    ring

theorem linspace_scaled (a b : K) (n : Nat) : (tfLinspace 0 1 n).map (fun w => a + (b - a) * w) = tfLinspace a b n := by
  unfold tfLinspace
  rw [List.map_map]
  apply List.map_congr_left
  intro i _
  simp only [Function.comp]
  ring

theorem exp_uniform (g : List ℝ) (a b : ℝ) (n : Nat) (h : IsUniform g a b n) : IsGeometric (g.map Real.exp) (Real.exp a) (Real.exp b) n := by
  refine ⟨by rw [List.length_map]; exact h.size, ?_, ?_, ?_, ?_, ?_⟩
  · rw [List.head?_map, h.first]; rfl
  · rw [List.getLast?_map, h.last]; rfl
  · intro x hx
    obtain ⟨t, _, rfl⟩ := List.mem_map.1 hx
    exact Real.exp_pos t
  · rw [List.pairwise_map]
    exact h.increasing.imp fun h => Real.exp_lt_exp.2 h
  · obtain ⟨d, hd⟩ := h.gaps
    refine ⟨Real.exp d, ?_⟩
    intro i x y hx hy
    rw [List.getElem?_map, Option.map_eq_some_iff] at hx hy
    obtain ⟨x', hx', rfl⟩ := hx
    obtain ⟨y', hy', rfl⟩ := hy
    rw [← hd i x' y' hx' hy', Real.exp_sub]

theorem extended_of_sort {K : Type} [LinearOrder K] (h : List K) (p : K) : IsExtended ((h ++ [p]).insertionSort (· ≤ ·)) h p :=
  ⟨List.pairwise_insertionSort _ _, (List.perm_insertionSort _ _).trans List.perm_append_comm⟩

end Lemmas

namespace Props
open Model Spec Lemmas

variable {K : Type} [Field K] [LinearOrder K] [IsStrictOrderedRing K]

theorem getD_map_range {α : Type} (f : Nat → α) (n i : Nat) (h : i < n) : ((List.range n).map f)[i]? = some (f i) := by
  rw [List.getElem?_map, List.getElem?_range h]
  rfl

theorem gridAssertions_ok (v : Bool) (mins maxs : List K) (sizes : List Nat) :
    gridAssertions v mins maxs sizes = .ok () ↔ (v = true → (∀ p ∈ List.zip mins maxs, p.1 < p.2) ∧ ∀ n ∈ sizes, 2 ≤ n) := by
  unfold gridAssertions
  cases v
  · simp
  · by_cases h1 : (List.zip mins maxs).all (fun p => decide (p.2 > p.1)) = false
    · simp only [h1, if_true]
      refine ⟨fun h => by simp at h, fun h => ?_⟩
      have := (h trivial).1
      rw [List.all_eq_false] at h1
      obtain ⟨p, hp, hp'⟩ := h1
      exact absurd (this p hp) (by simpa using hp')
    · have h1' := Bool.eq_true_of_not_eq_false h1
      have e1 : ∀ p ∈ List.zip mins maxs, p.1 < p.2 := fun p hp => by simpa using List.all_eq_true.1 h1' p hp
      simp only [h1', Bool.true_eq_false, if_true, if_false]
      by_cases h2 : sizes.all (fun n => decide (n ≥ 2)) = false
      · simp only [h2, if_true]
        refine ⟨fun h => by simp at h, fun h => ?_⟩
        have := (h trivial).2
        rw [List.all_eq_false] at h2
        obtain ⟨p, hp, hp'⟩ := h2
        exact absurd (this p hp) (by simpa using hp')
      · have h2' := Bool.eq_true_of_not_eq_false h2
        have e2 : ∀ n ∈ sizes, 2 ≤ n := fun p hp => by simpa using List.all_eq_true.1 h2' p hp
        simp only [h2', Bool.true_eq_false, if_false, true_iff]
        exact fun _ => ⟨e1, e2⟩

theorem logGridAssertions_ok (v : Bool) (mins maxs : List ℝ) (sizes : List Nat) :
    logGridAssertions v mins maxs sizes = .ok () ↔
      (v = true → (∀ p ∈ List.zip mins maxs, p.1 < p.2) ∧ (∀ m ∈ mins, 0 < m) ∧ ∀ n ∈ sizes, 2 ≤ n) := by
  unfold logGridAssertions
  cases v
  · simp
  · by_cases h1 : (List.zip mins maxs).all (fun p => decide (p.2 > p.1)) = false
    · simp only [h1, if_true]
      refine ⟨fun h => by simp at h, fun h => ?_⟩
      have := (h trivial).1
      rw [List.all_eq_false] at h1
      obtain ⟨p, hp, hp'⟩ := h1
      exact absurd (this p hp) (by simpa using hp')
    · have h1' := Bool.eq_true_of_not_eq_false h1
      have e1 : ∀ p ∈ List.zip mins maxs, p.1 < p.2 := fun p hp => by simpa using List.all_eq_true.1 h1' p hp
      simp only [h1', Bool.true_eq_false, if_true, if_false]
      by_cases h3 : mins.all (fun m => decide (m > 0)) = false
      · simp only [h3, if_true]
        refine ⟨fun h => by simp at h, fun h => ?_⟩
        have := (h trivial).2.1
        rw [List.all_eq_false] at h3
        obtain ⟨p, hp, hp'⟩ := h3
        exact absurd (this p hp) (by simpa using hp')
      · have h3' := Bool.eq_true_of_not_eq_false h3
        have e3 : ∀ m ∈ mins, 0 < m := fun p hp => by simpa using List.all_eq_true.1 h3' p hp
        simp only [h3', Bool.true_eq_false, if_false]
        by_cases h2 : sizes.all (fun n => decide (n ≥ 2)) = false
        · simp only [h2, if_true]
          refine ⟨fun h => by simp at h, fun h => ?_⟩
          have := (h trivial).2.2
          rw [List.all_eq_false] at h2
          obtain ⟨p, hp, hp'⟩ := h2
          exact absurd (this p hp) (by simpa using hp')
        · have h2' := Bool.eq_true_of_not_eq_false h2
          have e2 : ∀ n ∈ sizes, 2 ≤ n := fun p hp => by simpa using List.all_eq_true.1 h2' p hp
          simp only [h2', Bool.true_eq_false, if_false, true_iff]
          exact fun _ => ⟨e1, e3, e2⟩

/-- C80: a uniform grid has on each axis the asked number of points, from the minimum to the maximum, with equal gaps. -/
theorem C80_uniform (mins maxs : List K) (sizes : List Nat) (v : Bool) (hl1 : mins.length = maxs.length) (hl2 : mins.length = sizes.length)
    (hm : ∀ p ∈ List.zip mins maxs, p.1 < p.2) (hn : ∀ n ∈ sizes, 2 ≤ n) :
    ∃ g, uniformGrid mins maxs sizes v = .ok g ∧ g.length = sizes.length ∧
      ∀ (i : Nat) (a b : K) (n : Nat), mins[i]? = some a → maxs[i]? = some b → sizes[i]? = some n → ∃ l, g[i]? = some l ∧ IsUniform l a b n := by
  unfold uniformGrid gridShapes
  rw [if_pos ⟨hl1, hl2⟩, (gridAssertions_ok v mins maxs sizes).2 (fun _ => ⟨hm, hn⟩)]
  refine ⟨_, rfl, by simp, ?_⟩
  intro i a b n ha hb hn'
  have hi : i < sizes.length := (List.getElem?_eq_some_iff.1 hn').1
  refine ⟨_, getD_map_range _ _ i hi, ?_⟩
  rw [List.getD_eq_getElem?_getD, List.getD_eq_getElem?_getD, List.getD_eq_getElem?_getD, ha, hb, hn']
  exact linspace_uniform a b n (hn n (List.mem_iff_getElem?.2 ⟨i, hn'⟩))
    (hm (a, b) (List.mem_iff_getElem?.2 ⟨i, List.getElem?_zip_eq_some.2 ⟨ha, hb⟩⟩))

/-- C80: a grid uniform in the logarithm has equal ratios. -/
theorem C80_log_uniform (mins maxs : List ℝ) (sizes : List Nat) (v : Bool) (hl1 : mins.length = maxs.length) (hl2 : mins.length = sizes.length)
    (hm : ∀ p ∈ List.zip mins maxs, p.1 < p.2) (hp : ∀ m ∈ mins, 0 < m) (hn : ∀ n ∈ sizes, 2 ≤ n) :
    ∃ g, logUniformGrid mins maxs sizes v = .ok g ∧ g.length = sizes.length ∧
      ∀ (i : Nat) (a b : ℝ) (n : Nat), mins[i]? = some a → maxs[i]? = some b → sizes[i]? = some n → ∃ l, g[i]? = some l ∧ IsGeometric l a b n := by
  unfold logUniformGrid gridShapes
  rw [if_pos ⟨hl1, hl2⟩, (logGridAssertions_ok v mins maxs sizes).2 (fun _ => ⟨hm, hp, hn⟩)]
  refine ⟨_, rfl, by simp, ?_⟩
  intro i a b n ha hb hn'
  have hi : i < sizes.length := (List.getElem?_eq_some_iff.1 hn').1
  refine ⟨_, getD_map_range _ _ i hi, ?_⟩
  rw [List.getD_eq_getElem?_getD, List.getD_eq_getElem?_getD, List.getD_eq_getElem?_getD, List.getElem?_map, List.getElem?_map, ha, hb, hn']
  have ha0 := hp a (List.mem_iff_getElem?.2 ⟨i, ha⟩)
  have hab := hm (a, b) (List.mem_iff_getElem?.2 ⟨i, List.getElem?_zip_eq_some.2 ⟨ha, hb⟩⟩)
  simp only [Option.map_some, Option.getD_some]
  have := exp_uniform _ _ _ _ (linspace_uniform (Real.log a) (Real.log b) n (hn n (List.mem_iff_getElem?.2 ⟨i, hn'⟩)) (Real.log_lt_log ha0 hab))
  rwa [Real.exp_log ha0, Real.exp_log (ha0.trans hab)] at this

/-- C80: what the constructors reject. -/
theorem C80_rejects (mins maxs : List ℝ) (sizes : List Nat) (v : Bool) (axes : List (List ℝ)) :
    ((∃ e, uniformGrid mins maxs sizes v = .error e) ↔
      ¬(mins.length = maxs.length ∧ mins.length = sizes.length ∧
        (v = true → (∀ p ∈ List.zip mins maxs, p.1 < p.2) ∧ ∀ n ∈ sizes, 2 ≤ n))) ∧
    ((∃ e, logUniformGrid mins maxs sizes v = .error e) ↔
      ¬(mins.length = maxs.length ∧ mins.length = sizes.length ∧
        (v = true → (∀ p ∈ List.zip mins maxs, p.1 < p.2) ∧ (∀ m ∈ mins, 0 < m) ∧ ∀ n ∈ sizes, 2 ≤ n))) ∧
    (rectangularGrid axes = .ok axes ↔ axes ≠ []) := by
  refine ⟨?_, ?_, ?_⟩
  · unfold uniformGrid gridShapes
    rw [← gridAssertions_ok v mins maxs sizes]
    by_cases h : mins.length = maxs.length ∧ mins.length = sizes.length
    · rw [if_pos h]
      cases hg : gridAssertions v mins maxs sizes with
      | error e => exact ⟨fun _ h' => by simp at h', fun _ => ⟨e, rfl⟩⟩
      | ok u =>
        constructor
        · rintro ⟨e, he⟩
          cases he
        · intro h'
          exact absurd ⟨h.1, h.2, rfl⟩ h'
    · rw [if_neg h]
      exact ⟨fun _ h' => h ⟨h'.1, h'.2.1⟩, fun _ => ⟨_, rfl⟩⟩
  · unfold logUniformGrid gridShapes
    rw [← logGridAssertions_ok v mins maxs sizes]
    by_cases h : mins.length = maxs.length ∧ mins.length = sizes.length
    · rw [if_pos h]
      cases hg : logGridAssertions v mins maxs sizes with
      | error e => exact ⟨fun _ h' => by simp at h', fun _ => ⟨e, rfl⟩⟩
      | ok u =>
        constructor
        · rintro ⟨e, he⟩
          cases he
        · intro h'
          exact absurd ⟨h.1, h.2, rfl⟩ h'
    · rw [if_neg h]
      exact ⟨fun _ h' => h ⟨h'.1, h'.2.1⟩, fun _ => ⟨_, rfl⟩⟩
  · unfold rectangularGrid
    by_cases h : axes = []
    · simp [h]
    · simp [h]

/-- C80: the grid with an extra point is on each axis the sorted list of the uniform grid and the point. -/
theorem C80_extra_point (mins maxs : List K) (sizes : List Nat) (extra : List K) (v : Bool) (hl1 : mins.length = maxs.length)
    (hl2 : sizes.length ≤ mins.length) (hl3 : sizes.length ≤ extra.length)
    (hm : ∀ p ∈ List.zip mins maxs, p.1 < p.2) (hn : ∀ n ∈ sizes, 2 ≤ n) :
    ∃ g, uniformGridWithExtraPoint mins maxs sizes extra v = .ok g ∧ g.length = sizes.length ∧
      ∀ (i : Nat) (a b p : K) (n : Nat), mins[i]? = some a → maxs[i]? = some b → sizes[i]? = some n → extra[i]? = some p →
        ∃ l u, g[i]? = some l ∧ IsUniform u a b n ∧ IsExtended l u p := by
  unfold uniformGridWithExtraPoint extraPointShapes
  rw [if_neg (by simpa using hl1), if_neg (by push Not; exact ⟨hl2, hl3⟩), (gridAssertions_ok v mins maxs sizes).2 (fun _ => ⟨hm, hn⟩)]
  refine ⟨_, rfl, by simp, ?_⟩
  intro i a b p n ha hb hn' hp
  have hi : i < sizes.length := (List.getElem?_eq_some_iff.1 hn').1
  refine ⟨_, tfLinspace a b n, getD_map_range _ _ i hi, linspace_uniform a b n (hn n (List.mem_iff_getElem?.2 ⟨i, hn'⟩))
    (hm (a, b) (List.mem_iff_getElem?.2 ⟨i, List.getElem?_zip_eq_some.2 ⟨ha, hb⟩⟩)), ?_⟩
  dsimp only
  rw [List.getD_eq_getElem?_getD, List.getD_eq_getElem?_getD, List.getD_eq_getElem?_getD, List.getD_eq_getElem?_getD, ha, hb, hn', hp]
  simp only [Option.getD_some]
  rw [linspace_scaled]
  exact extended_of_sort _ _

theorem exp_extended (l u : List ℝ) (p : ℝ) (h : IsExtended l u p) : IsExtended (l.map Real.exp) (u.map Real.exp) (Real.exp p) :=
  ⟨by rw [List.pairwise_map]; exact h.sorted.imp fun h => Real.exp_le_exp.2 h, by
    have := h.points.map Real.exp
    rwa [List.map_cons] at this⟩

/-- C80: the same for the grid uniform in the logarithm, for positive extra points. -/
theorem C80_log_extra_point (mins maxs : List ℝ) (sizes : List Nat) (extra : List ℝ) (v : Bool) (hl1 : mins.length = maxs.length)
    (hl2 : sizes.length ≤ mins.length) (hl3 : sizes.length ≤ extra.length)
    (hm : ∀ p ∈ List.zip mins maxs, p.1 < p.2) (hp : ∀ m ∈ mins, 0 < m) (he : ∀ p ∈ extra, 0 < p) (hn : ∀ n ∈ sizes, 2 ≤ n) :
    ∃ g, logUniformGridWithExtraPoint mins maxs sizes extra v = .ok g ∧ g.length = sizes.length ∧
      ∀ (i : Nat) (a b p : ℝ) (n : Nat), mins[i]? = some a → maxs[i]? = some b → sizes[i]? = some n → extra[i]? = some p →
        ∃ l u, g[i]? = some l ∧ IsGeometric u a b n ∧ IsExtended l u p := by
  unfold logUniformGridWithExtraPoint extraPointShapes
  rw [if_neg (by simpa using hl1), if_neg (by push Not; exact ⟨hl2, hl3⟩), (logGridAssertions_ok v mins maxs sizes).2 (fun _ => ⟨hm, hp, hn⟩)]
  refine ⟨_, rfl, by simp, ?_⟩
  intro i a b p n ha hb hn' hpp
  have hi : i < sizes.length := (List.getElem?_eq_some_iff.1 hn').1
  have ha0 := hp a (List.mem_iff_getElem?.2 ⟨i, ha⟩)
  have hp0 := he p (List.mem_iff_getElem?.2 ⟨i, hpp⟩)
  have hab := hm (a, b) (List.mem_iff_getElem?.2 ⟨i, List.getElem?_zip_eq_some.2 ⟨ha, hb⟩⟩)
  have hu := exp_uniform _ _ _ _ (linspace_uniform (Real.log a) (Real.log b) n (hn n (List.mem_iff_getElem?.2 ⟨i, hn'⟩)) (Real.log_lt_log ha0 hab))
  rw [Real.exp_log ha0, Real.exp_log (ha0.trans hab)] at hu
  refine ⟨_, _, getD_map_range _ _ i hi, hu, ?_⟩
  dsimp only
  rw [List.getD_eq_getElem?_getD, List.getD_eq_getElem?_getD, List.getD_eq_getElem?_getD, List.getD_eq_getElem?_getD, List.getElem?_map, List.getElem?_map,
    ha, hb, hn', hpp]
  simp only [Option.map_some, Option.getD_some]
  rw [linspace_scaled]
  have := exp_extended _ _ _ (extended_of_sort (tfLinspace (Real.log a) (Real.log b) n) (Real.log p))
  rwa [Real.exp_log hp0] at this

/-- C80: an extra point between minimum and maximum leaves the ends where they are; the extended grid is strictly increasing exactly if
the point was not a point of the grid already. -/
theorem C80_extended {K : Type} [LinearOrder K] (l u : List K) (p : K) (h : IsExtended l u p) (hu : u.Pairwise (· < ·)) :
    (p ∈ l ∧ (∀ x ∈ u, x ∈ l) ∧ l.length = u.length + 1) ∧ (l.Pairwise (· < ·) ↔ p ∉ u) ∧
    (∀ a b, u.head? = some a → u.getLast? = some b → a ≤ p → p ≤ b → l.head? = some a ∧ l.getLast? = some b) := by
  have hmem : ∀ x, x ∈ l ↔ x = p ∨ x ∈ u := fun x => by rw [h.points.mem_iff, List.mem_cons]
  refine ⟨⟨(hmem p).2 (Or.inl rfl), fun x hx => (hmem x).2 (Or.inr hx), by rw [h.points.length_eq, List.length_cons]⟩, ?_, ?_⟩
  · have h1 : l.Pairwise (· < ·) ↔ l.Nodup := by
      constructor
      · intro hl
        exact hl.imp fun h => h.ne
      · intro hl
        exact (h.sorted.and hl).imp fun h => lt_of_le_of_ne h.1 h.2
    rw [h1, h.points.nodup_iff, List.nodup_cons]
    exact and_iff_left (hu.imp fun h => h.ne)
  · intro a b ha hb hap hpb
    have hua : ∀ x ∈ u, a ≤ x := by
      intro x hx
      rcases u with _ | ⟨a', u⟩
      · cases ha
      simp at ha
      subst ha
      rcases List.mem_cons.1 hx with rfl | hx
      · exact le_rfl
      · exact ((List.pairwise_cons.1 hu).1 x hx).le
    have hub : ∀ x ∈ u, x ≤ b := by
      intro x hx
      obtain ⟨u', rfl⟩ := List.getLast?_eq_some_iff.1 hb
      rw [List.pairwise_append] at hu
      rcases List.mem_append.1 hx with hx | hx
      · exact (hu.2.2 x hx b (by simp)).le
      · simp at hx; exact hx.le
    have hau : a ∈ u := List.mem_of_mem_head? ha
    have hbu : b ∈ u := List.mem_of_getLast? hb
    have hne : l ≠ [] := List.ne_nil_of_mem ((hmem p).2 (Or.inl rfl))
    constructor
    · obtain ⟨a', l', rfl⟩ := List.exists_cons_of_ne_nil hne
      rw [List.head?_cons]
      refine congrArg some ?_
      apply le_antisymm
      · have hal := (hmem a).2 (Or.inr hau)
        rcases List.mem_cons.1 hal with e | e
        · exact e.ge
        · exact (List.pairwise_cons.1 h.sorted).1 a e
      · rcases (hmem a').1 (List.mem_cons_self) with e | e
        · rw [e]; exact hap
        · exact hua _ e
    · have hs := h.sorted
      rw [← List.dropLast_append_getLast hne] at hs hmem ⊢
      rw [List.getLast?_concat]
      congr 1
      rw [List.pairwise_append] at hs
      apply le_antisymm
      · rcases (hmem _).1 (List.mem_append_right _ (List.mem_singleton_self _)) with e | e
        · rw [e]; exact hpb
        · exact hub _ e
      · have hbl := (hmem b).2 (Or.inr hbu)
        rcases List.mem_append.1 hbl with e | e
        · exact hs.2.2 b e _ (List.mem_singleton_self _)
        · rw [List.mem_singleton] at e; exact e.le

/-- C80: an extra point which is a point of the grid is added a second time, so that the grid has a gap of zero. -/
theorem C80_repeated_point : uniformGridWithExtraPoint [(0 : ℚ)] [10] [3] [5] true = .ok [[0, 5, 5, 10]] := by decide +kernel

example : uniformGrid [(0 : ℚ), 1] [1, 4] [3, 4] true = .ok [[0, 1 / 2, 1], [1, 2, 3, 4]] := by decide +kernel

/-- The example in the documentation, L256-268. -/
example : uniformGridWithExtraPoint [(0 : ℚ), 0] [10, 5] [3, 2] [1, 2] = .ok [[0, 1, 5, 10], [0, 2, 5]] := by decide +kernel

end Props
