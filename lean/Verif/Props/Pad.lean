import Verif.Model.Pad
import Verif.Props.Dates
import Verif.Lemmas.Schedules
import Mathlib.Data.List.Basic
import Mathlib.Order.Lattice

/-! # C20: padding -/

namespace Spec

/-- `row` extended by copies of `v` to length `n`. -/
def padTo {K : Type} (n : Nat) (v : K) (row : List K) : List K := row ++ List.replicate (n - row.length) v

/-- `n` is the largest inner size. -/
def IsMaxSize {K : Type} (tensors : List (List (List K))) (n : Nat) : Prop :=
  (∀ t ∈ tensors, ∀ row ∈ t, row.length ≤ n) ∧ (tensors ≠ [] → ∃ t ∈ tensors, ∃ row ∈ t, row.length = n)

/-- Every tensor has rows, all of the same positive length. -/
def Rectangular {K : Type} (tensors : List (List (List K))) : Prop :=
  ∀ t ∈ tensors, t ≠ [] ∧ ∃ n, 0 < n ∧ ∀ row ∈ t, row.length = n

end Spec

namespace Lemmas
open Model Spec

section
variable {K : Type} [LinearOrder K]

theorem foldl_min_le (l : List K) (a : K) : l.foldl min a ≤ a ∧ ∀ x ∈ l, l.foldl min a ≤ x := by
  induction l generalizing a with
  | nil => simp
  | cons b l ih =>
    obtain ⟨h1, h2⟩ := ih (min a b)
    simp only [List.foldl_cons]
    refine ⟨le_trans h1 (min_le_left _ _), ?_⟩
    intro x hx
    rcases List.mem_cons.1 hx with rfl | hx
    · exact le_trans h1 (min_le_right _ _)
    · exact h2 x hx

theorem reduceMin_some (t : List (List K)) (ht : t ≠ []) (hr : ∀ row ∈ t, row ≠ []) :
    ∃ m, reduceMin t = some m ∧ ∀ row ∈ t, ∀ a ∈ row, m ≤ a := by
  unfold reduceMin
  split
  · rename_i h
    exfalso
    obtain ⟨r, l, rfl⟩ := List.exists_cons_of_ne_nil ht
    rw [List.flatten_cons, List.append_eq_nil_iff] at h
    exact hr r List.mem_cons_self h.1
  · rename_i a l h
    refine ⟨_, rfl, ?_⟩
    intro row hrow x hx
    have : x ∈ a :: l := by rw [← h]; exact List.mem_flatten.2 ⟨row, hrow, hx⟩
    obtain ⟨h1, h2⟩ := foldl_min_le l a
    rcases List.mem_cons.1 this with rfl | hx
    · exact h1
    · exact h2 x hx

theorem padRow_eq (c : K) (n : Nat) (v : K) (row : List K) (h : ∀ a ∈ row, c < a) :
    padRow c n v row = padTo n v row := by
  unfold padRow padTo
  rw [List.map_append, List.map_replicate, if_neg (lt_irrefl c)]
  congr 1
  conv_rhs => rw [← List.map_id row]
  apply List.map_congr_left
  intro a ha
  rw [if_pos (h a ha)]; rfl

theorem padTensor_eq (sub1 : K → K) (hs : ∀ m, sub1 m < m) (n : Nat) (vs : List K) (t : List (List K))
    (ht : t ≠ []) (hr : ∀ row ∈ t, row ≠ []) :
    padTensor sub1 n vs t = some (List.zipWith (padTo n) vs t) := by
  obtain ⟨m, hm, hle⟩ := reduceMin_some t ht hr
  unfold padTensor
  rw [hm]
  simp only
  congr 1
  apply List.ext_getElem?
  intro i
  rw [List.getElem?_zipWith, List.getElem?_zipWith]
  cases h1 : vs[i]? with
  | none => rfl
  | some v =>
    cases h2 : t[i]? with
    | none => rfl
    | some row =>
      simp only
      rw [padRow_eq]
      intro a ha
      exact lt_of_lt_of_le (hs m) (hle row (List.mem_of_getElem? h2) a ha)

theorem foldl_max_ge (l : List Nat) (a : Nat) :
    a ≤ l.foldl max a ∧ (∀ x ∈ l, x ≤ l.foldl max a) ∧ (l.foldl max a = a ∨ l.foldl max a ∈ l) := by
  induction l generalizing a with
  | nil => simp
  | cons b l ih =>
    obtain ⟨h1, h2, h3⟩ := ih (max a b)
    simp only [List.foldl_cons]
    refine ⟨by omega, ?_, ?_⟩
    · intro x hx
      rcases List.mem_cons.1 hx with rfl | hx
      · omega
      · exact h2 x hx
    · rcases h3 with h3 | h3
      · by_cases hab : b ≤ a
        · left; omega
        · right; rw [h3, Nat.max_eq_right (by omega)]; exact List.mem_cons_self
      · right; exact List.mem_cons_of_mem _ h3

theorem innerSize_eq (t : List (List K)) (n : Nat) (ht : t ≠ []) (h : ∀ row ∈ t, row.length = n) :
    innerSize t = n := by
  obtain ⟨r, l, rfl⟩ := List.exists_cons_of_ne_nil ht
  exact h r List.mem_cons_self

theorem maxSize_ok (tensors : List (List (List K))) (h : Rectangular tensors) :
    IsMaxSize tensors ((tensors.map innerSize).foldl max 0) := by
  obtain ⟨_, h2, h3⟩ := foldl_max_ge (tensors.map innerSize) 0
  constructor
  · intro t ht row hrow
    obtain ⟨hne, n, _, hn⟩ := h t ht
    have := h2 (innerSize t) (List.mem_map_of_mem ht)
    rw [innerSize_eq t n hne hn] at this
    rw [hn row hrow]; exact this
  · intro hne
    have hmem : (tensors.map innerSize).foldl max 0 ∈ tensors.map innerSize := by
      rcases h3 with h3 | h3
      · obtain ⟨t, l, rfl⟩ := List.exists_cons_of_ne_nil hne
        obtain ⟨hne', n, hpos, hn⟩ := h t List.mem_cons_self
        have := h2 (innerSize t) (List.mem_map_of_mem List.mem_cons_self)
        rw [innerSize_eq t n hne' hn] at this
        omega
      · exact h3
    obtain ⟨t, ht, he⟩ := List.mem_map.1 hmem
    obtain ⟨hne', n, _, hn⟩ := h t ht
    rw [innerSize_eq t n hne' hn] at he
    obtain ⟨r, l, rfl⟩ := List.exists_cons_of_ne_nil hne'
    exact ⟨_, ht, r, List.mem_cons_self, by rw [← he]; exact hn r List.mem_cons_self⟩

theorem mapM_some {α β : Type} (f : α → Option β) (g : α → β) (l : List α)
    (h : ∀ x ∈ l, f x = some (g x)) : l.mapM f = some (l.map g) := by
  induction l with
  | nil => rfl
  | cons a l ih =>
    rw [List.mapM_cons, h a List.mem_cons_self, ih (fun x hx => h x (List.mem_cons_of_mem _ hx))]
    rfl

omit [LinearOrder K] in
theorem rows_ne (tensors : List (List (List K))) (h : Rectangular tensors) :
    ∀ t ∈ tensors, t ≠ [] ∧ ∀ row ∈ t, row ≠ [] := by
  intro t ht
  obtain ⟨hne, n, hpos, hn⟩ := h t ht
  refine ⟨hne, fun row hrow he => ?_⟩
  have := hn row hrow
  rw [he] at this
  simp at this
  omega

theorem padTensors_of_values (sub1 : K → K) (hs : ∀ m, sub1 m < m) (p : PadValues K)
    (tensors : List (List (List K))) (h : Rectangular tensors) (vs : List (List K))
    (hv : preparePadValues p tensors = some vs) (hl : vs.length = tensors.length) :
    padTensors sub1 p tensors = some (List.zipWith (fun v t => List.zipWith
      (padTo ((tensors.map innerSize).foldl max 0)) v t) vs tensors) := by
  unfold padTensors
  rw [hv]
  simp only [Option.bind_eq_bind, Option.bind_some]
  rw [mapM_some _ (fun q => List.zipWith (padTo ((tensors.map innerSize).foldl max 0)) q.1 q.2)]
  · rw [List.zip, List.map_zipWith]
  · intro q hq
    have := (List.of_mem_zip hq).2
    obtain ⟨h1, h2⟩ := rows_ne tensors h q.2 this
    exact padTensor_eq sub1 hs _ q.1 q.2 h1 h2

end
end Lemmas

namespace Props
open Model Spec Lemmas

section
variable {K : Type} [LinearOrder K]

/-- C20.  Default padding: every row of every tensor is extended by copies of its own last element to the
largest size (`v0` is irrelevant: rows are not empty).  `sub1` (the subtraction of 1) is only required to make
numbers smaller. -/
theorem C20_pad_default (sub1 : K → K) (hs : ∀ m, sub1 m < m) (tensors : List (List (List K)))
    (h : Rectangular tensors) (v0 : K) :
    ∃ n, IsMaxSize tensors n ∧
      padTensors sub1 .default tensors =
        some (tensors.map (fun t => t.map (fun row => padTo n (row.getLastD v0) row))) := by
  refine ⟨_, maxSize_ok tensors h, ?_⟩
  have hp : preparePadValues .default tensors =
      some (tensors.map (fun t => t.map (fun row => row.getLastD v0))) := by
    unfold preparePadValues
    apply mapM_some
    intro t ht
    apply mapM_some
    intro row hrow
    have := (rows_ne tensors h t ht).2 row hrow
    rw [List.getLast?_eq_some_getLast this, List.getLastD_eq_getLast?, List.getLast?_eq_some_getLast this]; rfl
  rw [padTensors_of_values sub1 hs _ tensors h _ hp (by simp)]
  congr 1
  rw [List.zipWith_map_left, List.zipWith_self]
  apply List.map_congr_left
  intro t _
  rw [List.zipWith_map_left, List.zipWith_self]

/-- C20.  Padding with one given value. -/
theorem C20_pad_scalar (sub1 : K → K) (hs : ∀ m, sub1 m < m) (tensors : List (List (List K)))
    (h : Rectangular tensors) (v : K) :
    ∃ n, IsMaxSize tensors n ∧
      padTensors sub1 (.scalar v) tensors = some (tensors.map (fun t => t.map (padTo n v))) := by
  refine ⟨_, maxSize_ok tensors h, ?_⟩
  rw [padTensors_of_values sub1 hs _ tensors h _ rfl (by simp)]
  congr 1
  rw [List.zipWith_map_left, List.zipWith_self]
  apply List.map_congr_left
  intro t _
  rw [List.zipWith_map_left, List.zipWith_self]

/-- C20.  Padding with one value per row of each tensor. -/
theorem C20_pad_per_tensor (sub1 : K → K) (hs : ∀ m, sub1 m < m) (tensors : List (List (List K)))
    (h : Rectangular tensors) (vs : List (List K)) (hl : vs.length = tensors.length) :
    ∃ n, IsMaxSize tensors n ∧
      padTensors sub1 (.perTensor vs) tensors =
        some (List.zipWith (fun v t => List.zipWith (padTo n) v t) vs tensors) :=
  ⟨_, maxSize_ok tensors h, padTensors_of_values sub1 hs _ tensors h _ rfl hl⟩

/-- Deviation from C20 in machine arithmetic: if the subtraction of 1 does not change the minimum `m` (floats
above `2^53` in absolute value), every entry equal to the minimum is replaced by the pad value. -/
theorem C20_sentinel_absorbed (sub1 : K → K) (m v : K) (hm : sub1 m = m) (hv : v ≠ m) :
    padTensors sub1 (.scalar v) [[[m]]] ≠ some [[[m]]] ∧ padTensors sub1 (.scalar v) [[[m]]] = some [[[v]]] := by
  have : padTensors sub1 (.scalar v) [[[m]]] = some [[[v]]] := by
    simp [padTensors, preparePadValues, padTensor, reduceMin, padRow, innerSize, hm]
  exact ⟨by rw [this]; simpa using hv, this⟩

end

/-- C20.  `pad_date_tensors`: rows of dates are extended by copies of their last date. -/
theorem C20_pad_dates (ts : List (List (List DateT))) (h : Rectangular ts)
    (hd : ∀ t ∈ ts, ∀ row ∈ t, ∀ d ∈ row, ∃ y : YMD, Represents d y ∧ 1 ≤ y.year) (d0 : DateT) :
    ∃ n, IsMaxSize ts n ∧
      padDateTensors ts = .ok (ts.map (fun t => t.map (fun row => padTo n (row.getLastD d0) row))) := by
  have hrect : Rectangular (ts.map (List.map (List.map DateT.ordinal))) := by
    intro t ht
    obtain ⟨t', ht', rfl⟩ := List.mem_map.1 ht
    obtain ⟨h1, n, h2, h3⟩ := h t' ht'
    refine ⟨by simpa using h1, n, h2, ?_⟩
    intro row hrow
    obtain ⟨r', hr', rfl⟩ := List.mem_map.1 hrow
    rw [List.length_map]; exact h3 r' hr'
  obtain ⟨n, hn, he⟩ := C20_pad_default (fun m : Int => m - 1) (fun m => by omega) _ hrect d0.ordinal
  refine ⟨n, ?_, ?_⟩
  · constructor
    · intro t ht row hrow
      have := hn.1 _ (List.mem_map_of_mem ht) _ (List.mem_map_of_mem hrow)
      simpa using this
    · intro hne
      obtain ⟨t, ht, row, hrow, hl⟩ := hn.2 (by simpa using hne)
      obtain ⟨t', ht', rfl⟩ := List.mem_map.1 ht
      obtain ⟨r', hr', rfl⟩ := List.mem_map.1 hrow
      exact ⟨t', ht', r', hr', by simpa using hl⟩
  · unfold padDateTensors
    rw [he]
    simp only [List.map_map]
    rw [Lemmas.mapM_ok _ (fun t => t.map (fun row => row.map (fun o => Lemmas.repr (dateOf o))))]
    · rw [List.map_map]
      congr 1
      apply List.map_congr_left
      intro t ht
      simp only [Function.comp, List.map_map]
      apply List.map_congr_left
      intro row hrow
      have hback : ∀ d ∈ row, Lemmas.repr (dateOf d.ordinal) = d := by
        intro d hdm
        obtain ⟨y, hy, _⟩ := hd t ht row hrow d hdm
        obtain ⟨hv, rfl⟩ := (represents_iff _ _).1 hy
        have : dateOf (Lemmas.repr y).ordinal = y :=
          Lemmas.number_inj _ _ (Lemmas.dateOf_valid _) hv (Lemmas.dateOf_number _)
        rw [this]
      have hne := (rows_ne ts h t ht).2 row hrow
      have hlast : row.getLastD d0 ∈ row := by
        rw [List.getLastD_eq_getLast?, List.getLast?_eq_some_getLast hne]
        exact List.getLast_mem hne
      have hl2 : (row.map DateT.ordinal).getLastD d0.ordinal = (row.getLastD d0).ordinal := by
        rw [List.getLastD_eq_getLast?, List.getLast?_map, List.getLastD_eq_getLast?,
          List.getLast?_eq_some_getLast hne]; rfl
      simp only [Function.comp, padTo, List.map_append, List.map_replicate, List.map_map, List.length_map, hl2]
      rw [hback _ hlast]
      congr 1
      conv_rhs => rw [← List.map_id row]
      exact List.map_congr_left (fun d hdm => hback d hdm)
    · intro t ht
      apply Lemmas.mapM_ok
      intro row hrow
      apply Lemmas.mapM_ok
      intro o ho
      apply Lemmas.fromOrdinals_pos
      obtain ⟨t', ht', rfl⟩ := List.mem_map.1 ht
      obtain ⟨r', hr', rfl⟩ := List.mem_map.1 hrow
      obtain ⟨r'', hr'', rfl⟩ := List.mem_map.1 hr'
      have hpos : ∀ d ∈ r'', 0 < d.ordinal := by
        intro d hdm
        obtain ⟨y, hy, hy1⟩ := hd t' ht' r'' hr'' d hdm
        rw [hy.2.2.2.2]
        exact (Lemmas.number_pos_iff y hy.1).2 hy1
      have hne := (rows_ne ts h t' ht').2 r'' hr''
      have hlast : r''.getLastD d0 ∈ r'' := by
        rw [List.getLastD_eq_getLast?, List.getLast?_eq_some_getLast hne]
        exact List.getLast_mem hne
      have hl2 : (r''.map DateT.ordinal).getLastD d0.ordinal = (r''.getLastD d0).ordinal := by
        rw [List.getLastD_eq_getLast?, List.getLast?_map, List.getLastD_eq_getLast?,
          List.getLast?_eq_some_getLast hne]; rfl
      rw [hl2] at ho
      unfold padTo at ho
      rcases List.mem_append.1 ho with ho | ho
      · obtain ⟨d, hdm, rfl⟩ := List.mem_map.1 ho
        exact hpos d hdm
      · rw [(List.mem_replicate.1 ho).2]
        exact hpos _ hlast

/- Concrete instances. -/
example : padTensors (fun m : Int => m - 1) .default [[[1, 2, 3, 9], [2, 3, 5, 2]], [[4, 5, 8]]] =
    some [[[1, 2, 3, 9], [2, 3, 5, 2]], [[4, 5, 8, 8]]] := by decide +kernel
example : padTensors (fun m : Int => m - 1) (.scalar (-10)) [[[1, 2, 3, 9], [2, 3, 5, 2]], [[4, 5, 8]]] =
    some [[[1, 2, 3, 9], [2, 3, 5, 2]], [[4, 5, 8, -10]]] := by decide +kernel
example : padTensors (fun m : Int => m - 1) (.perTensor [[0, 0], [7]]) [[[1, 2, 3, 9], [2, 3, 5, 2]], [[4, 5, 8]]] =
    some [[[1, 2, 3, 9], [2, 3, 5, 2]], [[4, 5, 8, 7]]] := by decide +kernel
example : Rectangular [[[1, 2, 3, 9], [2, 3, 5, 2]], [[4, 5, 8]]] := by
  intro t ht
  rcases List.mem_cons.1 ht with rfl | ht
  · exact ⟨by simp, 4, by simp, by simp⟩
  · rw [List.mem_singleton.1 ht]; exact ⟨by simp, 3, by simp, by simp⟩

end Props
