import Verif.Model.CubicSpline
import Verif.Lemmas.Crr
import Verif.Lemmas.SearchSorted
import Verif.Lemmas.Segments
import Mathlib.Data.List.GetD
import Verif.Props.LinearInterpolation
import Mathlib.Algebra.Order.Ring.Abs
import Mathlib.Tactic.LinearCombination
import Mathlib.Tactic.FieldSimp

/-! # Tridiagonal systems and the coefficients of cubic splines -/

namespace Lemmas
open Model

section tri
variable {K : Type} [Field K] [LinearOrder K]

theorem thomas_length (rows : List (TriRow K)) (u v : K) (z : List K) (h : thomas u v rows = some z) :
    z.length = rows.length := by
  induction rows generalizing u v z with
  | nil => simp [thomas] at h; simp [h]
  | cons a rows ih =>
    obtain ⟨s, d, b, r⟩ := a
    simp only [thomas] at h
    split at h
    · simp at h
    · obtain ⟨w, hw, rfl⟩ := Option.map_eq_some_iff.1 h
      simp [ih _ _ _ hw]

/-- A result of the algorithm solves the system. The row above the first one is `z = v - u * z 0`. -/
theorem thomas_solves (rows : List (TriRow K)) (u v : K) (z : List K) (h : thomas u v rows = some z)
    (i : Nat) (s d b r : K) (hi : rows[i]? = some (s, d, b, r)) :
    b * (if i = 0 then v - u * z.getD 0 0 else z.getD (i - 1) 0) + d * z.getD i 0 + s * z.getD (i + 1) 0 = r := by
  induction rows generalizing u v z i with
  | nil => simp at hi
  | cons a rows ih =>
    obtain ⟨s', d', b', r'⟩ := a
    simp only [thomas] at h
    split at h
    · simp at h
    · rename_i hd
      obtain ⟨w, hw, rfl⟩ := Option.map_eq_some_iff.1 h
      have ew : w.headD 0 = w.getD 0 0 := by cases w <;> rfl
      rcases i with _ | i
      · simp only [List.getElem?_cons_zero, Option.some.injEq, Prod.mk.injEq] at hi
        obtain ⟨rfl, rfl, rfl, rfl⟩ := hi
        simp only [if_true, List.getD_cons_zero, List.getD_cons_succ, ew, zero_add]
        field_simp
        ring
      · rw [List.getElem?_cons_succ] at hi
        have := ih _ _ _ hw i hi
        rw [if_neg (by omega), Nat.add_sub_cancel, List.getD_cons_succ, List.getD_cons_succ]
        rcases i with _ | i
        · rw [if_pos rfl] at this
          rw [← ew] at this ⊢
          exact this
        · rw [if_neg (by omega), Nat.add_sub_cancel] at this
          rw [List.getD_cons_succ]
          exact this

/-- The algorithm does not fail on strictly diagonally dominant systems. -/
theorem thomas_total [IsStrictOrderedRing K] (rows : List (TriRow K)) (u v : K) (hu : |u| ≤ 1)
    (h : ∀ r ∈ rows, |r.2.2.1| + |r.1| < r.2.1) : ∃ z, thomas u v rows = some z := by
  induction rows generalizing u v with
  | nil => exact ⟨[], rfl⟩
  | cons a rows ih =>
    obtain ⟨s, d, b, r⟩ := a
    have h0 := h _ List.mem_cons_self
    simp only at h0
    have hb : b * u ≤ |b| := by
      calc b * u ≤ |b * u| := le_abs_self _
        _ = |b| * |u| := abs_mul _ _
        _ ≤ |b| * 1 := mul_le_mul_of_nonneg_left hu (abs_nonneg _)
        _ = |b| := mul_one _
    have hden : |s| < d - b * u := by linarith
    have hpos : 0 < d - b * u := lt_of_le_of_lt (abs_nonneg _) hden
    have hu' : |s / (d - b * u)| ≤ 1 := by
      rw [abs_div, abs_of_pos hpos, div_le_one hpos]
      exact hden.le
    obtain ⟨z, hz⟩ := ih (s / (d - b * u)) ((r - b * v) / (d - b * u)) hu' (fun q hq => h q (List.mem_cons_of_mem _ hq))
    refine ⟨((r - b * v) / (d - b * u) - s / (d - b * u) * z.headD 0) :: z, ?_⟩
    simp only [thomas]
    rw [if_neg hpos.ne', hz]
    rfl

end tri

theorem take_mapRange {α : Type} (g : ℕ → α) (n k : ℕ) (h : k ≤ n) :
    ((List.range n).map g).take k = (List.range k).map g := by
  rw [← List.map_take, List.take_range, Nat.min_eq_left h]

theorem drop_mapRange' {α : Type} (g : ℕ → α) (n k : ℕ) :
    ((List.range (n + k)).map g).drop k = (List.range n).map (fun (i : Nat) => g (i + k)) := by
  apply List.ext_getElem?
  intro i
  rw [List.getElem?_drop, List.getElem?_map, List.getElem?_map]
  by_cases hi : i < n
  · rw [List.getElem?_range hi, List.getElem?_range (by omega)]
    simp [Nat.add_comm]
  · rw [List.getElem?_eq_none (by simp; omega), List.getElem?_eq_none (by simp; omega)]
    rfl

theorem zip_mapRange {α β : Type} (g : ℕ → α) (h : ℕ → β) (n : ℕ) :
    List.zip ((List.range n).map g) ((List.range n).map h) = (List.range n).map (fun (i : Nat) => (g i, h i)) :=
  zipWith_mapRange Prod.mk g h n

theorem bracket_mapRange {α : Type} (a b : α) (g : ℕ → α) (n : ℕ) :
    [a] ++ (List.range n).map g ++ [b] =
      (List.range (n + 2)).map (fun (i : Nat) => if i = 0 then a else if i = n + 1 then b else g (i - 1)) := by
  apply List.ext_getElem?
  intro i
  rw [List.append_assoc, List.singleton_append, List.getElem?_map]
  rcases i with _ | i
  · simp [List.getElem?_range]
  · rw [List.getElem?_cons_succ]
    by_cases hi : i < n
    · rw [List.getElem?_append_left (by simpa using hi), List.getElem?_map, List.getElem?_range hi,
        List.getElem?_range (by omega)]
      simp only [Option.map_some]
      rw [if_neg (by omega), if_neg (by omega), Nat.add_sub_cancel]
    · rw [List.getElem?_append_right (by simp; omega)]
      by_cases hi2 : i = n
      · subst hi2
        rw [List.getElem?_range (by omega)]
        simp
      · rw [List.getElem?_eq_none (by simp; omega), List.getElem?_eq_none (by simp; omega)]
        rfl

theorem cons_mapRange {α : Type} (a : α) (g : ℕ → α) (n : ℕ) :
    [a] ++ (List.range n).map g = (List.range (n + 1)).map (fun (i : Nat) => if i = 0 then a else g (i - 1)) := by
  apply List.ext_getElem?
  intro i
  rw [List.singleton_append, List.getElem?_map]
  rcases i with _ | i
  · simp [List.getElem?_range]
  · rw [List.getElem?_cons_succ, List.getElem?_map]
    by_cases hi : i < n
    · rw [List.getElem?_range hi, List.getElem?_range (by omega)]
      simp
    · rw [List.getElem?_eq_none (by simp; omega), List.getElem?_eq_none (by simp; omega)]
      rfl

theorem list_eq_mapRange {G : Type} [AddCommGroup G] (l : List G) :
    l = (List.range l.length).map (fun (i : Nat) => l.getD i 0) := by
  apply List.ext_getElem?
  intro i
  rw [List.getElem?_map]
  by_cases hi : i < l.length
  · rw [List.getElem?_range hi, getElem?_getD l i hi]; rfl
  · rw [List.getElem?_eq_none (by omega), List.getElem?_eq_none (by simp; omega)]; rfl

variable {K : Type} [Field K] [LinearOrder K]

theorem selectWhere_mapRange (c : ℕ → Bool) (a b : ℕ → K) (n : ℕ) :
    selectWhere ((List.range n).map c) ((List.range n).map a) ((List.range n).map b) =
      (List.range n).map (fun (i : Nat) => if c i = true then a i else b i) := by
  unfold selectWhere
  rw [zip_mapRange, zipWith_mapRange]

/-- Distances and slopes. -/
def gap (xs : List K) (i : Nat) : K := xs.getD (i + 1) 0 - xs.getD i 0

def slope (xs ys : List K) (i : Nat) : K := (ys.getD (i + 1) 0 - ys.getD i 0) / gap xs i

theorem gaps_eq (xs : List K) (m : Nat) (hx : xs.length = m + 2) :
    List.zipWith (fun a b => a - b) (xs.drop 1) xs.dropLast = (List.range (m + 1)).map (gap xs) := by
  conv_lhs => rw [list_eq_mapRange xs, hx]
  rw [drop_mapRange, dropLast_mapRange, zipWith_mapRange]
  rfl

theorem slopes_eq (xs ys : List K) (m : Nat) (hx : xs.length = m + 2) (hy : ys.length = m + 2)
    (hd : ∀ i, i ≤ m → gap xs i ≠ 0) :
    List.zipWith (fun d x => if x = 0 then 0 else d / x) (List.zipWith (fun a b => a - b) (ys.drop 1) ys.dropLast)
      ((List.range (m + 1)).map (gap xs)) = (List.range (m + 1)).map (slope xs ys) := by
  rw [gaps_eq ys m hy, zipWith_mapRange]
  apply List.map_congr_left
  intro i hi
  rw [if_neg (hd i (by have := List.mem_range.1 hi; omega))]
  rfl

theorem diags_eq (xs : List K) (m : Nat) (hx : xs.length = m + 2) :
    List.zipWith (fun a b => 2 * (a - b)) (xs.drop 2) (xs.take (xs.length - 2)) =
      (List.range m).map (fun (i : Nat) => 2 * (gap xs i + gap xs (i + 1))) := by
  conv_lhs => rw [list_eq_mapRange xs, hx]
  rw [drop_mapRange', List.length_map, List.length_range, Nat.add_sub_cancel, take_mapRange _ _ _ (by omega), zipWith_mapRange]
  apply List.map_congr_left
  intro i _
  simp only [gap]
  ring

variable [IsStrictOrderedRing K]

theorem spline_natural (xs ys : List K) (m : Nat) (hx : xs.length = m + 2) (hy : ys.length = m + 2)
    (hd : ∀ i, i ≤ m → 0 < gap xs i) (l r : K) :
    ∃ c, splineCoeffs .natural l r xs ys = some c ∧ c.length = m + 2 ∧ c.getD 0 0 = 0 ∧ c.getD (m + 1) 0 = 0 ∧
      ∀ i, i < m → gap xs i * c.getD i 0 + 2 * (gap xs i + gap xs (i + 1)) * c.getD (i + 1) 0 +
        gap xs (i + 1) * c.getD (i + 2) 0 = -3 * (slope xs ys i - slope xs ys (i + 1)) := by
  unfold splineCoeffs
  simp only
  rw [gaps_eq xs m hx, slopes_eq xs ys m hx hy (fun i hi => (hd i hi).ne'), diags_eq xs m hx, drop_mapRange, dropLast_mapRange,
    drop_mapRange, dropLast_mapRange, zipWith_mapRange]
  unfold splineNatural
  simp only [List.map_map, Function.comp_def]
  rw [zipWith_mapRange, selectWhere_mapRange, selectWhere_mapRange, selectWhere_mapRange, selectWhere_mapRange]
  unfold tridiagonalSolve
  rw [zip_mapRange, zip_mapRange, zip_mapRange, take_mapRange _ _ _ (by omega)]
  set rows := (List.range m).map (fun (i : Nat) => ((gap xs (i + 1), 2 * (gap xs i + gap xs (i + 1)), gap xs i,
    -3 * (slope xs ys i - slope xs ys (i + 1))) : TriRow K)) with hrows
  have erows : (List.range m).map (fun (i : Nat) =>
      ((if decide (gap xs i = 0) = true then (0 : K) else gap xs (i + 1),
        if (decide (gap xs (i + 1) = 0) || decide (gap xs i = 0)) = true then (1 : K) else 2 * (gap xs i + gap xs (i + 1)),
        if decide (gap xs (i + 1) = 0) = true then (0 : K) else gap xs i,
        if (decide (gap xs (i + 1) = 0) || decide (gap xs i = 0)) = true then (0 : K)
          else -3 * (slope xs ys i - slope xs ys (i + 1))) : TriRow K)) = rows := by
    apply List.map_congr_left
    intro i hi
    have hi := List.mem_range.1 hi
    simp [(hd i (by omega)).ne', (hd (i + 1) (by omega)).ne']
  rw [erows]
  obtain ⟨z, hz⟩ := thomas_total rows 0 0 (by simp) (by
    intro q hq
    obtain ⟨i, hi, rfl⟩ := List.mem_map.1 hq
    have hi := List.mem_range.1 hi
    have h1 := hd i (by omega)
    have h2 := hd (i + 1) (by omega)
    simp only
    rw [abs_of_pos h1, abs_of_pos h2]
    linarith)
  have hlen : z.length = m := by rw [thomas_length _ _ _ _ hz, hrows]; simp
  have hsol := thomas_solves _ _ _ _ hz
  rw [hz]
  have hget : ∀ i, ([(0 : K)] ++ z ++ [0]).getD i 0 = if i = 0 then 0 else z.getD (i - 1) 0 := by
    intro i
    rcases i with _ | i
    · rfl
    · rw [if_neg (by omega), List.append_assoc, List.singleton_append, List.getD_cons_succ, Nat.add_sub_cancel]
      by_cases hi : i < m
      · rw [List.getD_append _ _ _ _ (by omega)]
      · rw [List.getD_append_right _ _ _ _ (by omega), List.getD_eq_default z _ (by omega)]
        rcases h : i - z.length with _ | k
        · rfl
        · rfl
  refine ⟨[0] ++ z ++ [0], by simp, by simp [hlen], hget 0, ?_, ?_⟩
  · rw [hget, if_neg (by omega), List.getD_eq_default _ _ (by omega)]
  · intro i hi
    have := hsol i _ _ _ _ (by rw [hrows, List.getElem?_map, List.getElem?_range hi]; rfl)
    rw [hget, hget, hget, if_neg (by omega : ¬ i + 1 = 0), if_neg (by omega : ¬ i + 2 = 0), Nat.add_sub_cancel,
      show i + 2 - 1 = i + 1 by omega]
    rw [← this]
    rcases i with _ | i
    · simp
    · simp

theorem spline_first (xs ys : List K) (m : Nat) (hx : xs.length = m + 2) (hy : ys.length = m + 2)
    (hd : ∀ i, i ≤ m → 0 < gap xs i) (l r : K) :
    ∃ c, splineCoeffs .fixedFirstDerivative l r xs ys = some c ∧ c.length = m + 2 ∧
      2 * gap xs 0 * c.getD 0 0 + gap xs 0 * c.getD 1 0 = 3 * (slope xs ys 0 - l) ∧
      gap xs m * c.getD m 0 + 2 * gap xs m * c.getD (m + 1) 0 = (if slope xs ys m = 0 then 0 else -3 * (slope xs ys m - r)) ∧
      ∀ i, i < m → gap xs i * c.getD i 0 + 2 * (gap xs i + gap xs (i + 1)) * c.getD (i + 1) 0 +
        gap xs (i + 1) * c.getD (i + 2) 0 = if slope xs ys i = 0 then 0 else -3 * (slope xs ys i - slope xs ys (i + 1)) := by
  have key : ∀ f : ℕ → TriRow K, f 0 = (gap xs 0, 2 * gap xs 0, 0, 3 * (slope xs ys 0 - l)) →
      (∀ i, i < m → f (i + 1) = (gap xs (i + 1), 2 * (gap xs i + gap xs (i + 1)), gap xs i,
        if slope xs ys i = 0 then 0 else -3 * (slope xs ys i - slope xs ys (i + 1)))) →
      f (m + 1) = (0, 2 * gap xs m, gap xs m, if slope xs ys m = 0 then 0 else -3 * (slope xs ys m - r)) →
      ∃ c, thomas 0 0 ((List.range (m + 2)).map f) = some c ∧ c.length = m + 2 ∧
        2 * gap xs 0 * c.getD 0 0 + gap xs 0 * c.getD 1 0 = 3 * (slope xs ys 0 - l) ∧
        gap xs m * c.getD m 0 + 2 * gap xs m * c.getD (m + 1) 0 =
          (if slope xs ys m = 0 then 0 else -3 * (slope xs ys m - r)) ∧
        ∀ i, i < m → gap xs i * c.getD i 0 + 2 * (gap xs i + gap xs (i + 1)) * c.getD (i + 1) 0 +
          gap xs (i + 1) * c.getD (i + 2) 0 =
            if slope xs ys i = 0 then 0 else -3 * (slope xs ys i - slope xs ys (i + 1)) := by
    intro f h0 h1 h2
    obtain ⟨z, hz⟩ := thomas_total ((List.range (m + 2)).map f) 0 0 (by simp) (by
      intro q hq
      obtain ⟨i, hi, rfl⟩ := List.mem_map.1 hq
      have hi := List.mem_range.1 hi
      rcases i with _ | i
      · have := hd 0 (by omega)
        rw [h0]
        simp only [abs_zero, abs_of_pos this]
        linarith
      · by_cases him : i < m
        · have p1 := hd i (by omega)
          have p2 := hd (i + 1) (by omega)
          rw [h1 i him]
          simp only [abs_of_pos p1, abs_of_pos p2]
          linarith
        · have : i = m := by omega
          subst this
          have := hd i (by omega)
          rw [h2]
          simp only [abs_zero, abs_of_pos this]
          linarith)
    have hlen : z.length = m + 2 := by rw [thomas_length _ _ _ _ hz]; simp
    have hsol : ∀ i, i < m + 2 → ∀ s d b r', f i = (s, d, b, r') → _ := fun i hi s d b r' hf =>
      thomas_solves _ _ _ _ hz i s d b r' (by rw [List.getElem?_map, List.getElem?_range hi, Option.map_some, hf])
    refine ⟨z, hz, hlen, ?_, ?_, ?_⟩
    · have := hsol 0 (by omega) _ _ _ _ h0
      rw [zero_mul, zero_add] at this
      exact this
    · have := hsol (m + 1) (by omega) _ _ _ _ h2
      rw [if_neg (by omega), Nat.add_sub_cancel, zero_mul, add_zero] at this
      exact this
    · intro i hi
      have := hsol (i + 1) (by omega) _ _ _ _ (h1 i hi)
      rw [if_neg (by omega), Nat.add_sub_cancel] at this
      exact this
  unfold splineCoeffs
  simp only
  rw [gaps_eq xs m hx, slopes_eq xs ys m hx hy (fun i hi => (hd i hi).ne'), diags_eq xs m hx, drop_mapRange, dropLast_mapRange,
    drop_mapRange, dropLast_mapRange, zipWith_mapRange]
  unfold splineFirstDerivative
  have e1 : ∀ (f : ℕ → K), ((List.range (m + 1)).map f).take 1 = [f 0] := by
    intro f; rw [take_mapRange _ _ _ (by omega)]; rfl
  have e2 : ((List.range (m + 1)).map (gap xs)).drop (((List.range (m + 1)).map (gap xs)).length - 1) = [gap xs m] := by
    rw [List.length_map, List.length_range, Nat.add_sub_cancel, Nat.add_comm, drop_mapRange']
    simp
  simp only [e1, e2, List.map_cons, List.map_nil]
  simp only [bracket_mapRange]
  simp only [cons_mapRange, show m + 1 + 2 = (m + 2) + 1 by omega, show m + 1 + 1 = m + 2 by omega, drop_mapRange,
    dropLast_mapRange, zipWith_mapRange, List.map_map, Function.comp_def, selectWhere_mapRange, tridiagonalSolve, zip_mapRange]
  apply key
  · simp [(hd 0 (by omega)).ne']
  · intro i hi
    simp [(hd i (by omega)).ne', (hd (i + 1) (by omega)).ne', hi.ne, show ¬ i + 1 = m + 1 by omega, show ¬ i = m + 1 by omega]
  · simp [(hd m (by omega)).ne']

end Lemmas
