import Verif.Model.Parabolic
import Verif.Lemmas.CubicSpline
import Mathlib.Tactic.LinearCombination
import Mathlib.Tactic.FieldSimp
import Mathlib.Tactic.Linarith

/-! # Matrices of the one dimensional finite difference steppers -/

namespace Lemmas
open Model

variable {K : Type} [Field K] [LinearOrder K]

/-! Tridiagonal systems. -/

/-- A system on which the algorithm succeeds has no other solution. -/
theorem thomas_unique (rows : List (TriRow K)) (u v : K) (z : List K) (h : thomas u v rows = some z) (w : Nat → K) (y : K)
    (hy : y = v - u * w 0) (hend : rows = [] ∨ w rows.length = 0)
    (hw : ∀ i s d b r, rows[i]? = some (s, d, b, r) →
      b * (if i = 0 then y else w (i - 1)) + d * w i + s * w (i + 1) = r) :
    ∀ i, i < rows.length → z.getD i 0 = w i := by
  induction rows generalizing u v z w y with
  | nil => intro i hi; simp at hi
  | cons a rows ih =>
    obtain ⟨s, d, b, r⟩ := a
    simp only [thomas] at h
    split at h
    · simp at h
    · rename_i hd
      obtain ⟨q, hq, rfl⟩ := Option.map_eq_some_iff.1 h
      have h0 := hw 0 s d b r (by simp)
      simp only [if_true, zero_add] at h0
      have hw0 : w 0 = (r - b * v) / (d - b * u) - s / (d - b * u) * w 1 := by
        rw [hy] at h0
        field_simp
        linear_combination h0
      have key : ∀ i, i < rows.length → q.getD i 0 = w (i + 1) := by
        refine ih (s / (d - b * u)) ((r - b * v) / (d - b * u)) q hq (fun i => w (i + 1)) (w 0) hw0 ?_ ?_
        · rcases hend with h | h
          · simp at h
          · right; simpa using h
        · intro i s' d' b' r' hi
          have := hw (i + 1) s' d' b' r' (by simpa using hi)
          rw [if_neg (by omega), Nat.add_sub_cancel] at this
          rcases i with _ | i
          · simpa using this
          · rw [if_neg (by omega), Nat.add_sub_cancel]; exact this
      intro i hi
      rcases i with _ | i
      · simp only [List.getD_cons_zero]
        rw [hw0]
        congr 2
        rcases rows with _ | ⟨a, rows⟩
        · simp only [thomas, Option.some.injEq] at hq
          subst hq
          rcases hend with h | h
          · simp at h
          · simpa using h.symm
        · have hl := thomas_length _ _ _ _ hq
          have := key 0 (by simp)
          cases q with
          | nil => simp at hl
          | cons c q => simpa using this
      · rw [List.getD_cons_succ]
        exact key i (by simpa using hi)

/-- Row `j` of a tridiagonal matrix applied to a vector. -/
def rowApply (m : Tridiag K) (v : List K) (j : Nat) : K :=
  m.lower.getD j 0 * (if j = 0 then 0 else v.getD (j - 1) 0) + m.diag.getD j 0 * v.getD j 0 +
    m.upper.getD j 0 * v.getD (j + 1) 0

/-- All parts have length `N`. -/
structure Tridiag.Size (m : Tridiag K) (N : Nat) : Prop where
  diag : m.diag.length = N
  upper : m.upper.length = N
  lower : m.lower.length = N

theorem getD_some' (l : List K) (i : Nat) (h : i < l.length) : l[i]? = some (l.getD i 0) := by
  rw [List.getD_eq_getElem?_getD, List.getElem?_eq_getElem h]; rfl

theorem getD_map_zero (l : List K) (f : K → K) (i : Nat) (h : i < l.length) : (l.map f).getD i 0 = f (l.getD i 0) := by
  rw [List.getD_eq_getElem?_getD, List.getElem?_map, getD_some' l i h]; rfl

theorem getD_zipWith (f : K → K → K) (a b : List K) (i : Nat) (ha : i < a.length) (hb : i < b.length) :
    (List.zipWith f a b).getD i 0 = f (a.getD i 0) (b.getD i 0) := by
  rw [List.getD_eq_getElem?_getD, List.getElem?_zipWith, getD_some' a i ha, getD_some' b i hb]; rfl

theorem implicitPart_solves (m : Tridiag K) (N : Nat) (hm : Tridiag.Size m N) (vec out : List K) (hv : vec.length = N)
    (theta t1 t2 : K) (h : implicitPart vec m theta t1 t2 = some out) :
    out.length = N ∧ ∀ j, j < N → out.getD j 0 - (1 - theta) * (t2 - t1) * rowApply m out j = vec.getD j 0 := by
  unfold implicitPart tridiagonalSolve at h
  simp only at h
  have hl := thomas_length _ _ _ _ h
  have hN : out.length = N := by rw [hl]; simp [hm.diag, hm.upper, hm.lower, hv]
  refine ⟨hN, ?_⟩
  intro j hj
  have := thomas_solves _ _ _ _ h j ((1 - theta) * (t1 - t2) * m.upper.getD j 0) (1 + (1 - theta) * (t1 - t2) * m.diag.getD j 0)
    ((1 - theta) * (t1 - t2) * m.lower.getD j 0) (vec.getD j 0) (by
      rw [List.getElem?_zip_eq_some]
      simp only [List.getElem?_map, List.getElem?_zip_eq_some]
      rw [getD_some' m.upper j (by rw [hm.upper]; exact hj), getD_some' m.diag j (by rw [hm.diag]; exact hj),
        getD_some' m.lower j (by rw [hm.lower]; exact hj), getD_some' vec j (by rw [hv]; exact hj)]
      simp)
  unfold rowApply
  simp only [zero_mul, sub_zero] at this
  linear_combination this

theorem implicitPart_unique (m : Tridiag K) (N : Nat) (hm : Tridiag.Size m N) (vec out : List K) (hv : vec.length = N)
    (theta t1 t2 : K) (h : implicitPart vec m theta t1 t2 = some out) (w : List K) (hw : w.length = N)
    (hsol : ∀ j, j < N → w.getD j 0 - (1 - theta) * (t2 - t1) * rowApply m w j = vec.getD j 0) : out = w := by
  obtain ⟨hN, _⟩ := implicitPart_solves m N hm vec out hv theta t1 t2 h
  unfold implicitPart tridiagonalSolve at h
  simp only at h
  have hrows : ∀ {rows : List (TriRow K)}, rows = List.zip (m.upper.map (fun d => (1 - theta) * (t1 - t2) * d))
      (List.zip (m.diag.map (fun d => 1 + (1 - theta) * (t1 - t2) * d))
        (List.zip (m.lower.map (fun d => (1 - theta) * (t1 - t2) * d)) vec)) → rows.length = N := by
    intro rows hr; rw [hr]; simp [hm.diag, hm.upper, hm.lower, hv]
  have key := thomas_unique _ _ _ _ h (fun i => w.getD i 0) 0 (by simp) (by
      right
      rw [hrows rfl, List.getD_eq_getElem?_getD, List.getElem?_eq_none (by omega)]; rfl) (by
    intro i s d b r hi
    have hi' : i < N := by
      rw [← hrows rfl]
      exact (List.getElem?_eq_some_iff.1 hi).1
    rw [List.getElem?_zip_eq_some] at hi
    simp only [List.getElem?_map, List.getElem?_zip_eq_some] at hi
    rw [getD_some' m.upper i (by rw [hm.upper]; exact hi'), getD_some' m.diag i (by rw [hm.diag]; exact hi'),
        getD_some' m.lower i (by rw [hm.lower]; exact hi'), getD_some' vec i (by rw [hv]; exact hi')] at hi
    simp only [Option.map_some, Option.some.injEq] at hi
    obtain ⟨rfl, rfl, rfl, rfl⟩ := hi
    have := hsol i hi'
    unfold rowApply at this
    linear_combination this)
  apply List.ext_getElem?
  intro i
  by_cases hi : i < N
  · rw [getD_some' out i (by omega), getD_some' w i (by omega), key i (by rw [hrows rfl]; exact hi)]
  · rw [List.getElem?_eq_none (by omega), List.getElem?_eq_none (by omega)]

theorem explicitPart_eq (m : Tridiag K) (N : Nat) (hN : 0 < N) (hm : Tridiag.Size m N) (vec : List K) (hv : vec.length = N)
    (theta t1 t2 : K) : (explicitPart vec m theta t1 t2).length = N ∧
    ∀ j, j < N → (explicitPart vec m theta t1 t2).getD j 0 = vec.getD j 0 + theta * (t2 - t1) * rowApply m vec j := by
  unfold explicitPart
  simp only
  have h1 := hm.diag
  have h2 := hm.upper
  have h3 := hm.lower
  refine ⟨by simp [h1, h2, h3, hv]; omega, ?_⟩
  intro j hj
  have hlow : (0 :: List.zipWith (fun l v => l * v) ((m.lower.map (fun d => theta * (t2 - t1) * d)).drop 1) vec.dropLast).getD j 0 =
      theta * (t2 - t1) * (m.lower.getD j 0 * (if j = 0 then 0 else vec.getD (j - 1) 0)) := by
    rcases j with _ | j
    · simp
    · rw [List.getD_cons_succ, getD_zipWith _ _ _ _ (by simp [h3]; omega) (by simp [hv]; omega), if_neg (by omega), Nat.add_sub_cancel]
      have e1 : ((m.lower.map (fun d => theta * (t2 - t1) * d)).drop 1).getD j 0 = theta * (t2 - t1) * m.lower.getD (j + 1) 0 := by
        rw [List.getD_eq_getElem?_getD, List.getElem?_drop, Nat.add_comm, ← List.getD_eq_getElem?_getD,
          getD_map_zero _ _ _ (by omega)]
      have e2 : vec.dropLast.getD j 0 = vec.getD j 0 := by
        rw [List.getD_eq_getElem?_getD, List.getElem?_dropLast, if_pos (by omega), ← List.getD_eq_getElem?_getD]
      rw [e1, e2]; ring
  have hup : (List.zipWith (fun u v => u * v) (m.upper.map (fun d => theta * (t2 - t1) * d)).dropLast (vec.drop 1) ++ [0]).getD j 0 =
      theta * (t2 - t1) * (m.upper.getD j 0 * vec.getD (j + 1) 0) := by
    by_cases hj' : j + 1 < N
    · have hlen : j < (List.zipWith (fun (u v : K) => u * v) (m.upper.map (fun d => theta * (t2 - t1) * d)).dropLast (vec.drop 1)).length := by
        simp [h2, hv]; omega
      rw [List.getD_append _ _ _ _ hlen, getD_zipWith _ _ _ _ (by simp [h2]; omega) (by simp [hv]; omega)]
      have e1 : (m.upper.map (fun d => theta * (t2 - t1) * d)).dropLast.getD j 0 = theta * (t2 - t1) * m.upper.getD j 0 := by
        rw [List.getD_eq_getElem?_getD, List.getElem?_dropLast, if_pos (by simp [h2]; omega), ← List.getD_eq_getElem?_getD,
          getD_map_zero _ _ _ (by omega)]
      have e2 : (vec.drop 1).getD j 0 = vec.getD (j + 1) 0 := by
        rw [List.getD_eq_getElem?_getD, List.getElem?_drop, Nat.add_comm, ← List.getD_eq_getElem?_getD]
      rw [e1, e2]; ring
    · have e : vec.getD (j + 1) 0 = 0 := by
        rw [List.getD_eq_getElem?_getD, List.getElem?_eq_none (by omega)]; rfl
      rw [e, List.getD_append_right _ _ _ _ (by simp [h2, hv]; omega)]
      have : j - (List.zipWith (fun (u v : K) => u * v) (m.upper.map (fun d => theta * (t2 - t1) * d)).dropLast (vec.drop 1)).length = 0 := by
        simp [h2, hv]; omega
      rw [this]; simp
  rw [getD_zipWith _ _ _ _ (by simp [h1, h3, hv]; omega) (by simp [h2, hv]; omega),
    getD_zipWith _ _ _ _ (by simp [h3, hv]; omega) (by simp [h1, hv]; omega), hlow, hup,
    getD_zipWith _ _ _ _ (by simp [h1]; omega) (by omega), getD_map_zero _ _ _ (by omega)]
  unfold rowApply
  ring

/-- The weighted scheme solves `(out - v) / dt = theta (A v + b) + (1 - theta) (A out + b)`. -/
theorem weightedScheme_solves [IsStrictOrderedRing K] (theta : K) (v out : List K) (t1 t2 : K) (params : K → Option (Tridiag K × List K)) (m : Tridiag K)
    (b : List K) (N : Nat) (hN : 0 < N) (hp : params ((t1 + t2) / 2) = some (m, b)) (hm : Tridiag.Size m N) (hb : b.length = N) (hv : v.length = N)
    (h : weightedScheme theta v t1 t2 params = some out) :
    0 ≤ theta ∧ theta ≤ 1 ∧ out.length = N ∧ ∀ j, j < N → out.getD j 0 - v.getD j 0 = (t2 - t1) *
      (theta * (rowApply m v j + b.getD j 0) + (1 - theta) * (rowApply m out j + b.getD j 0)) := by
  unfold weightedScheme at h
  split at h
  · simp at h
  · rename_i hth
    push Not at hth
    refine ⟨hth.1, hth.2, ?_⟩
    rw [hp] at h
    simp only [Option.bind_eq_bind, Option.bind_some] at h
    obtain ⟨hel, hee⟩ := explicitPart_eq m N hN hm v hv theta t1 t2
    have hrl : (if theta = 0 then v else explicitPart v m theta t1 t2).length = N := by split <;> assumption
    have hr : ∀ j, j < N → (if theta = 0 then v else explicitPart v m theta t1 t2).getD j 0 =
        v.getD j 0 + theta * (t2 - t1) * rowApply m v j := by
      intro j hj
      split
      · rename_i h0; rw [h0]; ring
      · exact hee j hj
    split at h
    · obtain ⟨h1, h2⟩ := implicitPart_solves m N hm _ out (by simp [hrl, hb]) theta t1 t2 h
      refine ⟨h1, ?_⟩
      intro j hj
      have := h2 j hj
      rw [getD_zipWith _ _ _ _ (by omega) (by omega), hr j hj] at this
      linear_combination this
    · simp only [Option.some.injEq] at h
      subst h
      refine ⟨by simp [hrl, hb], ?_⟩
      intro j hj
      have : theta = 1 := le_antisymm hth.2 (by linarith)
      rw [getD_zipWith _ _ _ _ (by omega) (by omega), hr j hj, this]
      ring

/-- Conversely, every solution of these equations is the result, if there is one. -/
theorem weightedScheme_unique [IsStrictOrderedRing K] (theta : K) (v out : List K) (t1 t2 : K) (params : K → Option (Tridiag K × List K)) (m : Tridiag K)
    (b : List K) (N : Nat) (hN : 0 < N) (hp : params ((t1 + t2) / 2) = some (m, b)) (hm : Tridiag.Size m N) (hb : b.length = N) (hv : v.length = N)
    (h : weightedScheme theta v t1 t2 params = some out) (w : List K) (hw : w.length = N)
    (hsol : ∀ j, j < N → w.getD j 0 - v.getD j 0 = (t2 - t1) *
      (theta * (rowApply m v j + b.getD j 0) + (1 - theta) * (rowApply m w j + b.getD j 0))) : out = w := by
  obtain ⟨hth0, hth1, hol, heq⟩ := weightedScheme_solves theta v out t1 t2 params m b N hN hp hm hb hv h
  unfold weightedScheme at h
  rw [if_neg (by push Not; exact ⟨hth0, hth1⟩), hp] at h
  simp only [Option.bind_eq_bind, Option.bind_some] at h
  obtain ⟨hel, hee⟩ := explicitPart_eq m N hN hm v hv theta t1 t2
  have hrl : (if theta = 0 then v else explicitPart v m theta t1 t2).length = N := by split <;> assumption
  have hr : ∀ j, j < N → (if theta = 0 then v else explicitPart v m theta t1 t2).getD j 0 =
      v.getD j 0 + theta * (t2 - t1) * rowApply m v j := by
    intro j hj
    split
    · rename_i h0; rw [h0]; ring
    · exact hee j hj
  split at h
  · refine implicitPart_unique m N hm _ out (by simp [hrl, hb]) theta t1 t2 h w hw ?_
    intro j hj
    rw [getD_zipWith _ _ _ _ (by omega) (by omega), hr j hj]
    linear_combination hsol j hj
  · have h1 : theta = 1 := le_antisymm hth1 (by linarith)
    apply List.ext_getElem?
    intro i
    by_cases hi : i < N
    · rw [getD_some' out i (by omega), getD_some' w i (by omega)]
      have e1 := heq i hi
      have e2 := hsol i hi
      rw [h1] at e1 e2
      congr 1
      linear_combination e1 - e2
    · rw [List.getElem?_eq_none (by omega), List.getElem?_eq_none (by omega)]

end Lemmas
