import Verif.Model.PrepareGrid
import Verif.Lemmas.SearchSorted
import Mathlib.Algebra.Order.Field.Basic
import Mathlib.Algebra.Order.Floor.Semiring
import Mathlib.Algebra.Order.Ring.Rat
import Mathlib.Data.Rat.Floor
import Mathlib.Tactic.Linarith
import Mathlib.Tactic.Ring
import Mathlib.Tactic.FieldSimp
import Mathlib.Tactic.NormNum

/-! # C39 Time grids for simulation -/

namespace Spec

variable {K : Type} [Field K] [LinearOrder K]

/-- Points at most `tol` apart are the same for the purpose of the grid; this has to be transitive on the given points. -/
def ClosenessTransitive (tol : K) (l : List K) : Prop :=
  ∀ a ∈ l, ∀ b ∈ l, ∀ c ∈ l, a ≤ b → b ≤ c → b - a ≤ tol → c - b ≤ tol → c - a ≤ tol

/-- Different points are more than `2 * tol` apart. -/
def Separated (tol : K) (l : List K) : Prop := ∀ a ∈ l, ∀ b ∈ l, a < b → 2 * tol < b - a

end Spec

namespace Lemmas
open Model Spec

variable {K : Type} [Field K] [LinearOrder K] [IsStrictOrderedRing K]

/-- The points kept after the point `p` (kept or not). -/
def keepFrom (tol : K) : K → List K → List K
  | _, [] => []
  | p, b :: l => if tol < b - p then b :: keepFrom tol b l else keepFrom tol b l

omit [IsStrictOrderedRing K] in
theorem removeClose_go (tol : K) (p : K) (l : List K) :
    ((List.zip l (List.zipWith (fun a b => a - b) l (p :: l).dropLast)).filter fun q => decide (q.2 > tol)).map Prod.fst =
      keepFrom tol p l := by
  induction l generalizing p with
  | nil => rfl
  | cons b l ih =>
    rw [List.dropLast_cons₂, List.zipWith_cons_cons, List.zip_cons_cons, List.filter_cons, keepFrom]
    simp only [decide_eq_true_eq, gt_iff_lt]
    split_ifs with h
    · rw [List.map_cons, ih]
    · rw [ih]

omit [IsStrictOrderedRing K] in
theorem removeClose_cons (tol : K) (htol : tol < 1) (a : K) (l : List K) : removeClose tol (a :: l) = a :: keepFrom tol a l := by
  unfold removeClose
  simp only [List.drop_succ_cons, List.drop_zero, List.zip_cons_cons]
  rw [List.filter_cons, if_pos (by simpa using htol), List.map_cons, removeClose_go]

omit [IsStrictOrderedRing K] in
theorem keepFrom_subset (tol p : K) (l : List K) : ∀ q ∈ keepFrom tol p l, q ∈ l := by
  induction l generalizing p with
  | nil => simp [keepFrom]
  | cons b l ih =>
    intro q hq
    rw [keepFrom] at hq
    split_ifs at hq with h
    · rcases List.mem_cons.1 hq with rfl | hq
      · exact List.mem_cons_self
      · exact List.mem_cons_of_mem _ (ih b q hq)
    · exact List.mem_cons_of_mem _ (ih b q hq)

theorem keepFrom_gap (tol : K) (h0 : 0 ≤ tol) (p : K) (l : List K) (hs : (p :: l).Pairwise (· ≤ ·)) :
    ∀ q ∈ keepFrom tol p l, tol < q - p := by
  induction l generalizing p with
  | nil => simp [keepFrom]
  | cons b l ih =>
    intro q hq
    rw [List.pairwise_cons] at hs
    have hpb := hs.1 b List.mem_cons_self
    rw [keepFrom] at hq
    split_ifs at hq with h
    · rcases List.mem_cons.1 hq with rfl | hq
      · exact h
      · have := ih b hs.2 q hq; linarith
    · have := ih b hs.2 q hq; linarith

theorem keepFrom_before (tol : K) (h0 : 0 ≤ tol) (p : K) (l : List K) (hs : (p :: l).Pairwise (· ≤ ·)) :
    ∀ q ∈ p :: keepFrom tol p l, ∀ t ∈ p :: l, t < q → tol < q - t := by
  induction l generalizing p with
  | nil =>
    intro q hq t ht hlt
    simp [keepFrom] at hq ht
    subst hq ht
    exact absurd hlt (lt_irrefl _)
  | cons b l ih =>
    intro q hq t ht hlt
    have hs' := hs
    rw [List.pairwise_cons] at hs
    rcases List.mem_cons.1 hq with rfl | hq
    · rcases List.mem_cons.1 ht with rfl | ht
      · exact absurd hlt (lt_irrefl _)
      · exact absurd hlt (not_lt.2 (hs.1 t ht))
    · rcases List.mem_cons.1 ht with rfl | ht
      · exact keepFrom_gap tol h0 _ _ hs' q hq
      · apply ih b hs.2 q _ t ht hlt
        rw [keepFrom] at hq
        split_ifs at hq with h
        · exact hq
        · exact List.mem_cons_of_mem _ hq

theorem keepFrom_pairwise (tol : K) (h0 : 0 ≤ tol) (p : K) (l : List K) (hs : (p :: l).Pairwise (· ≤ ·)) :
    (p :: keepFrom tol p l).Pairwise (fun a b => tol < b - a) := by
  induction l generalizing p with
  | nil => simp [keepFrom]
  | cons b l ih =>
    have hs' := hs
    rw [List.pairwise_cons] at hs
    rw [List.pairwise_cons]
    refine ⟨keepFrom_gap tol h0 p _ hs', ?_⟩
    have := ih b hs.2
    rw [keepFrom]
    split_ifs with h
    · exact this
    · exact (List.pairwise_cons.1 this).2

omit [IsStrictOrderedRing K] in
theorem keepFrom_near (tol : K) (all : List K) (htrans : ClosenessTransitive tol all) (h0 : 0 ≤ tol) (s p : K) (l : List K)
    (hs : (p :: l).Pairwise (· ≤ ·)) (hsp : s ≤ p) (hnear : p - s ≤ tol) (hs_mem : s ∈ all) (hp_mem : p ∈ all)
    (hl : ∀ x ∈ l, x ∈ all) [IsStrictOrderedRing K] : ∀ t ∈ l, ∃ k ∈ s :: keepFrom tol p l, k ≤ t ∧ t - k ≤ tol := by
  induction l generalizing s p with
  | nil => simp
  | cons b l ih =>
    rw [List.pairwise_cons] at hs
    have hpb := hs.1 b List.mem_cons_self
    have hb_mem := hl b List.mem_cons_self
    intro t ht
    rw [keepFrom]
    split_ifs with h
    · rcases List.mem_cons.1 ht with rfl | ht
      · exact ⟨t, by simp, le_refl _, by simpa using h0⟩
      · obtain ⟨k, hk, h1, h2⟩ := ih b b hs.2 (le_refl _) (by simpa using h0) hb_mem hb_mem
          (fun x hx => hl x (List.mem_cons_of_mem _ hx)) t ht
        exact ⟨k, List.mem_cons_of_mem _ hk, h1, h2⟩
    · have hbs : b - s ≤ tol := htrans s hs_mem p hp_mem b hb_mem hsp hpb hnear (not_lt.1 h)
      rcases List.mem_cons.1 ht with rfl | ht
      · exact ⟨s, by simp, hsp.trans hpb, hbs⟩
      · exact ih s b hs.2 (hsp.trans hpb) hbs hs_mem hb_mem (fun x hx => hl x (List.mem_cons_of_mem _ hx)) t ht

/-- The index looked up for one time of a deduplicated grid. -/
theorem lookup_index (kept : List K) (tol t : K) (h0 : 0 ≤ tol) (hgap : kept.Pairwise (fun a b => tol < b - a))
    (hnear : ∃ k ∈ kept, k ≤ t ∧ t - k ≤ tol) (hbefore : ∀ q ∈ kept, t < q → tol < q - t) :
    ∃ (i : Nat) (g j : K), kept[(min (searchLeft kept t : Int) (kept.length - 1)).toNat]? = some j ∧
      0 ≤ min (searchLeft kept t : Int) (kept.length - 1) ∧
      (if j - t > tol then min (searchLeft kept t : Int) (kept.length - 1) - 1
        else min (searchLeft kept t : Int) (kept.length - 1)) = (i : Int) ∧
      kept[i]? = some g ∧ g ≤ t ∧ t - g ≤ tol := by
  obtain ⟨k, hk, hkt, hkn⟩ := hnear
  have hsl : kept.Pairwise (· ≤ ·) := hgap.imp (fun {a b} h => by linarith)
  obtain ⟨hle, hsp⟩ := searchLeft_spec kept hsl t
  obtain ⟨m, hm⟩ := List.mem_iff_getElem?.1 hk
  have hmlen : m < kept.length := (List.getElem?_eq_some_iff.1 hm).1
  -- value found before the position of t is within the tolerance
  have hprev : ∀ (i : Nat) (g : K), kept[i]? = some g → m ≤ i → g ≤ t → t - g ≤ tol := by
    intro i g hg hmi _
    have := getElem_sorted_le kept hsl m i k g hmi hm hg
    linarith
  rcases Nat.lt_or_ge (searchLeft kept t) kept.length with h | h
  · have hmin : min (searchLeft kept t : Int) (kept.length - 1) = (searchLeft kept t : Int) := by omega
    have hj : kept[searchLeft kept t]? = some (kept[searchLeft kept t]'h) := List.getElem?_eq_getElem _
    rw [hmin]
    have hge : t ≤ kept[searchLeft kept t]'h := by
      by_contra hc
      have := (hsp _ _ hj).2 (not_le.1 hc)
      omega
    rcases hge.eq_or_lt with heq | hlt
    · refine ⟨searchLeft kept t, kept[searchLeft kept t]'h, kept[searchLeft kept t]'h, by simpa using hj, by omega, ?_, hj, heq.symm.le,
        by rw [← heq]; simpa using h0⟩
      rw [if_neg (by rw [← heq]; simpa using h0)]
    · have hgt := hbefore _ (List.mem_of_getElem? hj) hlt
      have hkt' : m < searchLeft kept t := by
        by_contra hc
        have := getElem_sorted_le kept hsl _ m _ k (not_lt.1 hc) hj hm
        linarith
      have hg : kept[searchLeft kept t - 1]? = some (kept[searchLeft kept t - 1]'(by omega)) := List.getElem?_eq_getElem _
      have hglt := (hsp _ _ hg).1 (by omega)
      refine ⟨searchLeft kept t - 1, _, kept[searchLeft kept t]'h, by rw [Int.toNat_natCast]; exact hj, by omega, ?_, hg, hglt.le, hprev _ _ hg (by omega) hglt.le⟩
      rw [if_pos hgt]
      omega
  · have hmin : min (searchLeft kept t : Int) (kept.length - 1) = ((kept.length - 1 : Nat) : Int) := by omega
    have hg : kept[kept.length - 1]? = some (kept[kept.length - 1]'(by omega)) := List.getElem?_eq_getElem _
    have hglt := (hsp _ _ hg).1 (by omega)
    rw [hmin]
    refine ⟨kept.length - 1, _, kept[kept.length - 1]'(by omega), by rw [Int.toNat_natCast]; exact hg, by omega, ?_, hg, hglt.le, hprev _ _ hg (by omega) hglt.le⟩
    rw [if_neg (by linarith)]

omit [IsStrictOrderedRing K] in
theorem mapM_each_some {A B : Type} (f : A → Option B) (l : List A) (h : ∀ a ∈ l, ∃ b, f a = some b) :
    ∃ bs, l.mapM f = some bs ∧ bs.length = l.length ∧ ∀ (i : Nat) (a : A), l[i]? = some a → f a = bs[i]? := by
  induction l with
  | nil => exact ⟨[], by simp⟩
  | cons a l ih =>
    obtain ⟨b, hb⟩ := h a List.mem_cons_self
    obtain ⟨bs, h1, h2, h3⟩ := ih (fun x hx => h x (List.mem_cons_of_mem _ hx))
    refine ⟨b :: bs, ?_, by simp [h2], ?_⟩
    · rw [List.mapM_cons, hb, h1]; rfl
    · intro i x hx
      rcases i with _ | i
      · simp at hx; subst hx; simpa using hb
      · simpa using h3 i x (by simpa using hx)

end Lemmas

namespace Props
open Model Spec Lemmas

variable {K : Type} [Field K] [LinearOrder K] [IsStrictOrderedRing K]

/-- C39: the mask has one entry per grid point and marks exactly the reported indices. -/
theorem C39_mask [FloorRing K] (times : List K) (timeStep tol : K) (n : Option Nat) (g : Option (List K)) (all : List K) (mask : List Bool)
    (indices : List Int) (h : prepareGrid times timeStep tol n g = some (all, mask, indices)) :
    mask.length = all.length ∧ ∀ (i : Nat) (b : Bool), mask[i]? = some b → (b = true ↔ (i : Int) ∈ indices) := by
  unfold prepareGrid at h
  obtain ⟨⟨a, ix⟩, h1, h2⟩ := Option.map_eq_some_iff.1 h
  simp only [Prod.mk.injEq] at h2
  obtain ⟨rfl, rfl, rfl⟩ := h2
  refine ⟨by simp, ?_⟩
  intro i b hb
  rw [List.getElem?_map] at hb
  obtain ⟨j, hj, hb⟩ := Option.map_eq_some_iff.1 hb
  obtain ⟨hlt, rfl⟩ := List.getElem?_eq_some_iff.1 hj
  rw [List.getElem_range] at hb
  rw [← hb]
  simp [List.count_pos_iff]

/-- C39: time step grids. The grid is sorted, its points are more than the tolerance apart and every requested time is at the
reported index up to the tolerance. Missing: without the hypothesis on the transitivity of closeness the last claim is false, see
`C39_chain`. -/
theorem C39_time_step_partial [FloorRing K] (times : List K) (timeStep tol : K) (hne : times ≠ []) (h0 : 0 ≤ tol) (h1 : tol < 1)
    (htrans : ∀ last, times.getLast? = some last → ClosenessTransitive tol (times ++ tfRange last timeStep)) :
    ∃ all mask indices, prepareGrid times timeStep tol none none = some (all, mask, indices) ∧
      all.Pairwise (fun a b => a < b ∧ tol < b - a) ∧ indices.length = times.length ∧
      ∀ (j : Nat) (t : K), times[j]? = some t → ∃ (i : Nat) (g : K), indices[j]? = some (i : Int) ∧ all[i]? = some g ∧ g ≤ t ∧ t - g ≤ tol := by
  obtain ⟨last, hlast⟩ : ∃ last, times.getLast? = some last := ⟨_, List.getLast?_eq_some_getLast hne⟩
  have ht := htrans last hlast
  set full := times ++ tfRange last timeStep with hfull
  set sorted := full.insertionSort (· ≤ ·) with hsorted
  have hsrt : sorted.Pairwise (· ≤ ·) := List.pairwise_insertionSort _ _
  have hmem : ∀ x, x ∈ sorted ↔ x ∈ full := fun x => List.mem_insertionSort _
  obtain ⟨p, l, hpl⟩ : ∃ p l, sorted = p :: l := by
    rcases hc : sorted with _ | ⟨p, l⟩
    · obtain ⟨x, hx⟩ := List.exists_mem_of_ne_nil _ hne
      have := (hmem x).2 (List.mem_append_left _ hx)
      rw [hc] at this
      simp at this
    · exact ⟨p, l, rfl⟩
  set kept := removeClose tol sorted with hkept
  have hk : kept = p :: keepFrom tol p l := by rw [hkept, hpl, removeClose_cons tol h1]
  rw [hpl] at hsrt
  have hgap : kept.Pairwise (fun a b => tol < b - a) := by rw [hk]; exact keepFrom_pairwise tol h0 p l hsrt
  have hpm : p ∈ full := (hmem p).1 (by rw [hpl]; simp)
  have hlm : ∀ x ∈ l, x ∈ full := fun x hx => (hmem x).1 (by rw [hpl]; exact List.mem_cons_of_mem _ hx)
  have hall : ∀ t ∈ times, ∃ (i : Nat) (g j : K), kept[(min (searchLeft kept t : Int) (kept.length - 1)).toNat]? = some j ∧
      0 ≤ min (searchLeft kept t : Int) (kept.length - 1) ∧
      (if j - t > tol then min (searchLeft kept t : Int) (kept.length - 1) - 1
        else min (searchLeft kept t : Int) (kept.length - 1)) = (i : Int) ∧
      kept[i]? = some g ∧ g ≤ t ∧ t - g ≤ tol := by
    intro t htm
    have hts : t ∈ p :: l := by rw [← hpl]; exact (hmem t).2 (List.mem_append_left _ htm)
    apply lookup_index kept tol t h0 hgap
    · rw [hk]
      rcases List.mem_cons.1 hts with rfl | htl
      · exact ⟨t, by simp, le_refl _, by simpa using h0⟩
      · exact keepFrom_near tol full ht h0 p p l hsrt (le_refl _) (by simpa using h0) hpm hpm hlm t htl
    · intro q hq hlt
      rw [hk] at hq
      exact keepFrom_before tol h0 p l hsrt q hq t hts hlt
  have key : ∀ t ∈ times, ∃ i : Int, (do
      let i : Int := min (searchLeft kept t) (kept.length - 1)
      let g ← if i < 0 then none else kept[i.toNat]?
      pure (if g - t > tol then i - 1 else i) : Option Int) = some i := by
    intro t htm
    obtain ⟨i, g, j, e1, e2, e3, e4, e5, e6⟩ := hall t htm
    refine ⟨i, ?_⟩
    simp only [if_neg (not_lt.2 e2), e1]
    exact congrArg some e3
  obtain ⟨indices, m1, m2, m3⟩ := mapM_each_some _ times key
  have hgrid : gridFromTimeStep times timeStep tol = some (kept, indices) := by
    unfold gridFromTimeStep
    simp only [hlast, Option.bind_eq_bind, Option.bind_some, ← hfull, ← hsorted, ← hkept]
    have m1' := m1
    simp only [Option.bind_eq_bind] at m1'
    rw [m1']
    rfl
  refine ⟨kept, (List.range kept.length).map fun (i : Nat) => decide (indices.count (i : Int) > 0), indices, ?_, ?_, m2, ?_⟩
  · unfold prepareGrid
    simp only [hgrid, Option.map_some]
  · exact hgap.imp (fun {a b} h => ⟨by linarith, h⟩)
  · intro j t hj
    obtain ⟨i, g, w, e1, e2, e3, e4, e5, e6⟩ := hall t (List.mem_of_getElem? hj)
    refine ⟨i, g, ?_, e4, e5, e6⟩
    rw [← m3 j t hj]
    simp only [if_neg (not_lt.2 e2), e1]
    exact congrArg some e3

/-- C39: every time from zero to the last requested time is less than time step plus tolerance after some grid point. The
hypothesis on closeness is the one of `C39_time_step_partial`. -/
theorem C39_fine_partial [FloorRing K] (times : List K) (timeStep tol last : K) (h0 : 0 ≤ tol) (h1 : tol < 1) (hstep : 0 < timeStep)
    (hlast : times.getLast? = some last) (htrans : ClosenessTransitive tol (times ++ tfRange last timeStep))
    (all : List K) (mask : List Bool) (indices : List Int)
    (h : prepareGrid times timeStep tol none none = some (all, mask, indices)) (x : K) (hx0 : 0 ≤ x) (hx : x ≤ last) :
    ∃ g ∈ all, g ≤ x ∧ x - g < timeStep + tol := by
  have hall : all = removeClose tol ((times ++ tfRange last timeStep).insertionSort (· ≤ ·)) := by
    unfold prepareGrid at h
    obtain ⟨⟨a, ix⟩, h1, h2⟩ := Option.map_eq_some_iff.1 h
    simp only [Prod.mk.injEq] at h2
    obtain ⟨rfl, _, _⟩ := h2
    unfold gridFromTimeStep at h1
    simp only [hlast, Option.bind_eq_bind, Option.bind_some] at h1
    obtain ⟨ix', _, h3⟩ := Option.bind_eq_some_iff.1 h1
    simp only [Option.pure_def, Option.some.injEq, Prod.mk.injEq] at h3
    exact h3.1.symm
  set full := times ++ tfRange last timeStep with hfull
  have hsrt : (full.insertionSort (· ≤ ·)).Pairwise (· ≤ ·) := List.pairwise_insertionSort _ _
  have hmem : ∀ y, y ∈ full.insertionSort (· ≤ ·) ↔ y ∈ full := fun y => List.mem_insertionSort _
  -- a point of the uniform grid, or the last time
  obtain ⟨y, hy, hyx, hyn⟩ : ∃ y ∈ full, y ≤ x ∧ x - y < timeStep := by
    rcases hx.eq_or_lt with rfl | hlt
    · exact ⟨x, List.mem_append_left _ (List.mem_of_getLast? hlast), le_refl _, by simpa using hstep⟩
    · have hf0 : 0 ≤ ⌊x / timeStep⌋ := Int.floor_nonneg.2 (div_nonneg hx0 hstep.le)
      have hf1 : (⌊x / timeStep⌋ : K) * timeStep ≤ x := by
        have := Int.floor_le (x / timeStep)
        rwa [le_div_iff₀ hstep] at this
      have hf2 : x < ((⌊x / timeStep⌋ : K) + 1) * timeStep := by
        have := Int.lt_floor_add_one (x / timeStep)
        rwa [div_lt_iff₀ hstep] at this
      refine ⟨(⌊x / timeStep⌋ : K) * timeStep, List.mem_append_right _ ?_, hf1, by linarith⟩
      unfold tfRange
      refine List.mem_map.2 ⟨⌊x / timeStep⌋.toNat, ?_, ?_⟩
      · rw [List.mem_range]
        have : ⌊x / timeStep⌋ < ⌈last / timeStep⌉ := by
          rw [Int.lt_ceil, lt_div_iff₀ hstep]
          exact lt_of_le_of_lt hf1 hlt
        omega
      · congr 1
        have : ((⌊x / timeStep⌋.toNat : Int) : K) = (⌊x / timeStep⌋ : K) := by rw [Int.toNat_of_nonneg hf0]
        exact_mod_cast this
  rw [hall]
  rcases hc : full.insertionSort (· ≤ ·) with _ | ⟨p, l⟩
  · have := (hmem y).2 hy
    rw [hc] at this
    simp at this
  · rw [removeClose_cons tol h1]
    rw [hc] at hsrt
    have hpm : p ∈ full := (hmem p).1 (by rw [hc]; simp)
    have hlm : ∀ x ∈ l, x ∈ full := fun x hx => (hmem x).1 (by rw [hc]; exact List.mem_cons_of_mem _ hx)
    have hys : y ∈ p :: l := by rw [← hc]; exact (hmem y).2 hy
    have : ∃ k ∈ p :: keepFrom tol p l, k ≤ y ∧ y - k ≤ tol := by
      rcases List.mem_cons.1 hys with rfl | hyl
      · exact ⟨y, by simp, le_refl _, by simpa using h0⟩
      · exact keepFrom_near tol full htrans h0 p p l hsrt (le_refl _) (by simpa using h0) hpm hpm hlm y hyl
    obtain ⟨k, hk, e1, e2⟩ := this
    exact ⟨k, hk, e1.trans hyx, by linarith⟩

/-- C39: the hypothesis on closeness holds if different requested times are more than twice the tolerance apart and so is the
time step. -/
theorem C39_separated [FloorRing K] (times : List K) (timeStep tol last : K) (h0 : 0 ≤ tol) (hstep : 2 * tol < timeStep)
    (hsep : Separated tol times) : ClosenessTransitive tol (times ++ tfRange last timeStep) := by
  have hgrid : Separated tol (tfRange last timeStep) := by
    intro a ha b hb hab
    unfold tfRange at ha hb
    obtain ⟨i, _, rfl⟩ := List.mem_map.1 ha
    obtain ⟨j, _, rfl⟩ := List.mem_map.1 hb
    have hij : (i : K) < j := lt_of_mul_lt_mul_right hab (by linarith)
    have hij' : ((i + 1 : Nat) : K) ≤ j := by exact_mod_cast hij
    have := mul_le_mul_of_nonneg_right hij' (show 0 ≤ timeStep by linarith)
    push_cast at this
    linarith
  intro a ha b hb c hc hab hbc h1 h2
  by_contra hcon
  rw [not_le] at hcon
  have h1' : a < b := by
    rcases hab.eq_or_lt with rfl | h
    · exact absurd hcon (not_lt.2 h2)
    · exact h
  have h2' : b < c := by
    rcases hbc.eq_or_lt with rfl | h
    · exact absurd hcon (not_lt.2 h1)
    · exact h
  have key : ∀ l : List K, Separated tol l → ¬ (a ∈ l ∧ b ∈ l) ∧ ¬ (b ∈ l ∧ c ∈ l) ∧ ¬ (a ∈ l ∧ c ∈ l) := by
    intro l hl
    refine ⟨?_, ?_, ?_⟩
    · rintro ⟨p, q⟩; have := hl _ p _ q h1'; linarith
    · rintro ⟨p, q⟩; have := hl _ p _ q h2'; linarith
    · rintro ⟨p, q⟩; have := hl _ p _ q (h1'.trans h2'); linarith
  obtain ⟨k1, k2, k3⟩ := key _ hsep
  obtain ⟨g1, g2, g3⟩ := key _ hgrid
  rcases List.mem_append.1 ha with ha | ha <;> rcases List.mem_append.1 hb with hb | hb <;>
    rcases List.mem_append.1 hc with hc | hc <;> tauto

/-- C39 (deviation): several times in a row closer than the tolerance collapse to the first one, which can be further than the
tolerance from the time that was asked for. -/
theorem C39_chain : ∃ (times all : List Rat) (timeStep tol : Rat) (mask : List Bool) (indices : List Int),
    0 < tol ∧ tol < 1 ∧ times.Pairwise (· < ·) ∧ prepareGrid times timeStep tol none none = some (all, mask, indices) ∧
    ∃ t ∈ times, ∀ g ∈ all, tol < |g - t| := by
  refine ⟨[1 / 4, 1 / 2, 3 / 4], [0], 10, 1 / 4, [true], [0, 0, 0], ?_⟩
  decide +kernel

theorem searchLeft_mem (l : List K) (hs : l.Pairwise (· ≤ ·)) (t : K) (ht : t ∈ l) : l[searchLeft l t]? = some t := by
  obtain ⟨hle, hsp⟩ := searchLeft_spec l hs t
  obtain ⟨m, hm⟩ := List.mem_iff_getElem?.1 ht
  have hmlen : m < l.length := (List.getElem?_eq_some_iff.1 hm).1
  have h1 : searchLeft l t ≤ m := by
    by_contra hc
    exact absurd ((hsp m t hm).1 (by omega)) (lt_irrefl _)
  have hj : l[searchLeft l t]? = some (l[searchLeft l t]'(by omega)) := List.getElem?_eq_getElem _
  have h2 := getElem_sorted_le l hs _ m _ t h1 hj hm
  have h3 : ¬ l[searchLeft l t]'(by omega) < t := by
    intro hc
    have := (hsp _ _ hj).2 hc
    omega
  rw [hj, le_antisymm h2 (not_lt.1 h3)]

/-- C39: grids with a given number of points. For times that are not negative and a time step of at most the last of them, the
grid is sorted, has one point more than the maximum of the numbers of steps and times, starts at zero and contains every
requested time at the reported index. -/
theorem C39_num_times [FloorRing K] (times : List K) (timeStep tol last : K) (n : Nat) (hpos : ∀ t ∈ times, 0 ≤ t)
    (hlast : times.getLast? = some last) (hstep : 0 ≤ timeStep) (hstep' : timeStep ≤ last) :
    ∃ all mask indices, prepareGrid times timeStep tol (some n) none = some (all, mask, indices) ∧
      all.Pairwise (· ≤ ·) ∧ all.head? = some 0 ∧ all.length = max n times.length + 1 ∧ indices.length = times.length ∧
      ∀ (j : Nat) (t : K), times[j]? = some t → ∃ i : Nat, indices[j]? = some (i : Int) ∧ all[i]? = some t := by
  set uniform := tfLinspace timeStep (last - timeStep) (n - times.length) with huniform
  set grid := (uniform ++ times).insertionSort (· ≤ ·) with hgrid
  have hu : ∀ u ∈ uniform, 0 ≤ u := by
    intro u hu
    rw [huniform] at hu
    unfold tfLinspace at hu
    obtain ⟨k, hk, rfl⟩ := List.mem_map.1 hu
    rw [List.mem_range] at hk
    have hd : (0 : K) < ((max (n - times.length - 1) 1 : Nat) : K) := by exact_mod_cast (by omega)
    have hkd : (k : K) ≤ ((max (n - times.length - 1) 1 : Nat) : K) := by exact_mod_cast (by omega)
    have hk0 : (0 : K) ≤ k := Nat.cast_nonneg k
    have e : timeStep + (k : K) * ((last - timeStep - timeStep) / ((max (n - times.length - 1) 1 : Nat) : K)) =
        (1 - (k : K) / ((max (n - times.length - 1) 1 : Nat) : K)) * timeStep +
          (k : K) / ((max (n - times.length - 1) 1 : Nat) : K) * (last - timeStep) := by
      field_simp
      ring
    rw [e]
    have hr0 : 0 ≤ (k : K) / ((max (n - times.length - 1) 1 : Nat) : K) := div_nonneg hk0 hd.le
    have hr1 : (k : K) / ((max (n - times.length - 1) 1 : Nat) : K) ≤ 1 := (div_le_one hd).2 hkd
    have a1 := mul_nonneg (sub_nonneg.2 hr1) hstep
    have a2 := mul_nonneg hr0 (sub_nonneg.2 hstep')
    linarith
  have hsorted : (0 :: grid).Pairwise (· ≤ ·) := by
    rw [List.pairwise_cons]
    refine ⟨?_, List.pairwise_insertionSort _ _⟩
    intro x hx
    rw [hgrid, List.mem_insertionSort, List.mem_append] at hx
    rcases hx with hx | hx
    · exact hu x hx
    · exact hpos x hx
  refine ⟨0 :: grid, (List.range (0 :: grid).length).map fun (i : Nat) =>
      decide ((times.map fun t => (searchLeft (0 :: grid) t : Int)).count (i : Int) > 0),
    times.map fun t => (searchLeft (0 :: grid) t : Int), ?_, hsorted, rfl, ?_, by simp, ?_⟩
  · unfold prepareGrid gridFromNumTimes
    simp only [hlast, Option.bind_eq_bind, Option.bind_some, ← huniform, ← hgrid, Option.pure_def, Option.map_some]
  · rw [List.length_cons, hgrid, List.length_insertionSort, List.length_append, huniform]
    simp only [tfLinspace, List.length_map, List.length_range]
    omega
  · intro j t hj
    refine ⟨searchLeft (0 :: grid) t, by rw [List.getElem?_map, hj]; rfl, ?_⟩
    apply searchLeft_mem _ hsorted
    apply List.mem_cons_of_mem
    rw [hgrid, List.mem_insertionSort]
    exact List.mem_append_right _ (List.mem_of_getElem? hj)

/-- C39 (deviation): for a time step longer than the last time the grid is not sorted. -/
theorem C39_num_times_unsorted : ∃ (times all : List Rat) (timeStep : Rat) (mask : List Bool) (indices : List Int),
    0 < timeStep ∧ times.Pairwise (· < ·) ∧ (∀ t ∈ times, 0 < t) ∧
    prepareGrid times timeStep 0 (some 3) none = some (all, mask, indices) ∧ ¬ all.Pairwise (· ≤ ·) := by
  refine ⟨[1], [0, -1, 1, 2], 2, [false, false, true, false], [2], ?_⟩
  decide +kernel

/-- C39: a supplied grid. For times up to the last grid point the reported index is that of a nearest grid point. -/
theorem C39_given_grid [FloorRing K] (times grid : List K) (timeStep tol last : K) (n : Option Nat) (hs : grid.Pairwise (· ≤ ·))
    (hlast : grid.getLast? = some last) (hle : ∀ t ∈ times, t ≤ last) :
    ∃ mask indices, prepareGrid times timeStep tol n (some grid) = some (grid, mask, indices) ∧ indices.length = times.length ∧
      ∀ (j : Nat) (t : K), times[j]? = some t → ∃ (i : Nat) (g : K), indices[j]? = some (i : Int) ∧ grid[i]? = some g ∧
        ∀ g' ∈ grid, |g - t| ≤ |g' - t| := by
  have hlast' := hlast
  rw [List.getLast?_eq_getElem?] at hlast'
  have hlen : 0 < grid.length := by
    rcases grid with _ | _
    · simp at hlast
    · simp
  have main : ∀ t ∈ times, ∃ (i : Nat) (g : K), (do
      let i : Int := searchLeft grid t
      let g1 ← grid[i.toNat]?
      let g2 ← grid[(max (i - 1) 0).toNat]?
      let d1 := g1 - t
      let d2 := g2 - t
      pure (if |d2| > |d1| then i else max (i - 1) 0) : Option Int) = some (i : Int) ∧ grid[i]? = some g ∧
        ∀ g' ∈ grid, |g - t| ≤ |g' - t| := by
    intro t ht
    obtain ⟨hl, hsp⟩ := searchLeft_spec grid hs t
    have hlt : searchLeft grid t < grid.length := by
      by_contra hc
      have := (hsp _ _ hlast').1 (by omega)
      exact absurd this (not_lt.2 (hle t ht))
    have h1 : grid[searchLeft grid t]? = some (grid[searchLeft grid t]'hlt) := List.getElem?_eq_getElem _
    have hge : t ≤ grid[searchLeft grid t]'hlt := by
      by_contra hc
      have := (hsp _ _ h1).2 (not_le.1 hc)
      omega
    have h2 : grid[searchLeft grid t - 1]? = some (grid[searchLeft grid t - 1]'(by omega)) := List.getElem?_eq_getElem _
    have e1 : ((searchLeft grid t : Int)).toNat = searchLeft grid t := by omega
    have e2 : (max ((searchLeft grid t : Int) - 1) 0).toNat = searchLeft grid t - 1 := by omega
    -- every grid point is at or left of the point before, or at or right of the point found
    have hsplit : ∀ g' ∈ grid, (1 ≤ searchLeft grid t ∧ g' ≤ grid[searchLeft grid t - 1]'(by omega)) ∨ grid[searchLeft grid t]'hlt ≤ g' := by
      intro g' hg'
      obtain ⟨m, hm⟩ := List.mem_iff_getElem?.1 hg'
      rcases Nat.lt_or_ge m (searchLeft grid t) with h | h
      · left
        exact ⟨by omega, getElem_sorted_le grid hs m _ _ _ (by omega) hm h2⟩
      · right
        exact getElem_sorted_le grid hs _ m _ _ h h1 hm
    have hprev : 1 ≤ searchLeft grid t → grid[searchLeft grid t - 1]'(by omega) < t := fun h => (hsp _ _ h2).1 (by omega)
    simp only [e1, e2, h1, h2, Option.bind_eq_bind, Option.bind_some, Option.pure_def]
    by_cases hcmp : |grid[searchLeft grid t - 1]'(by omega) - t| > |grid[searchLeft grid t]'hlt - t|
    · refine ⟨searchLeft grid t, _, by rw [if_pos hcmp], h1, ?_⟩
      intro g' hg'
      rcases hsplit g' hg' with ⟨hk, h⟩ | h
      · have := hprev hk
        rw [abs_of_nonpos (by linarith)] at hcmp
        rw [abs_of_nonpos (show g' - t ≤ 0 by linarith)]
        linarith
      · rw [abs_of_nonneg (by linarith), abs_of_nonneg (by linarith)]
        linarith
    · refine ⟨searchLeft grid t - 1, grid[searchLeft grid t - 1]'(by omega), ?_, h2, ?_⟩
      · rw [if_neg hcmp]
        congr 1
        omega
      · intro g' hg'
        rw [not_lt] at hcmp
        rcases hsplit g' hg' with ⟨hk, h⟩ | h
        · have := hprev hk
          rw [abs_of_nonpos (by linarith), abs_of_nonpos (by linarith)]
          linarith
        · refine hcmp.trans ?_
          rw [abs_of_nonneg (by linarith), abs_of_nonneg (by linarith)]
          linarith
  obtain ⟨indices, m1, m2, m3⟩ := mapM_each_some _ times (fun t ht => by
    obtain ⟨i, g, e, _⟩ := main t ht
    exact ⟨_, e⟩)
  refine ⟨(List.range grid.length).map fun (i : Nat) => decide (indices.count (i : Int) > 0), indices, ?_, m2, ?_⟩
  · unfold prepareGrid gridFromGrid
    simp only [Option.bind_eq_bind] at m1 ⊢
    rw [m1]
    rfl
  · intro j t hj
    obtain ⟨i, g, e1, e2, e3⟩ := main t (List.mem_of_getElem? hj)
    exact ⟨i, g, by rw [← m3 j t hj]; exact e1, e2, e3⟩

example : prepareGrid ([1 / 2, 1, 2] : List Rat) (3 / 4) (1 / 100) none none =
    some ([0, 1 / 2, 3 / 4, 1, 3 / 2, 2], [false, true, false, true, false, true], [1, 3, 5]) := by
  decide +kernel

example : prepareGrid ([1 / 2, 1, 2] : List Rat) (1 / 4) (1 / 100) (some 5) none =
    some ([0, 1 / 4, 1 / 2, 1, 7 / 4, 2], [false, false, true, true, false, true], [2, 3, 5]) := by
  decide +kernel

example : prepareGrid ([1 / 2, 9 / 5] : List Rat) (1 / 4) (1 / 100) none (some [0, 1, 2]) =
    some ([0, 1, 2], [true, false, true], [0, 2]) := by
  decide +kernel

example : ClosenessTransitive (1 / 100 : Rat) ([1 / 2, 1, 2] ++ tfRange 2 (3 / 4)) :=
  C39_separated _ _ _ _ (by norm_num) (by norm_num) (by unfold Separated; decide +kernel)

end Props
