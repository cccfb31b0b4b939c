import Verif.Spec.Adi
import Verif.Lemmas.Parabolic
import Verif.Lemmas.ParabolicMatrix

/-! # Lemmas on the Douglas scheme -/

namespace Lemmas
open Model Model.AdiGrid Spec
open scoped BigOperators

variable {K : Type} [Field K] [LinearOrder K] {n : Nat}

theorem weighted_eq (w : K) (outer inner : Option (GridIndex n → K)) (p q : GridIndex n) :
    weighted w outer inner p q = w * outerCoeff outer inner p * innerCoeff inner q := by
  unfold weighted outerCoeff innerCoeff
  cases outer <;> cases inner <;> simp

theorem extraFirst_eq (c : AdiCoeffs n K) (d : Fin n) (p : GridIndex n) : extraFirst c d p = outerCoeff (c.first d) (c.innerFirst d) p := by
  unfold extraFirst outerCoeff
  cases c.first d <;> cases c.innerFirst d <;> rfl

theorem innerFirstAt_eq (c : AdiCoeffs n K) (d : Fin n) (p : GridIndex n) : innerFirstAt c d p = innerCoeff (c.innerFirst d) p := rfl

variable (g : AdiGrid n K)

/-- The entries of the matrix without the explicit conditions give the operator. -/
theorem entries_eq [IsStrictOrderedRing K] (c : AdiCoeffs n K) (d : Fin n) (v : GridIndex n → K) (p : GridIndex n) (hs : 4 ≤ g.size d) (hd : 0 < g.delta d) :
    g.defaultSub c d p * v (p.down d) + g.defaultDiag c d p * v p + g.defaultSuper c d p * v (p.up d) + c.zeroth.elim 0 (fun z => -z p / (n : K)) * v p =
      -partAt g c d v p := by
  have hz : c.zeroth.elim 0 (fun z => -z p / (n : K)) * v p = -(c.zeroth.elim 0 (fun z => z p) * v p / n) := by
    cases c.zeroth with
    | none => simp
    | some z => simp only [Option.elim_some]; ring
  have hd' := hd.ne'
  have h2 : (2 : K) ≠ 0 := two_ne_zero
  have hu : Function.update p d (p d + 1) = p.up d := rfl
  have hdn : Function.update p d (p d - 1) = p.down d := rfl
  have hup : (p d = g.size d - 1) ↔ (p d + 1 = g.size d) := by omega
  rw [hz]
  unfold partAt defaultSub defaultDiag defaultSuper
  simp only [Option.isNone_iff_eq_none, hup]
  by_cases h1 : g.lower d = none ∧ p d = 0
  · simp only [if_pos h1]
    rw [forwardFirst, hu, extraFirst_eq, innerFirstAt_eq, innerFirstAt_eq]
    field_simp
    ring
  · simp only [if_neg h1]
    by_cases h3 : g.upper d = none ∧ p d + 1 = g.size d
    · simp only [if_pos h3]
      rw [backwardFirst, hdn, extraFirst_eq, innerFirstAt_eq, innerFirstAt_eq]
      field_simp
      ring
    · simp only [if_neg h3]
      rw [innerSub, innerDiag, innerSuper]
      simp only [weighted_eq]
      rw [centralSecond, centralFirst, hu, hdn]
      field_simp
      ring

theorem mixed_eq [IsStrictOrderedRing K] (c : AdiCoeffs n K) (i j : Fin n) (v : GridIndex n → K) (p : GridIndex n) (hg : ProperGrid g) :
    g.mixed c i j v p = -mixedAt g c i j v p := by
  have hi := (hg i).2.ne'
  have hj := (hg j).2.ne'
  have h2 : (2 : K) ≠ 0 := two_ne_zero
  have hsi := (hg i).1
  have hsj := (hg j).1
  unfold Model.AdiGrid.mixed mixedAt onDefault
  have hupi : (p i = g.size i - 1) ↔ (p i + 1 = g.size i) := by omega
  have hupj : (p j = g.size j - 1) ↔ (p j + 1 = g.size j) := by omega
  simp only [Option.isNone_iff_eq_none, hupi, hupj, or_assoc]
  split_ifs with h
  · simp
  · simp only [weighted_eq, centralMixed, centralFirst, GridIndex.up, GridIndex.down]
    field_simp
    ring

variable {g}

theorem lo_eq (d : Fin n) : g.lo d = if g.lower d = none then 0 else 1 := by
  unfold lo; simp only [Option.isNone_iff_eq_none]
theorem hi_eq (d : Fin n) : g.hi d = if g.upper d = none then g.size d - 1 else g.size d - 2 := by
  unfold hi; simp only [Option.isNone_iff_eq_none]

/-- The inner points of a line. -/
theorem innerIn_iff (d : Fin n) (p : GridIndex n) (hs : 4 ≤ g.size d) : InnerIn g d p ↔ g.lo d ≤ p d ∧ p d ≤ g.hi d := by
  rw [lo_eq, hi_eq, InnerIn]
  by_cases h1 : g.lower d = none <;> by_cases h2 : g.upper d = none <;>
    simp only [h1, h2, if_true, if_false, ne_eq, not_true, not_false_iff, false_imp_iff, true_imp_iff, and_true, true_and] <;> omega

theorem lo_lt_hi (d : Fin n) (hs : 4 ≤ g.size d) : g.lo d < g.hi d := by
  rw [lo_eq, hi_eq]
  split_ifs <;> omega

/-- The boundary values of the line as the discretized conditions give them. -/
structure LineValues (g : AdiGrid n K) (t : K) (d : Fin n) (w : GridIndex n → K) (p : GridIndex n) : Prop where
  lower : g.lower d ≠ none → w (Function.update p d 0) =
    (g.lowerXi d t p).1 * w (Function.update p d 1) + (g.lowerXi d t p).2.1 * w (Function.update p d 2) + (g.lowerXi d t p).2.2
  upper : g.upper d ≠ none → w (Function.update p d (g.size d - 1)) =
    (g.upperXi d t p).1 * w (Function.update p d (g.size d - 2)) + (g.upperXi d t p).2.1 * w (Function.update p d (g.size d - 3)) + (g.upperXi d t p).2.2

theorem lineBc_iff [IsStrictOrderedRing K] (t : K) (d : Fin n) (w : GridIndex n → K) (p : GridIndex n) (hg : ProperGrid g) (hc : ProperConditions g t) :
    LineBc g t d w p ↔ LineValues g t d w p := by
  obtain ⟨hs, hd⟩ := hg d
  have hlow : ∀ f, g.lower d = some f → (LowerBc (fun k => (k : K) * g.delta d) (fun k => w (Function.update p d k)) (conditionAt (f t) (Function.update p d 0)) ↔
      w (Function.update p d 0) =
        (g.lowerXi d t p).1 * w (Function.update p d 1) + (g.lowerXi d t p).2.1 * w (Function.update p d 2) + (g.lowerXi d t p).2.2) := by
    intro f hf
    obtain ⟨y, hy, hiff⟩ := lower_iff (fun k => (k : K) * g.delta d) (fun k => w (Function.update p d k)) (by simpa using hd)
      (by push_cast; linarith) (conditionAt (f t) (Function.update p d 0)) (hc.lower d f _ hf)
    rw [hiff]
    have e1 : ((1 : ℕ) : K) * g.delta d - ((0 : ℕ) : K) * g.delta d = g.delta d := by push_cast; ring
    have e2 : ((2 : ℕ) : K) * g.delta d - ((1 : ℕ) : K) * g.delta d = g.delta d := by push_cast; ring
    simp only [e1, e2] at hy
    have : g.lowerXi d t p = y := by
      unfold lowerXi discretized bcAt lowerPoint
      rw [hf, Option.elim_some]
      unfold conditionAt at hy
      rw [hy]; rfl
    rw [this]
  have hupp : ∀ f, g.upper d = some f → (UpperBc (fun k => (k : K) * g.delta d) (fun k => w (Function.update p d k)) (g.size d - 3) (conditionAt (f t) (Function.update p d (g.size d - 1))) ↔
      w (Function.update p d (g.size d - 1)) =
        (g.upperXi d t p).1 * w (Function.update p d (g.size d - 2)) + (g.upperXi d t p).2.1 * w (Function.update p d (g.size d - 3)) + (g.upperXi d t p).2.2) := by
    intro f hf
    obtain ⟨y, hy, hiff⟩ := upper_iff (fun k => (k : K) * g.delta d) (fun k => w (Function.update p d k)) (g.size d - 3) (by push_cast; linarith)
      (by push_cast; linarith) (conditionAt (f t) (Function.update p d (g.size d - 1))) (hc.upper d f _ hf)
    rw [hiff]
    have e1 : ((g.size d - 3 + 2 : ℕ) : K) * g.delta d - ((g.size d - 3 + 1 : ℕ) : K) * g.delta d = g.delta d := by push_cast; ring
    have e2 : ((g.size d - 3 + 1 : ℕ) : K) * g.delta d - ((g.size d - 3 : ℕ) : K) * g.delta d = g.delta d := by push_cast; ring
    simp only [e1, e2] at hy
    have : g.upperXi d t p = y := by
      unfold upperXi discretized bcAt upperPoint
      rw [hf, Option.elim_some]
      unfold conditionAt at hy
      rw [hy]; rfl
    rw [this]
    have a1 : g.size d - 3 + 2 = g.size d - 1 := by omega
    have a2 : g.size d - 3 + 1 = g.size d - 2 := by omega
    rw [a1, a2]
  constructor
  · intro h
    refine ⟨fun hl => ?_, fun hu => ?_⟩
    · obtain ⟨f, hf⟩ := Option.ne_none_iff_exists'.1 hl
      exact (hlow f hf).1 (h.lower f hf)
    · obtain ⟨f, hf⟩ := Option.ne_none_iff_exists'.1 hu
      exact (hupp f hf).1 (h.upper f hf)
  · intro h
    exact ⟨fun f hf => (hlow f hf).2 (h.lower (by simp [hf])), fun f hf => (hupp f hf).2 (h.upper (by simp [hf]))⟩

/-- Without `beta` the discretized condition is the value. -/
theorem lowerXi_dirichlet (t : K) (d : Fin n) (p : GridIndex n) (hc : ProperConditions g t) (hb : g.noBeta d t = true) (e : K) (hl : g.lower d ≠ none) :
    (g.lowerXi d t p).1 = 0 ∧ (g.lowerXi d t p).2.1 = 0 ∧ g.lowerDirichlet d t p e = e * (g.lowerXi d t p).2.2 := by
  obtain ⟨f, hf⟩ := Option.ne_none_iff_exists'.1 hl
  unfold noBeta at hb
  rw [hf, Bool.and_eq_true] at hb
  have hb : (f t).beta = none := by simpa using hb.1
  have hp := hc.lower d f (lowerPoint d p) hf
  unfold conditionAt at hp
  rw [hb] at hp
  unfold lowerXi lowerDirichlet discretized bcAt
  simp only [hf, Option.elim_some]
  rw [hb]
  cases ha : (f t).alpha with
  | none => rw [ha] at hp; exact hp.elim
  | some a => simp [discretizeBoundary, mul_div_assoc]

theorem upperXi_dirichlet (t : K) (d : Fin n) (p : GridIndex n) (hc : ProperConditions g t) (hb : g.noBeta d t = true) (e : K) (hl : g.upper d ≠ none) :
    (g.upperXi d t p).1 = 0 ∧ (g.upperXi d t p).2.1 = 0 ∧ g.upperDirichlet d t p e = e * (g.upperXi d t p).2.2 := by
  obtain ⟨f, hf⟩ := Option.ne_none_iff_exists'.1 hl
  unfold noBeta at hb
  rw [hf, Bool.and_eq_true] at hb
  have hb : (f t).beta = none := by simpa using hb.2
  have hp := hc.upper d f (g.upperPoint d p) hf
  unfold conditionAt at hp
  rw [hb] at hp
  unfold upperXi upperDirichlet discretized bcAt
  simp only [hf, Option.elim_some]
  rw [hb]
  cases ha : (f t).alpha with
  | none => rw [ha] at hp; exact hp.elim
  | some a => simp [discretizeBoundary, mul_div_assoc]

/-- The boundary contributions of the code, with or without the shortcut. -/
theorem entries_robin (c : K → AdiCoeffs n K) (t : K) (d : Fin n) (p : GridIndex n) (hc : ProperConditions g t) (hs : 4 ≤ g.size d) :
    g.super c t d p = g.defaultSuper (c t) d p + (if p d = g.lo d then g.defaultSub (c t) d p * (g.lowerXi d t p).2.1 else 0) ∧
    g.sub c t d p = g.defaultSub (c t) d p + (if p d = g.hi d then g.defaultSuper (c t) d p * (g.upperXi d t p).2.1 else 0) ∧
    g.diag c t d p = g.defaultDiag (c t) d p + (if p d = g.lo d then g.defaultSub (c t) d p * (g.lowerXi d t p).1 else 0) +
      (if p d = g.hi d then g.defaultSuper (c t) d p * (g.upperXi d t p).1 else 0) + (c t).zeroth.elim 0 (fun z => -z p / n) ∧
    g.inhomog c t d p = (if p d = g.lo d then g.defaultSub (c t) d p * (g.lowerXi d t p).2.2 else 0) +
      (if p d = g.hi d then g.defaultSuper (c t) d p * (g.upperXi d t p).2.2 else 0) := by
  have hlh := lo_lt_hi (g := g) d hs
  have hlnone : g.lower d = none → g.lowerXi d t p = (0, 0, 0) := by intro h; unfold lowerXi; rw [h]; rfl
  have hunone : g.upper d = none → g.upperXi d t p = (0, 0, 0) := by intro h; unfold upperXi; rw [h]; rfl
  unfold Model.AdiGrid.super Model.AdiGrid.sub Model.AdiGrid.diag Model.AdiGrid.inhomog
  by_cases hb : g.noBeta d t = true
  · simp only [hb, if_true]
    have kl : ∀ e, (g.lowerXi d t p).1 = 0 ∧ (g.lowerXi d t p).2.1 = 0 ∧ g.lowerDirichlet d t p e = e * (g.lowerXi d t p).2.2 := by
      intro e
      by_cases hl : g.lower d = none
      · rw [hlnone hl]; unfold lowerDirichlet; rw [hl]; simp
      · exact lowerXi_dirichlet t d p hc hb e hl
    have ku : ∀ e, (g.upperXi d t p).1 = 0 ∧ (g.upperXi d t p).2.1 = 0 ∧ g.upperDirichlet d t p e = e * (g.upperXi d t p).2.2 := by
      intro e
      by_cases hl : g.upper d = none
      · rw [hunone hl]; unfold upperDirichlet; rw [hl]; simp
      · exact upperXi_dirichlet t d p hc hb e hl
    rw [(kl 0).1, (kl 0).2.1, (ku 0).1, (ku 0).2.1, (kl _).2.2, (ku _).2.2]
    simp only [mul_zero, ite_self, add_zero, true_and]
    by_cases h1 : p d = g.lo d
    · rw [if_pos h1, if_pos h1, if_neg (show ¬ p d = g.hi d by omega), add_zero]
    · rw [if_neg h1, if_neg h1, zero_add]
  · simp only [hb, Bool.false_eq_true, if_false, true_and]
    by_cases h1 : p d = g.lo d
    · rw [if_pos h1, if_pos h1, if_neg (show ¬ p d = g.hi d by omega), add_zero]
    · rw [if_neg h1, if_neg h1, zero_add]

/-- A row of the matrix of a dimension with the inhomogeneous term is minus the operator, for the extension by the boundary conditions. -/
theorem row_eq [IsStrictOrderedRing K] (c : K → AdiCoeffs n K) (t : K) (d : Fin n) (v w : GridIndex n → K) (p : GridIndex n) (hg : ProperGrid g)
    (hc : ProperConditions g t) (hin : InnerIn g d p) (hw : LineValues g t d w p)
    (hv : ∀ k, g.lo d ≤ k → k ≤ g.hi d → v (Function.update p d k) = w (Function.update p d k)) :
    g.applyTridiag c t d v p + g.inhomog c t d p = -partAt g (c t) d w p := by
  obtain ⟨hs, hd⟩ := hg d
  rw [← entries_eq g (c t) d w p hs hd]
  obtain ⟨e1, e2, e3, e4⟩ := entries_robin (g := g) c t d p hc hs
  have hlh := lo_lt_hi (g := g) d hs
  obtain ⟨hl1, hl2⟩ := (innerIn_iff d p hs).1 hin
  have hvp : v p = w p := by
    have := hv (p d) hl1 hl2
    rwa [Function.update_eq_self] at this
  unfold applyTridiag
  rw [e1, e2, e3, e4, hvp]
  generalize hgz : (c t).zeroth.elim 0 (fun z => -z p / (n : K)) = Z
  have hdown : p d ≠ g.lo d → v (p.down d) = w (p.down d) := fun h => hv (p d - 1) (by omega) (by omega)
  have hup : p d ≠ g.hi d → v (p.up d) = w (p.up d) := fun h => hv (p d + 1) (by omega) (by omega)
  -- the lower end
  have low : p d = g.lo d → g.defaultSub (c t) d p * w (p.down d) =
      g.defaultSub (c t) d p * ((g.lowerXi d t p).1 * w p + (g.lowerXi d t p).2.1 * w (p.up d) + (g.lowerXi d t p).2.2) := by
    intro h
    by_cases hn : g.lower d = none
    · rw [lo_eq, if_pos hn] at h
      have : g.defaultSub (c t) d p = 0 := by unfold defaultSub; rw [if_pos ⟨by simp [hn], h⟩]
      rw [this]; ring
    · rw [lo_eq, if_neg hn] at h
      have a0 : Function.update p d 0 = p.down d := by unfold GridIndex.down; rw [h]
      have a1 : Function.update p d 1 = p := by rw [← h, Function.update_eq_self]
      have a2 : Function.update p d 2 = p.up d := by unfold GridIndex.up; rw [h]
      have := hw.lower hn
      rw [a0, a1, a2] at this
      rw [this]
  have upp : p d = g.hi d → g.defaultSuper (c t) d p * w (p.up d) =
      g.defaultSuper (c t) d p * ((g.upperXi d t p).1 * w p + (g.upperXi d t p).2.1 * w (p.down d) + (g.upperXi d t p).2.2) := by
    intro h
    by_cases hn : g.upper d = none
    · rw [hi_eq, if_pos hn] at h
      have hne : ¬ ((g.lower d).isNone = true ∧ p d = 0) := by rintro ⟨-, h'⟩; omega
      have : g.defaultSuper (c t) d p = 0 := by unfold defaultSuper; rw [if_neg hne, if_pos ⟨by simp [hn], h⟩]
      rw [this]; ring
    · rw [hi_eq, if_neg hn] at h
      have a0 : Function.update p d (g.size d - 1) = p.up d := by unfold GridIndex.up; congr 1; omega
      have a1 : Function.update p d (g.size d - 2) = p := by rw [← h, Function.update_eq_self]
      have a2 : Function.update p d (g.size d - 3) = p.down d := by unfold GridIndex.down; congr 1; omega
      have := hw.upper hn
      rw [a0, a1, a2] at this
      rw [this]
  by_cases h1 : p d = g.lo d
  · have h2 : ¬ p d = g.hi d := by omega
    simp only [if_pos h1, if_neg h2]
    rw [low h1, hup h2]; ring
  · simp only [if_neg h1]
    by_cases h2 : p d = g.hi d
    · simp only [if_pos h2]
      rw [upp h2, hdown h1]; ring
    · simp only [if_neg h2]
      rw [hdown h1, hup h2]; ring

/-! ## Boundaries -/

theorem appendBoundary_inner (t : K) (v : GridIndex n → K) (d : Fin n) (p : GridIndex n) (hs : 4 ≤ g.size d) (h : InnerIn g d p) :
    g.appendBoundary t v d p = v p := by
  obtain ⟨h1, h2, h3⟩ := h
  unfold appendBoundary
  rw [if_neg, if_neg]
  · rintro ⟨a, b⟩; exact h3 (by intro hn; simp [hn] at a) (by omega)
  · rintro ⟨a, b⟩; exact h2 (by intro hn; simp [hn] at a) b

theorem appendList_inner (t : K) (l : List (Fin n)) (v : GridIndex n → K) (p : GridIndex n) (hs : ∀ d, 4 ≤ g.size d) (h : ∀ d ∈ l, InnerIn g d p) :
    l.foldl (g.appendBoundary t) v p = v p := by
  induction l generalizing v with
  | nil => rfl
  | cons d l ih =>
    rw [List.foldl_cons, ih _ (fun d' hd' => h d' (List.mem_cons_of_mem _ hd')), appendBoundary_inner t v d p (hs d) (h d List.mem_cons_self)]

theorem finRange_split (d : Fin n) : ∃ l1 l2, List.finRange n = l1 ++ d :: l2 ∧ ∀ d' ∈ l2, d < d' := by
  obtain ⟨l1, l2, h⟩ := List.append_of_mem (List.mem_finRange d)
  refine ⟨l1, l2, h, ?_⟩
  have := List.pairwise_lt_finRange n
  rw [h, List.pairwise_append] at this
  exact fun d' hd' => (List.pairwise_cons.1 this.2.1).1 d' hd'

/-- The appended boundaries satisfy the conditions. -/
theorem append_lineValues (t : K) (v : GridIndex n → K) (d : Fin n) (p : GridIndex n) (hs : ∀ d, 4 ≤ g.size d) (hp : ∀ d', d < d' → InnerIn g d' p) :
    LineValues g t d (g.appendBoundaries t v) p := by
  obtain ⟨l1, l2, h, hl⟩ := finRange_split d
  have key : ∀ k, g.appendBoundaries t v (Function.update p d k) =
      g.appendBoundary t (l1.foldl (g.appendBoundary t) v) d (Function.update p d k) := by
    intro k
    unfold appendBoundaries
    rw [h, List.foldl_append, List.foldl_cons]
    refine appendList_inner t l2 _ _ hs (fun d' hd' => ?_)
    have hne : d' ≠ d := (hl d' hd').ne'
    have := hp d' (hl d' hd')
    unfold InnerIn at this ⊢
    rwa [Function.update_of_ne hne]
  generalize hu : l1.foldl (g.appendBoundary t) v = u at key
  have hsd := hs d
  have mid : ∀ k, k ≠ 0 → k ≠ g.size d - 1 → g.appendBoundaries t v (Function.update p d k) = u (Function.update p d k) := by
    intro k h0 h1
    rw [key, appendBoundary, if_neg, if_neg]
    · rintro ⟨-, a⟩; rw [Function.update_self] at a; exact h1 a
    · rintro ⟨-, a⟩; rw [Function.update_self] at a; exact h0 a
  constructor
  · intro hn
    rw [mid 1 (by omega) (by omega), mid 2 (by omega) (by omega), key, appendBoundary, if_pos ⟨Option.isSome_iff_ne_none.2 hn, Function.update_self ..⟩]
    have e : g.lowerXi d t (Function.update p d 0) = g.lowerXi d t p := by
      unfold lowerXi lowerPoint; rw [Function.update_idem]
    simp only [Function.update_idem, e]
  · intro hn
    have h0 : ¬ ((g.lower d).isSome = true ∧ Function.update p d (g.size d - 1) d = 0) := by
      rintro ⟨-, a⟩; rw [Function.update_self] at a; omega
    rw [mid (g.size d - 2) (by omega) (by omega), mid (g.size d - 3) (by omega) (by omega), key, appendBoundary, if_neg h0,
      if_pos ⟨Option.isSome_iff_ne_none.2 hn, Function.update_self ..⟩]
    have e : g.upperXi d t (Function.update p d (g.size d - 1)) = g.upperXi d t p := by
      unfold upperXi upperPoint; rw [Function.update_idem]
    simp only [Function.update_idem, e]

theorem append_extends [IsStrictOrderedRing K] (t : K) (v : GridIndex n → K) (hg : ProperGrid g) (hc : ProperConditions g t) :
    Extends g t v (g.appendBoundaries t v) where
  inner := fun p hp => appendList_inner t _ v p (fun d => (hg d).1) (fun d _ => hp d)
  bc := fun d p _ hp => (lineBc_iff t d _ p hg hc).2 (append_lineValues t v d p (fun d => (hg d).1) hp)

/-! ## The implicit substeps -/

/-- The lines of the implicit substep can be solved. -/
def LinesSolvable (g : AdiGrid n K) (c : K → AdiCoeffs n K) (theta t1 t2 : K) : Prop :=
  ∀ d p, Inner g p → ∀ rhs : List K, rhs.length = g.hi d + 1 - g.lo d → ∃ z, g.solveLine c theta t1 t2 d p rhs = some z

theorem inner_update {p : GridIndex n} (d : Fin n) (k : Nat) (hs : 4 ≤ g.size d) (hp : Inner g p) (h1 : g.lo d ≤ k) (h2 : k ≤ g.hi d) :
    Inner g (Function.update p d k) := by
  intro d'
  by_cases h : d' = d
  · subst h
    rw [innerIn_iff _ _ hs, Function.update_self]
    exact ⟨h1, h2⟩
  · have := hp d'
    unfold InnerIn at this ⊢
    rwa [Function.update_of_ne h]

/-- The list of rows of a line. -/
theorem solveLine_rows (c : K → AdiCoeffs n K) (theta t1 t2 : K) (d : Fin n) (p : GridIndex n) (r : GridIndex n → K) :
    g.solveLine c theta t1 t2 d p (((List.range (g.hi d + 1 - g.lo d)).map (fun k => Function.update p d (g.lo d + k))).map r) =
      thomas 0 0 ((List.range (g.hi d + 1 - g.lo d)).map (fun k => (
        -theta * g.super c t2 d (Function.update p d (g.lo d + k)) * (t2 - t1),
        1 - theta * g.diag c t2 d (Function.update p d (g.lo d + k)) * (t2 - t1),
        -theta * g.sub c t2 d (Function.update p d (g.lo d + k)) * (t2 - t1),
        r (Function.update p d (g.lo d + k))))) := by
  unfold solveLine tridiagonalSolve
  simp only [List.map_map, zip_mapRange, Function.comp_def]

theorem correction_solves [IsStrictOrderedRing K] (c : K → AdiCoeffs n K) (theta t1 t2 : K) (e y : GridIndex n → K) (d : Fin n) (p : GridIndex n)
    (hg : ProperGrid g) (hp : Inner g p) (hsol : LinesSolvable g c theta t1 t2) :
    g.correction c theta t1 t2 e y d p - theta * (t2 - t1) * g.applyTridiag c t2 d (g.correction c theta t1 t2 e y d) p =
      y p - theta * e p + theta * (g.inhomog c t2 d p - g.inhomog c t1 d p) * (t2 - t1) := by
  have hs := (hg d).1
  have hlh := lo_lt_hi (g := g) d hs
  obtain ⟨h1, h2⟩ := (innerIn_iff d p hs).1 (hp d)
  set r : GridIndex n → K := fun q => y q - theta * e q + theta * (g.inhomog c t2 d q - g.inhomog c t1 d q) * (t2 - t1) with hr
  obtain ⟨z, hz⟩ := hsol d p hp (((List.range (g.hi d + 1 - g.lo d)).map (fun k => Function.update p d (g.lo d + k))).map r) (by simp)
  have hval : ∀ k, g.lo d ≤ k → g.correction c theta t1 t2 e y d (Function.update p d k) = z.getD (k - g.lo d) 0 := by
    intro k hk
    unfold correction
    have hline : g.solveLine c theta t1 t2 d (Function.update p d k) = g.solveLine c theta t1 t2 d p := by
      unfold solveLine; simp only [Function.update_idem]
    simp only [Function.update_idem, hline, Function.update_self, ← hr, hz, Option.getD_some]
  rw [solveLine_rows] at hz
  have hlen := thomas_length _ _ _ _ hz
  rw [List.length_map, List.length_range] at hlen
  have hrow := thomas_solves _ _ _ _ hz (p d - g.lo d) _ _ _ _ (by
    rw [List.getElem?_map, List.getElem?_range (by omega), Option.map_some])
  have eself : Function.update p d (g.lo d + (p d - g.lo d)) = p := by
    rw [Nat.add_sub_cancel' h1, Function.update_eq_self]
  rw [eself] at hrow
  have hcp : g.correction c theta t1 t2 e y d p = z.getD (p d - g.lo d) 0 := by
    have := hval (p d) h1
    rwa [Function.update_eq_self] at this
  unfold applyTridiag
  rw [hcp]
  by_cases ha : p d = g.lo d
  · rw [if_pos ha, if_neg (show ¬ p d = g.hi d by omega)]
    rw [if_pos (by omega)] at hrow
    have hup : g.correction c theta t1 t2 e y d (p.up d) = z.getD (p d - g.lo d + 1) 0 := by
      have := hval (p d + 1) (by omega)
      rwa [show p d + 1 - g.lo d = p d - g.lo d + 1 by omega] at this
    rw [hup]
    simp only [zero_mul, sub_zero, mul_zero, zero_add] at hrow
    linear_combination hrow
  · have hdn : g.correction c theta t1 t2 e y d (p.down d) = z.getD (p d - g.lo d - 1) 0 := by
      have := hval (p d - 1) (by omega)
      rwa [show p d - 1 - g.lo d = p d - g.lo d - 1 by omega] at this
    rw [if_neg (by omega)] at hrow
    rw [if_neg ha, hdn]
    by_cases hb : p d = g.hi d
    · rw [if_pos hb]
      have : z.getD (p d - g.lo d + 1) 0 = 0 := by
        rw [List.getD_eq_default]; omega
      rw [this] at hrow
      linear_combination hrow
    · rw [if_neg hb]
      have hup : g.correction c theta t1 t2 e y d (p.up d) = z.getD (p d - g.lo d + 1) 0 := by
        have := hval (p d + 1) (by omega)
        rwa [show p d + 1 - g.lo d = p d - g.lo d + 1 by omega] at this
      rw [hup]
      linear_combination hrow

/-- The correction is the only solution. -/
theorem correction_unique [IsStrictOrderedRing K] (c : K → AdiCoeffs n K) (theta t1 t2 : K) (e y u : GridIndex n → K) (d : Fin n) (p : GridIndex n)
    (hg : ProperGrid g) (hp : Inner g p) (hsol : LinesSolvable g c theta t1 t2)
    (hu : ∀ k, g.lo d ≤ k → k ≤ g.hi d → u (Function.update p d k) - theta * (t2 - t1) * g.applyTridiag c t2 d u (Function.update p d k) =
      y (Function.update p d k) - theta * e (Function.update p d k) +
        theta * (g.inhomog c t2 d (Function.update p d k) - g.inhomog c t1 d (Function.update p d k)) * (t2 - t1)) :
    g.correction c theta t1 t2 e y d p = u p := by
  have hs := (hg d).1
  have hlh := lo_lt_hi (g := g) d hs
  obtain ⟨h1, h2⟩ := (innerIn_iff d p hs).1 (hp d)
  set r : GridIndex n → K := fun q => y q - theta * e q + theta * (g.inhomog c t2 d q - g.inhomog c t1 d q) * (t2 - t1) with hr
  obtain ⟨z, hz⟩ := hsol d p hp (((List.range (g.hi d + 1 - g.lo d)).map (fun k => Function.update p d (g.lo d + k))).map r) (by simp)
  have hcp : g.correction c theta t1 t2 e y d p = z.getD (p d - g.lo d) 0 := by
    unfold correction
    simp only [← hr, hz, Option.getD_some]
  rw [hcp]
  rw [solveLine_rows] at hz
  have := thomas_unique _ _ _ _ hz (fun k => if k < g.hi d + 1 - g.lo d then u (Function.update p d (g.lo d + k)) else 0) 0 (by simp)
    (Or.inr (by simp)) (by
      intro i s dd b rr hi
      have hil : i < g.hi d + 1 - g.lo d := by
        by_contra hcon
        rw [List.getElem?_eq_none (by simp; omega)] at hi
        simp at hi
      rw [List.getElem?_map, List.getElem?_range hil, Option.map_some] at hi
      simp only [Option.some.injEq, Prod.mk.injEq] at hi
      obtain ⟨rfl, rfl, rfl, rfl⟩ := hi
      have hrow := hu (g.lo d + i) (by omega) (by omega)
      unfold applyTridiag at hrow
      simp only [Function.update_self, GridIndex.up, GridIndex.down, Function.update_idem] at hrow
      rw [if_pos hil]
      simp only [hr]
      by_cases hi0 : i = 0
      · subst hi0
        rw [if_pos (by omega), if_neg (by omega)] at hrow
        rw [if_pos rfl, if_pos (by omega), ← hrow]
        rw [show g.lo d + 0 + 1 = g.lo d + (0 + 1) by omega]
        ring
      · rw [if_neg (by omega)] at hrow
        rw [if_neg hi0, if_pos (by omega), ← hrow]
        rw [show g.lo d + i - 1 = g.lo d + (i - 1) by omega]
        by_cases hb : g.lo d + i = g.hi d
        · rw [if_pos hb, if_neg (by omega)]; ring
        · rw [if_neg hb, if_pos (by omega), show g.lo d + i + 1 = g.lo d + (i + 1) by omega]; ring) (p d - g.lo d) (by simp; omega)
  rw [this, if_pos (by omega), Nat.add_sub_cancel' h1, Function.update_eq_self]

end Lemmas
