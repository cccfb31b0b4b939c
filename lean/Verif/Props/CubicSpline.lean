import Verif.Lemmas.CubicSpline
import Verif.Props.ConstantForward
import Verif.Lemmas.Piecewise
import Mathlib.Analysis.Calculus.Deriv.Mul
import Mathlib.Analysis.Calculus.Deriv.Add
import Mathlib.Analysis.Calculus.Deriv.Comp
import Mathlib.Analysis.Calculus.Deriv.Pow

/-! # C38 Cubic splines -/

namespace Spec

/-- `s` is a cubic spline through the data with the first derivative `s1` and the second derivative `s2` between the first and the
last knot: it takes the data at the knots, is twice continuously differentiable, and the second derivative is linear between
neighbouring knots. -/
structure IsCubicSpline (xs ys : List ℝ) (a b : ℝ) (s s1 s2 : ℝ → ℝ) : Prop where
  knots : ∀ (i : Nat) (x y : ℝ), xs[i]? = some x → ys[i]? = some y → s x = y
  first : ∀ t ∈ Set.Icc a b, HasDerivWithinAt s (s1 t) (Set.Icc a b) t
  second : ∀ t ∈ Set.Icc a b, HasDerivWithinAt s1 (s2 t) (Set.Icc a b) t
  continuous : ContinuousOn s2 (Set.Icc a b)
  cubic : ∀ (i : Nat) (x0 x1 : ℝ), xs[i]? = some x0 → xs[i + 1]? = some x1 →
    ∃ p q : ℝ, ∀ t ∈ Set.Icc x0 x1, s2 t = p + q * t

end Spec

namespace Lemmas
open Model

section glue
variable (x : ℕ → ℝ)

theorem glue_exists (q : ℕ → ℝ → ℝ) (n : ℕ) (hx : ∀ k, k < n → x k < x (k + 1))
    (hm : ∀ k, k + 1 < n → q k (x (k + 1)) = q (k + 1) (x (k + 1))) :
    ∃ g : ℝ → ℝ, ∀ k, k < n → ∀ t ∈ Set.Icc (x k) (x (k + 1)), g t = q k t := by
  induction n with
  | zero => exact ⟨fun _ => 0, fun k hk => by omega⟩
  | succ n ih =>
    obtain ⟨g, hg⟩ := ih (fun k hk => hx k (by omega)) (fun k hk => hm k (by omega))
    have hmono : ∀ j k, j ≤ k → k ≤ n → x j ≤ x k := by
      intro j k hjk hk
      induction k, hjk using Nat.le_induction with
      | base => exact le_rfl
      | succ k hjk ih => exact (ih (by omega)).trans (hx k (by omega)).le
    refine ⟨fun t => if t < x n then g t else q n t, ?_⟩
    intro k hk t ht
    by_cases hkn : k = n
    · subst hkn
      simp only [if_neg (not_lt.2 ht.1)]
    · by_cases hlt : t < x n
      · simp only [if_pos hlt]
        exact hg k (by omega) t ht
      · simp only [if_neg hlt]
        have h1 : x (k + 1) ≤ x n := hmono _ _ (by omega) le_rfl
        have h2 : t = x n := le_antisymm (ht.2.trans h1) (not_lt.1 hlt)
        have h3 : k + 1 = n := by
          by_contra hne
          have := hx (k + 1) (by omega)
          have := hmono (k + 1 + 1) n (by omega) le_rfl
          have := ht.2
          linarith
        subst h3
        rw [h2]
        exact (hm k (by omega)).symm

theorem glue_deriv (f f' : ℝ → ℝ) (p p' : ℕ → ℝ → ℝ) (n : ℕ) (hx : ∀ k, k < n → x k < x (k + 1))
    (hp : ∀ k, k < n → ∀ t, HasDerivAt (p k) (p' k t) t)
    (hf : ∀ k, k < n → ∀ t ∈ Set.Icc (x k) (x (k + 1)), f t = p k t)
    (hf' : ∀ k, k < n → ∀ t ∈ Set.Icc (x k) (x (k + 1)), f' t = p' k t) (hn : 0 < n) :
    ∀ t ∈ Set.Icc (x 0) (x n), HasDerivWithinAt f (f' t) (Set.Icc (x 0) (x n)) t := by
  have piece : ∀ k, k < n → ∀ t ∈ Set.Icc (x k) (x (k + 1)), HasDerivWithinAt f (f' t) (Set.Icc (x k) (x (k + 1))) t := by
    intro k hk t ht
    rw [hf' k hk t ht]
    exact (hp k hk t).hasDerivWithinAt.congr (fun s hs => hf k hk s hs) (hf k hk t ht)
  have hmono : ∀ k, k ≤ n → x 0 ≤ x k := by
    intro k hk
    induction k with
    | zero => exact le_rfl
    | succ k ih => exact (ih (by omega)).trans (hx k (by omega)).le
  have main : ∀ k, 0 < k → k ≤ n → ∀ t ∈ Set.Icc (x 0) (x k), HasDerivWithinAt f (f' t) (Set.Icc (x 0) (x k)) t := by
    intro k hk0
    induction k, hk0 using Nat.le_induction with
    | base =>
      intro hk t ht
      exact piece 0 (by omega) t ht
    | succ k hk0 ih =>
      intro hk t ht
      have e : Set.Icc (x 0) (x (k + 1)) = Set.Icc (x 0) (x k) ∪ Set.Icc (x k) (x (k + 1)) :=
        (Set.Icc_union_Icc_eq_Icc (hmono k (by omega)) (hx k (by omega)).le).symm
      rw [e]
      have off : ∀ a b : ℝ, t ∉ Set.Icc a b → HasDerivWithinAt f (f' t) (Set.Icc a b) t := by
        intro a b hab
        exact HasFDerivWithinAt.of_notMem_closure (by rwa [isClosed_Icc.closure_eq])
      apply HasDerivWithinAt.union
      · by_cases h : t ∈ Set.Icc (x 0) (x k)
        · exact ih (by omega) t h
        · exact off _ _ h
      · by_cases h : t ∈ Set.Icc (x k) (x (k + 1))
        · exact piece k (by omega) t h
        · exact off _ _ h
  exact main n hn le_rfl

theorem glue_continuous (f : ℝ → ℝ) (p : ℕ → ℝ → ℝ) (n : ℕ) (hx : ∀ k, k < n → x k < x (k + 1))
    (hp : ∀ k, Continuous (p k)) (hf : ∀ k, k < n → ∀ t ∈ Set.Icc (x k) (x (k + 1)), f t = p k t) (hn : 0 < n) :
    ContinuousOn f (Set.Icc (x 0) (x n)) := by
  have piece : ∀ k, k < n → ContinuousOn f (Set.Icc (x k) (x (k + 1))) :=
    fun k hk => (hp k).continuousOn.congr (fun s hs => hf k hk s hs)
  have hmono : ∀ k, k ≤ n → x 0 ≤ x k := by
    intro k hk
    induction k with
    | zero => exact le_rfl
    | succ k ih => exact (ih (by omega)).trans (hx k (by omega)).le
  have main : ∀ k, 0 < k → k ≤ n → ContinuousOn f (Set.Icc (x 0) (x k)) := by
    intro k hk0
    induction k, hk0 using Nat.le_induction with
    | base => exact fun hk => piece 0 (by omega)
    | succ k hk0 ih =>
      intro hk
      rw [← Set.Icc_union_Icc_eq_Icc (hmono k (by omega)) (hx k (by omega)).le]
      exact (ih (by omega)).union_of_isClosed (piece k (by omega)) isClosed_Icc isClosed_Icc
  exact main n hn le_rfl

end glue

/-- The cubic on one interval as the code evaluates it. -/
noncomputable def cubicPiece (x0 x1 y0 y1 c0 c1 x : ℝ) : ℝ :=
  let dx := x1 - x0
  let t := (x - x0) / dx
  y0 + t * (y1 - y0) + dx * dx * (((t + 1) * c1 * 2 - (t - 2) * c0 * 2) * t * (t - 1) / 6)

noncomputable def cubicPiece1 (x0 x1 y0 y1 c0 c1 x : ℝ) : ℝ :=
  let dx := x1 - x0
  let t := (x - x0) / dx
  (y1 - y0) / dx + dx * (c1 * (3 * t ^ 2 - 1) - c0 * (3 * t ^ 2 - 6 * t + 2)) / 3

noncomputable def cubicPiece2 (x0 x1 c0 c1 x : ℝ) : ℝ :=
  let t := (x - x0) / (x1 - x0)
  2 * (c1 * t + c0 * (1 - t))

theorem cubicPiece_deriv (x0 x1 y0 y1 c0 c1 x : ℝ) (h : x0 < x1) :
    HasDerivAt (cubicPiece x0 x1 y0 y1 c0 c1) (cubicPiece1 x0 x1 y0 y1 c0 c1 x) x := by
  have hd : x1 - x0 ≠ 0 := (sub_pos.2 h).ne'
  have dt : HasDerivAt (fun x : ℝ => (x - x0) / (x1 - x0)) (1 / (x1 - x0)) x := ((hasDerivAt_id x).sub_const x0).div_const _
  unfold cubicPiece cubicPiece1
  simp only
  refine HasDerivAt.congr_deriv
    (((dt.mul_const (y1 - y0)).const_add y0).add (((((((dt.add_const 1).mul_const c1).mul_const 2).sub
      (((dt.sub_const 2).mul_const c0).mul_const 2)).mul dt).mul (dt.sub_const 1)).div_const 6 |>.const_mul
        ((x1 - x0) * (x1 - x0)))) ?_
  simp only [Pi.sub_apply, Pi.mul_apply, Pi.add_apply]
  field_simp
  ring

theorem cubicPiece1_deriv (x0 x1 y0 y1 c0 c1 x : ℝ) (h : x0 < x1) :
    HasDerivAt (cubicPiece1 x0 x1 y0 y1 c0 c1) (cubicPiece2 x0 x1 c0 c1 x) x := by
  have hd : x1 - x0 ≠ 0 := (sub_pos.2 h).ne'
  have dt : HasDerivAt (fun x : ℝ => (x - x0) / (x1 - x0)) (1 / (x1 - x0)) x := ((hasDerivAt_id x).sub_const x0).div_const _
  unfold cubicPiece1 cubicPiece2
  simp only
  refine HasDerivAt.congr_deriv
    (((((((dt.pow 2).const_mul 3).sub_const 1).const_mul c1).sub (((((dt.pow 2).const_mul 3).sub (dt.const_mul 6)).add_const
      2).const_mul c0)).const_mul (x1 - x0)).div_const 3 |>.const_add ((y1 - y0) / (x1 - x0))) ?_
  simp only [Nat.cast_ofNat, Nat.add_one_sub_one, pow_one]
  field_simp
  ring

theorem cubicPiece2_continuous (x0 x1 c0 c1 : ℝ) : Continuous (cubicPiece2 x0 x1 c0 c1) := by
  unfold cubicPiece2
  fun_prop


section evaluate
variable (xs ys cs : List ℝ) (m : Nat) (hx : xs.length = m + 2) (hs : xs.Pairwise (· < ·))

/-- The cubic of interval `k`. -/
noncomputable def pieceAt (k : Nat) : ℝ → ℝ :=
  cubicPiece (xs.getD k 0) (xs.getD (k + 1) 0) (ys.getD k 0) (ys.getD (k + 1) 0) (cs.getD k 0) (cs.getD (k + 1) 0)

noncomputable def pieceAt1 (k : Nat) : ℝ → ℝ :=
  cubicPiece1 (xs.getD k 0) (xs.getD (k + 1) 0) (ys.getD k 0) (ys.getD (k + 1) 0) (cs.getD k 0) (cs.getD (k + 1) 0)

noncomputable def pieceAt2 (k : Nat) : ℝ → ℝ :=
  cubicPiece2 (xs.getD k 0) (xs.getD (k + 1) 0) (cs.getD k 0) (cs.getD (k + 1) 0)

include hx hs in
theorem strict_getD (i j : Nat) (hij : i < j) (hj : j ≤ m + 1) : xs.getD i 0 < xs.getD j 0 := by
  have := List.pairwise_iff_getElem.1 hs i j (by omega) (by omega) hij
  rwa [List.getElem_eq_getD (h := by omega) 0, List.getElem_eq_getD (h := by omega) 0] at this

include hx hs in
theorem le_getD (i j : Nat) (hij : i ≤ j) (hj : j ≤ m + 1) : xs.getD i 0 ≤ xs.getD j 0 := by
  rcases hij.eq_or_lt with e | e
  · rw [e]
  · exact (strict_getD xs m hx hs i j e hj).le

include hx hs in
theorem gap_pos (i : Nat) (hi : i ≤ m) : 0 < gap xs i :=
  sub_pos.2 (strict_getD xs m hx hs i (i + 1) (by omega) (by omega))

include hx hs in
theorem upperBound_eq : xs.foldl max (xs.headD 0) = xs.getD (m + 1) 0 := by
  have h' := hs.imp (S := (· ≤ ·)) le_of_lt
  rcases xs with _ | ⟨a, l⟩
  · simp at hx
  · simp only [List.headD_cons, List.foldl_cons, max_self]
    rw [foldl_max_sorted a l h', List.getLast_eq_getElem, List.getElem_eq_getD (h := by simp) 0]
    rw [hx]; rfl

include hx hs in
theorem lowerBound_eq : xs.foldl min (xs.headD 0) = xs.getD 0 0 := by
  have h' := hs.imp (S := (· ≤ ·)) le_of_lt
  rcases xs with _ | ⟨a, l⟩
  · simp at hx
  · simp only [List.headD_cons, List.foldl_cons, min_self]
    rw [foldl_min_sorted a l h']; rfl

include hx hs in
theorem searchRight_at (k : Nat) (hk : k ≤ m + 2) (t : ℝ) (h0 : 1 ≤ k → xs.getD (k - 1) 0 ≤ t)
    (h1 : k ≤ m + 1 → t < xs.getD k 0) : searchRight xs t = k := by
  apply searchRight_eq xs (hs.imp le_of_lt) t k (by omega)
  · intro a hk' ha
    rw [← getD_of_some xs _ a ha]
    exact h0 hk'
  · intro a ha
    rw [← getD_of_some xs _ a ha]
    apply h1
    by_contra h
    rw [List.getElem?_eq_none (by omega)] at ha
    simp at ha

theorem slice_eq (tpu : Bool) : (if tpu = true then getSliceTpu else getSlice : List ℝ → Nat → ℝ) = fun l i => l.getD i 0 := by
  funext l i
  cases tpu
  · simp [getSlice]
  · simp [Props.getSliceTpu_eq, getSlice]

theorem piece_left (k : Nat) : pieceAt xs ys cs k (xs.getD k 0) = ys.getD k 0 := by
  simp [pieceAt, cubicPiece]

include hx hs in
theorem piece_right (k : Nat) (hk : k ≤ m) : pieceAt xs ys cs k (xs.getD (k + 1) 0) = ys.getD (k + 1) 0 := by
  have := gap_pos xs m hx hs k hk
  unfold gap at this
  simp only [pieceAt, cubicPiece, div_self this.ne']
  ring

include hx hs in
theorem cubic_inside (tpu : Bool) (k : Nat) (hk : k ≤ m) (t : ℝ) (h0 : xs.getD k 0 ≤ t) (h1 : t < xs.getD (k + 1) 0) :
    cubicInterpolate t xs ys cs tpu = pieceAt xs ys cs k t := by
  have hub := upperBound_eq xs m hx hs
  have hlb := lowerBound_eq xs m hx hs
  have hsr := searchRight_at xs m hx hs (k + 1) (by omega) t (fun _ => h0) (fun _ => h1)
  have e1 : (max ((k + 1 : Nat) - 1 : Int) 0).toNat = k := by omega
  have e2 : (min ((k + 1 : Nat) - 1 + 1 : Int) ((m + 2 : Nat) - 1 : Int)).toNat = k + 1 := by omega
  have hg := gap_pos xs m hx hs k hk
  unfold gap at hg
  unfold cubicInterpolate
  simp only [slice_eq, hub, hlb, hsr, hx, e1, e2]
  rw [if_pos ⟨h1.le.trans (le_getD xs m hx hs (k + 1) (m + 1) (by omega) le_rfl),
    (le_getD xs m hx hs 0 k (by omega) (by omega)).trans h0⟩, if_pos hg]
  rfl

include hx hs in
theorem cubic_last (tpu : Bool) : cubicInterpolate (xs.getD (m + 1) 0) xs ys cs tpu = ys.getD (m + 1) 0 := by
  have hub := upperBound_eq xs m hx hs
  have hlb := lowerBound_eq xs m hx hs
  have hsr := searchRight_at xs m hx hs (m + 2) le_rfl (xs.getD (m + 1) 0) (fun _ => le_rfl) (fun h => by omega)
  have e1 : (max ((m + 2 : Nat) - 1 : Int) 0).toNat = m + 1 := by omega
  have e2 : (min ((m + 2 : Nat) - 1 + 1 : Int) ((m + 2 : Nat) - 1 : Int)).toNat = m + 1 := by omega
  unfold cubicInterpolate
  simp only [slice_eq, hub, hlb, hsr, hx, e1, e2]
  rw [if_pos ⟨le_rfl, le_getD xs m hx hs 0 (m + 1) (by omega) le_rfl⟩]
  simp

include hx hs in
theorem cubic_piece (tpu : Bool) (k : Nat) (hk : k < m + 1) (t : ℝ) (ht : t ∈ Set.Icc (xs.getD k 0) (xs.getD (k + 1) 0)) :
    cubicInterpolate t xs ys cs tpu = pieceAt xs ys cs k t := by
  rcases ht.2.lt_or_eq with h | h
  · exact cubic_inside xs ys cs m hx hs tpu k (by omega) t ht.1 h
  · rw [h, piece_right xs ys cs m hx hs k (by omega)]
    by_cases hkm : k = m
    · subst hkm
      exact cubic_last xs ys cs k hx hs tpu
    · rw [cubic_inside xs ys cs m hx hs tpu (k + 1) (by omega) _ le_rfl
        (strict_getD xs m hx hs (k + 1) (k + 1 + 1) (by omega) (by omega)), piece_left]

include hx hs in
theorem piece1_right (k : Nat) (hk : k ≤ m) :
    pieceAt1 xs ys cs k (xs.getD (k + 1) 0) = slope xs ys k + gap xs k * (2 * cs.getD (k + 1) 0 + cs.getD k 0) / 3 := by
  have := gap_pos xs m hx hs k hk
  unfold gap at this
  simp only [pieceAt1, cubicPiece1, div_self this.ne', slope, gap]
  ring

theorem piece1_left (k : Nat) :
    pieceAt1 xs ys cs k (xs.getD k 0) = slope xs ys k - gap xs k * (cs.getD (k + 1) 0 + 2 * cs.getD k 0) / 3 := by
  simp only [pieceAt1, cubicPiece1, sub_self, zero_div, slope, gap]
  ring

include hx hs in
theorem piece2_right (k : Nat) (hk : k ≤ m) : pieceAt2 xs cs k (xs.getD (k + 1) 0) = 2 * cs.getD (k + 1) 0 := by
  have := gap_pos xs m hx hs k hk
  unfold gap at this
  simp only [pieceAt2, cubicPiece2, div_self this.ne']
  ring

theorem piece2_left (k : Nat) : pieceAt2 xs cs k (xs.getD k 0) = 2 * cs.getD k 0 := by
  simp [pieceAt2, cubicPiece2]

include hx hs in
/-- A solution of the equations for the interior knots makes a cubic spline. -/
theorem spline_of_equations (tpu : Bool) (hy : ys.length = m + 2)
    (heq : ∀ i, i < m → gap xs i * cs.getD i 0 + 2 * (gap xs i + gap xs (i + 1)) * cs.getD (i + 1) 0 +
        gap xs (i + 1) * cs.getD (i + 2) 0 = -3 * (slope xs ys i - slope xs ys (i + 1))) :
    ∃ s1 s2, Spec.IsCubicSpline xs ys (xs.getD 0 0) (xs.getD (m + 1) 0) (fun t => cubicInterpolate t xs ys cs tpu) s1 s2 ∧
      s1 (xs.getD 0 0) = slope xs ys 0 - gap xs 0 * (cs.getD 1 0 + 2 * cs.getD 0 0) / 3 ∧
      s1 (xs.getD (m + 1) 0) = slope xs ys m + gap xs m * (2 * cs.getD (m + 1) 0 + cs.getD m 0) / 3 ∧
      s2 (xs.getD 0 0) = 2 * cs.getD 0 0 ∧ s2 (xs.getD (m + 1) 0) = 2 * cs.getD (m + 1) 0 := by
  have hlt : ∀ k, k < m + 1 → xs.getD k 0 < xs.getD (k + 1) 0 := fun k hk => strict_getD xs m hx hs k (k + 1) (by omega) (by omega)
  obtain ⟨s1, hs1⟩ := glue_exists (fun k => xs.getD k 0) (pieceAt1 xs ys cs) (m + 1) hlt (by
    intro k hk
    show pieceAt1 xs ys cs k (xs.getD (k + 1) 0) = _
    rw [piece1_right xs ys cs m hx hs k (by omega), piece1_left]
    linarith [heq k (by omega)])
  obtain ⟨s2, hs2⟩ := glue_exists (fun k => xs.getD k 0) (pieceAt2 xs cs) (m + 1) hlt (by
    intro k hk
    show pieceAt2 xs cs k (xs.getD (k + 1) 0) = _
    rw [piece2_right xs cs m hx hs k (by omega), piece2_left])
  have hpd : ∀ k, k < m + 1 → ∀ t, HasDerivAt (pieceAt xs ys cs k) (pieceAt1 xs ys cs k t) t :=
    fun k hk t => cubicPiece_deriv _ _ _ _ _ _ t (hlt k hk)
  have hpd1 : ∀ k, k < m + 1 → ∀ t, HasDerivAt (pieceAt1 xs ys cs k) (pieceAt2 xs cs k t) t :=
    fun k hk t => cubicPiece1_deriv _ _ _ _ _ _ t (hlt k hk)
  refine ⟨s1, s2, ⟨?_, ?_, ?_, ?_, ?_⟩, ?_, ?_, ?_, ?_⟩
  · intro i a b ha hb
    have hi : i < m + 2 := by
      by_contra h
      rw [List.getElem?_eq_none (by omega)] at ha
      simp at ha
    rw [← getD_of_some xs i a ha, ← getD_of_some ys i b hb]
    by_cases him : i = m + 1
    · subst him
      exact cubic_last xs ys cs m hx hs tpu
    · rw [cubic_piece xs ys cs m hx hs tpu i (by omega) _ ⟨le_rfl, (hlt i (by omega)).le⟩, piece_left]
  · exact glue_deriv (fun k => xs.getD k 0) _ s1 (pieceAt xs ys cs) (pieceAt1 xs ys cs) (m + 1) hlt hpd
      (fun k hk t ht => cubic_piece xs ys cs m hx hs tpu k hk t ht) hs1 (by omega)
  · exact glue_deriv (fun k => xs.getD k 0) s1 s2 (pieceAt1 xs ys cs) (pieceAt2 xs cs) (m + 1) hlt hpd1 hs1 hs2 (by omega)
  · exact glue_continuous (fun k => xs.getD k 0) s2 (pieceAt2 xs cs) (m + 1) hlt
      (fun k => cubicPiece2_continuous _ _ _ _) hs2 (by omega)
  · intro i x0 x1 h0 h1
    have hi : i + 1 < m + 2 := by
      by_contra h
      rw [List.getElem?_eq_none (by omega)] at h1
      simp at h1
    have e0 := getD_of_some xs i x0 h0
    have e1 := getD_of_some xs (i + 1) x1 h1
    refine ⟨2 * cs.getD i 0 + 2 * (cs.getD (i + 1) 0 - cs.getD i 0) * (-x0 / (x1 - x0)),
      2 * (cs.getD (i + 1) 0 - cs.getD i 0) / (x1 - x0), ?_⟩
    intro t ht
    rw [hs2 i (by omega) t (by simpa only [e0, e1] using ht)]
    simp only [pieceAt2, cubicPiece2, e0, e1]
    ring
  · rw [hs1 0 (by omega) _ ⟨le_rfl, (hlt 0 (by omega)).le⟩, piece1_left]
  · rw [hs1 m (by omega) _ ⟨(hlt m (by omega)).le, le_rfl⟩, piece1_right xs ys cs m hx hs m le_rfl]
  · rw [hs2 0 (by omega) _ ⟨le_rfl, (hlt 0 (by omega)).le⟩, piece2_left]
  · rw [hs2 m (by omega) _ ⟨(hlt m (by omega)).le, le_rfl⟩, piece2_right xs cs m hx hs m le_rfl]

end evaluate

end Lemmas

namespace Props
open Model Spec Lemmas

theorem head_getD (xs : List ℝ) (a : ℝ) (ha : xs.head? = some a) : xs.getD 0 0 = a := by
  rw [List.head?_eq_getElem?] at ha
  exact getD_of_some xs 0 a ha

theorem last_getD (xs : List ℝ) (m : Nat) (hx : xs.length = m + 2) (b : ℝ) (hb : xs.getLast? = some b) :
    xs.getD (m + 1) 0 = b := by
  rw [List.getLast?_eq_getElem?, hx] at hb
  exact getD_of_some xs _ b hb

/-- C38.  The default and the natural boundary: the interpolant is the cubic spline whose second derivative is zero at both ends. -/
theorem C38_natural (xs ys : List ℝ) (hn : 3 ≤ xs.length) (hy : ys.length = xs.length) (hs : xs.Pairwise (· < ·)) (a b : ℝ)
    (ha : xs.head? = some a) (hb : xs.getLast? = some b) (tpu : Bool) :
    ∃ c, splineBuild xs ys none none none = some c ∧ splineBuild xs ys (some .natural) none none = some c ∧
      ∃ s1 s2, IsCubicSpline xs ys a b (fun t => cubicInterpolate t xs ys c tpu) s1 s2 ∧ s2 a = 0 ∧ s2 b = 0 := by
  obtain ⟨m, hx⟩ : ∃ m, xs.length = m + 2 := ⟨xs.length - 2, by omega⟩
  rw [← head_getD xs a ha, ← last_getD xs m hx b hb]
  obtain ⟨c, hc, _, h0, h1, heq⟩ := spline_natural xs ys m hx (by omega) (gap_pos xs m hx hs) 0 0
  obtain ⟨s1, s2, hsp, _, _, e2, e3⟩ := spline_of_equations xs ys c m hx hs tpu (by omega) heq
  exact ⟨c, hc, hc, s1, s2, hsp, by rw [e2, h0, mul_zero], by rw [e3, h1, mul_zero]⟩

/-- A flat segment is followed by flat segments only, and if the last segment is flat then so is the prescribed right end. -/
def FlatToTheEnd (ys : List ℝ) (right : ℝ) : Prop :=
  ∀ (i : Nat) (y : ℝ), ys[i]? = some y → ys[i + 1]? = some y →
    (∀ y2, ys[i + 2]? = some y2 → y2 = y) ∧ (ys[i + 2]? = none → right = 0)

theorem slope_eq_zero (xs ys : List ℝ) (m : Nat) (hx : xs.length = m + 2) (hs : xs.Pairwise (· < ·)) (i : Nat) (hi : i ≤ m) :
    slope xs ys i = 0 ↔ ys.getD i 0 = ys.getD (i + 1) 0 := by
  unfold slope
  rw [div_eq_zero_iff, or_iff_left (gap_pos xs m hx hs i hi).ne', sub_eq_zero, eq_comm]

theorem first_derivative_partial (xs ys : List ℝ) (m : Nat) (hx : xs.length = m + 2) (hy : ys.length = m + 2)
    (hs : xs.Pairwise (· < ·)) (left right : ℝ) (hf : FlatToTheEnd ys right) (tpu : Bool) :
    ∃ c, splineCoeffs .fixedFirstDerivative left right xs ys = some c ∧
      ∃ s1 s2, IsCubicSpline xs ys (xs.getD 0 0) (xs.getD (m + 1) 0) (fun t => cubicInterpolate t xs ys c tpu) s1 s2 ∧
        s1 (xs.getD 0 0) = left ∧ s1 (xs.getD (m + 1) 0) = right := by
  obtain ⟨c, hc, _, h0, h1, heq⟩ := spline_first xs ys m hx hy (gap_pos xs m hx hs) left right
  have flat : ∀ i, i ≤ m → slope xs ys i = 0 →
      (∀ y2, ys[i + 2]? = some y2 → y2 = ys.getD (i + 1) 0) ∧ (ys[i + 2]? = none → right = 0) := by
    intro i hi h
    have e := (slope_eq_zero xs ys m hx hs i hi).1 h
    refine hf i (ys.getD (i + 1) 0) ?_ ?_
    · rw [← e]; exact getD_some ys i (by omega)
    · exact getD_some ys (i + 1) (by omega)
  obtain ⟨s1, s2, hsp, e0, e1, _, _⟩ := spline_of_equations xs ys c m hx hs tpu hy (by
    intro i hi
    rw [heq i hi]
    split
    · rename_i h
      have := (flat i (by omega) h).1 _ (getD_some ys (i + 2) (by omega))
      rw [h, (slope_eq_zero xs ys m hx hs (i + 1) (by omega)).2 this.symm]
      ring
    · rfl)
  refine ⟨c, hc, s1, s2, hsp, ?_, ?_⟩
  · rw [e0]; linarith
  · rw [e1]
    split at h1
    · rename_i h
      have := (flat m le_rfl h).2 (List.getElem?_eq_none (by omega))
      rw [h, this]
      linarith
    · linarith

/-- C38.  Prescribed first derivatives at both ends. The code sets the right hand side of a row to zero if the segment before its
knot is flat (it means to treat repeated points), so flat segments must not be followed by others: see `C38_kink`. -/
theorem C38_first_derivative_partial (xs ys : List ℝ) (hn : 2 ≤ xs.length) (hy : ys.length = xs.length)
    (hs : xs.Pairwise (· < ·)) (a b : ℝ) (ha : xs.head? = some a) (hb : xs.getLast? = some b) (left right : ℝ)
    (hf : FlatToTheEnd ys right) (tpu : Bool) :
    ∃ c, splineBuild xs ys (some .fixedFirstDerivative) (some left) (some right) = some c ∧
      ∃ s1 s2, IsCubicSpline xs ys a b (fun t => cubicInterpolate t xs ys c tpu) s1 s2 ∧ s1 a = left ∧ s1 b = right := by
  obtain ⟨m, hx⟩ : ∃ m, xs.length = m + 2 := ⟨xs.length - 2, by omega⟩
  rw [← head_getD xs a ha, ← last_getD xs m hx b hb]
  exact first_derivative_partial xs ys m hx (by omega) hs left right hf tpu

/-- C38.  The clamped boundary: zero first derivative at both ends. -/
theorem C38_clamped_partial (xs ys : List ℝ) (hn : 2 ≤ xs.length) (hy : ys.length = xs.length)
    (hs : xs.Pairwise (· < ·)) (a b : ℝ) (ha : xs.head? = some a) (hb : xs.getLast? = some b)
    (hf : FlatToTheEnd ys 0) (tpu : Bool) :
    ∃ c, splineBuild xs ys (some .clamped) none none = some c ∧
      ∃ s1 s2, IsCubicSpline xs ys a b (fun t => cubicInterpolate t xs ys c tpu) s1 s2 ∧ s1 a = 0 ∧ s1 b = 0 := by
  obtain ⟨m, hx⟩ : ∃ m, xs.length = m + 2 := ⟨xs.length - 2, by omega⟩
  rw [← head_getD xs a ha, ← last_getD xs m hx b hb]
  exact first_derivative_partial xs ys m hx (by omega) hs 0 0 hf tpu

/-- C38.  The derivatives must be given. -/
theorem C38_missing_derivative (xs ys : List ℝ) (l r : Option ℝ) (h : l = none ∨ r = none) :
    splineBuild xs ys (some .fixedFirstDerivative) l r = none := by
  rcases h with rfl | rfl
  · rfl
  · cases l <;> rfl

/-- Deviation from C38.  With prescribed first derivatives (clamped: both zero) and a flat segment followed by one that is not
flat, the interpolant is not differentiable at the knot between them. -/
theorem C38_kink (xs ys c : List ℝ) (hy : ys.length = xs.length) (hs : xs.Pairwise (· < ·)) (left right : ℝ)
    (hc : splineCoeffs .fixedFirstDerivative left right xs ys = some c) (tpu : Bool) (i : Nat) (x y y2 : ℝ)
    (hxi : xs[i + 1]? = some x) (h0 : ys[i]? = some y) (h1 : ys[i + 1]? = some y) (h2 : ys[i + 2]? = some y2) (hne : y2 ≠ y) :
    ¬ DifferentiableAt ℝ (fun t => cubicInterpolate t xs ys c tpu) x := by
  have hlen : i + 2 < ys.length := by
    by_contra h
    rw [List.getElem?_eq_none (by omega)] at h2
    simp at h2
  obtain ⟨m, hx⟩ : ∃ m, xs.length = m + 2 := ⟨xs.length - 2, by omega⟩
  obtain ⟨c', hc', _, _, _, heq⟩ := spline_first xs ys m hx (by omega) (gap_pos xs m hx hs) left right
  rw [hc] at hc'
  obtain rfl := Option.some.inj hc'
  have him : i < m := by omega
  have hlt : ∀ k, k < m + 1 → xs.getD k 0 < xs.getD (k + 1) 0 := fun k hk => strict_getD xs m hx hs k (k + 1) (by omega) (by omega)
  have s0 : slope xs ys i = 0 := by
    rw [slope_eq_zero xs ys m hx hs i (by omega), getD_of_some ys i y h0, getD_of_some ys (i + 1) y h1]
  have s1 : slope xs ys (i + 1) ≠ 0 := by
    rw [ne_eq, slope_eq_zero xs ys m hx hs (i + 1) (by omega), getD_of_some ys (i + 1) y h1, getD_of_some ys (i + 2) y2 h2]
    exact hne.symm
  have he := heq i him
  rw [if_pos s0] at he
  rw [← getD_of_some xs (i + 1) x hxi]
  intro hd
  have dl : HasDerivWithinAt (fun t => cubicInterpolate t xs ys c tpu) (pieceAt1 xs ys c i (xs.getD (i + 1) 0))
      (Set.Icc (xs.getD i 0) (xs.getD (i + 1) 0)) (xs.getD (i + 1) 0) :=
    (cubicPiece_deriv _ _ _ _ _ _ _ (hlt i (by omega))).hasDerivWithinAt.congr
      (fun t ht => cubic_piece xs ys c m hx hs tpu i (by omega) t ht)
      (cubic_piece xs ys c m hx hs tpu i (by omega) _ ⟨(hlt i (by omega)).le, le_rfl⟩)
  have dr : HasDerivWithinAt (fun t => cubicInterpolate t xs ys c tpu) (pieceAt1 xs ys c (i + 1) (xs.getD (i + 1) 0))
      (Set.Icc (xs.getD (i + 1) 0) (xs.getD (i + 1 + 1) 0)) (xs.getD (i + 1) 0) :=
    (cubicPiece_deriv _ _ _ _ _ _ _ (hlt (i + 1) (by omega))).hasDerivWithinAt.congr
      (fun t ht => cubic_piece xs ys c m hx hs tpu (i + 1) (by omega) t ht)
      (cubic_piece xs ys c m hx hs tpu (i + 1) (by omega) _ ⟨le_rfl, (hlt (i + 1) (by omega)).le⟩)
  have u1 := (uniqueDiffOn_Icc (hlt i (by omega))) (xs.getD (i + 1) 0) ⟨(hlt i (by omega)).le, le_rfl⟩
  have u2 := (uniqueDiffOn_Icc (hlt (i + 1) (by omega))) (xs.getD (i + 1) 0) ⟨le_rfl, (hlt (i + 1) (by omega)).le⟩
  have e1 := u1.eq_deriv _ dl hd.hasDerivAt.hasDerivWithinAt
  have e2 := u2.eq_deriv _ dr hd.hasDerivAt.hasDerivWithinAt
  rw [← e2, piece1_right xs ys c m hx hs i (by omega), piece1_left, s0] at e1
  apply s1
  linarith

/-- Deviation from C38.  If the last segment is flat, the derivative at the right end is zero whatever was prescribed. -/
theorem C38_flat_last_segment (xs ys c : List ℝ) (m : Nat) (hx : xs.length = m + 2) (hy : ys.length = m + 2)
    (hs : xs.Pairwise (· < ·)) (left right : ℝ)
    (hc : splineCoeffs .fixedFirstDerivative left right xs ys = some c) (tpu : Bool) (a b y : ℝ)
    (ha : xs[m]? = some a) (hb : xs[m + 1]? = some b) (h0 : ys[m]? = some y) (h1 : ys[m + 1]? = some y) :
    HasDerivWithinAt (fun t => cubicInterpolate t xs ys c tpu) 0 (Set.Icc a b) b := by
  obtain ⟨c', hc', _, _, he, _⟩ := spline_first xs ys m hx hy (gap_pos xs m hx hs) left right
  rw [hc] at hc'
  obtain rfl := Option.some.inj hc'
  have hlt := strict_getD xs m hx hs m (m + 1) (by omega) le_rfl
  have s0 : slope xs ys m = 0 := by
    rw [slope_eq_zero xs ys m hx hs m le_rfl, getD_of_some ys m y h0, getD_of_some ys (m + 1) y h1]
  rw [if_pos s0] at he
  have d : HasDerivWithinAt (fun t => cubicInterpolate t xs ys c tpu) (pieceAt1 xs ys c m (xs.getD (m + 1) 0))
      (Set.Icc (xs.getD m 0) (xs.getD (m + 1) 0)) (xs.getD (m + 1) 0) :=
    (cubicPiece_deriv _ _ _ _ _ _ _ hlt).hasDerivWithinAt.congr
      (fun t ht => cubic_piece xs ys c m hx hs tpu m (by omega) t ht)
      (cubic_piece xs ys c m hx hs tpu m (by omega) _ ⟨hlt.le, le_rfl⟩)
  rw [piece1_right xs ys c m hx hs m le_rfl, s0] at d
  rw [← getD_of_some xs m a ha, ← getD_of_some xs (m + 1) b hb]
  refine d.congr_deriv ?_
  linarith

/-- C38.  Outside of the knots the interpolant is constant, whatever the coefficients. -/
theorem C38_outside (xs ys c : List ℝ) (hn : 2 ≤ xs.length) (hy : ys.length = xs.length) (hs : xs.Pairwise (· < ·))
    (a b ya yb t : ℝ) (ha : xs.head? = some a) (hb : xs.getLast? = some b) (hya : ys.head? = some ya)
    (hyb : ys.getLast? = some yb) (tpu : Bool) :
    (t < a → cubicInterpolate t xs ys c tpu = ya) ∧ (b < t → cubicInterpolate t xs ys c tpu = yb) := by
  obtain ⟨m, hx⟩ : ∃ m, xs.length = m + 2 := ⟨xs.length - 2, by omega⟩
  rw [← head_getD xs a ha, ← last_getD xs m hx b hb, ← head_getD ys ya hya, ← last_getD ys m (by omega) yb hyb]
  have hub := upperBound_eq xs m hx hs
  have hlb := lowerBound_eq xs m hx hs
  have hab := strict_getD xs m hx hs 0 (m + 1) (by omega) le_rfl
  constructor
  · intro h
    have hsr := searchRight_at xs m hx hs 0 (by omega) t (fun h => by omega) (fun _ => h)
    have e2 : (min ((0 : Nat) - 1 + 1 : Int) ((m + 2 : Nat) - 1 : Int)).toNat = 0 := by omega
    unfold cubicInterpolate
    simp only [slice_eq, hub, hlb, hsr, hx, e2]
    rw [if_neg (fun h' => absurd h'.2 (not_le.2 h)), if_neg (by simp only [gt_iff_lt, not_lt]; linarith)]
  · intro h
    have hsr := searchRight_at xs m hx hs (m + 2) le_rfl t (fun _ => h.le) (fun h => by omega)
    have e1 : (max ((m + 2 : Nat) - 1 : Int) 0).toNat = m + 1 := by omega
    unfold cubicInterpolate
    simp only [slice_eq, hub, hlb, hsr, hx, e1]
    rw [if_neg (fun h' => absurd h'.1 (not_le.2 h)), if_pos h]

example : splineBuild [0, 1, (2 : ℚ)] [0, 1, 0] none none none = some [0, -3 / 2, 0] := by decide +kernel

example : cubicInterpolate (1 / 2 : ℚ) [0, 1, 2] [0, 1, 0] [0, -3 / 2, 0] = 11 / 16 := by decide +kernel

/-- Clamped, with a flat first segment: the equation of the middle row has the right hand side 0 instead of 3, so the derivative
jumps at 1. -/
example : splineBuild [0, 1, (2 : ℚ)] [0, 0, 1] (some .clamped) none none = some [-1 / 4, 1 / 2, -7 / 4] := by decide +kernel

end Props
