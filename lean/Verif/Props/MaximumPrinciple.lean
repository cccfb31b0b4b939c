import Verif.Props.Parabolic
import Mathlib.Algebra.Order.BigOperators.Group.Finset
import Mathlib.Data.Finset.Max
import Mathlib.Tactic.Linarith

/-! # C46 Discrete maximum principle for a backward step -/

namespace Spec
open Model

variable {K : Type} [Field K]

/-- Value of a coefficient at a grid point, zero if absent. -/
def coeffAt (c : Option (List K)) (i : Nat) : K := c.elim 0 (fun l => l.getD i 0)

variable [LinearOrder K]

/-- Conditions on `a V_xx + b V_x + c V` and the grid under which the weights have the right signs: the drift is small compared to the
diffusion, no source, and the explicit part `mu = theta dt` of the step is small enough. -/
structure Stable (c : PdeCoeffs K) (x : Nat → K) (k : Nat) (mu : K) : Prop where
  innerSecond : c.innerSecond = none
  innerFirst : c.innerFirst = none
  up : ∀ i, i < k + 2 → 0 ≤ 2 * coeffAt c.second (i + 1) + coeffAt c.first (i + 1) * (x (i + 1) - x i)
  low : ∀ i, i < k + 2 → 0 ≤ 2 * coeffAt c.second (i + 1) - coeffAt c.first (i + 1) * (x (i + 2) - x (i + 1))
  zeroth : ∀ i, i < k + 2 → coeffAt c.zeroth (i + 1) ≤ 0
  cfl : ∀ i, i < k + 2 → mu * (-coeffAt c.zeroth (i + 1) + (2 * coeffAt c.second (i + 1) +
    coeffAt c.first (i + 1) * (x (i + 1) - x i - (x (i + 2) - x (i + 1)))) / ((x (i + 1) - x i) * (x (i + 2) - x (i + 1)))) ≤ 1

/-- A Dirichlet condition that prescribes the value `y`. -/
def Prescribes (bc : Option K × Option K × K) (y : K) : Prop := ∃ alpha gamma, bc = (some alpha, none, gamma) ∧ alpha ≠ 0 ∧ y = gamma / alpha

end Spec

namespace Lemmas
open Model Spec

variable {K : Type} [Field K] [LinearOrder K] [IsStrictOrderedRing K]

/-- Maximum principle for a weighted step with a matrix with non-positive off-diagonal entries. -/
theorem core_max (n : Nat) (lo di up v w : Nat → K) (theta dt M : K) (hth0 : 0 ≤ theta) (hth1 : theta ≤ 1) (hdt : 0 ≤ dt)
    (hlo : ∀ i, i < n → lo i ≤ 0) (hup : ∀ i, i < n → up i ≤ 0) (hs : ∀ i, i < n → 0 ≤ lo i + di i + up i)
    (hM : ∀ i, i < n → 0 ≤ (lo i + di i + up i) * M) (hcfl : ∀ i, i < n → theta * dt * di i ≤ 1)
    (heq : ∀ i, i < n → w (i + 1) - v (i + 1) = -dt * (theta * (lo i * v i + di i * v (i + 1) + up i * v (i + 2)) +
      (1 - theta) * (lo i * w i + di i * w (i + 1) + up i * w (i + 2))))
    (hv : ∀ i, i < n + 2 → v i ≤ M) (hw0 : w 0 ≤ M) (hwn : w (n + 1) ≤ M) (i : Nat) (hi : i < n + 2) : w i ≤ M := by
  by_contra hc
  push Not at hc
  obtain ⟨p, hp, hmax⟩ := Finset.exists_max_image (Finset.range (n + 2)) w ⟨0, by simp⟩
  rw [Finset.mem_range] at hp
  have hwp : M < w p := lt_of_lt_of_le hc (hmax i (Finset.mem_range.2 hi))
  have hp0 : p ≠ 0 := by rintro rfl; exact absurd hwp (not_lt.2 hw0)
  have hpn : p ≠ n + 1 := by rintro rfl; exact absurd hwp (not_lt.2 hwn)
  obtain ⟨q, rfl⟩ : ∃ q, p = q + 1 := ⟨p - 1, by omega⟩
  have hq : q < n := by omega
  have e := heq q hq
  have m1 := hmax q (Finset.mem_range.2 (by omega))
  have m2 := hmax (q + 2) (Finset.mem_range.2 (by omega))
  have hrow : 0 ≤ lo q * w q + di q * w (q + 1) + up q * w (q + 2) := by
    have a1 := mul_le_mul_of_nonpos_left m1 (hlo q hq)
    have a2 := mul_le_mul_of_nonpos_left m2 (hup q hq)
    have a3 := mul_le_mul_of_nonneg_left hwp.le (hs q hq)
    have := hM q hq
    linarith
  have hrow2 : 0 ≤ dt * ((1 - theta) * (lo q * w q + di q * w (q + 1) + up q * w (q + 2))) :=
    mul_nonneg hdt (mul_nonneg (by linarith) hrow)
  have b0 : 0 ≤ theta * dt := mul_nonneg hth0 hdt
  have b1 := mul_le_mul_of_nonneg_left (hv (q + 1) (by omega)) (show 0 ≤ 1 - theta * dt * di q by linarith [hcfl q hq])
  have b2 := mul_le_mul_of_nonneg_left (hv q (by omega)) (show 0 ≤ -(theta * dt * lo q) by
    rw [neg_nonneg]; exact mul_nonpos_of_nonneg_of_nonpos b0 (hlo q hq))
  have b3 := mul_le_mul_of_nonneg_left (hv (q + 2) (by omega)) (show 0 ≤ -(theta * dt * up q) by
    rw [neg_nonneg]; exact mul_nonpos_of_nonneg_of_nonpos b0 (hup q hq))
  have b4 := mul_nonneg b0 (hM q hq)
  have e2 : w (q + 1) = (1 - theta * dt * di q) * v (q + 1) + -(theta * dt * lo q) * v q + -(theta * dt * up q) * v (q + 2) -
      dt * ((1 - theta) * (lo q * w q + di q * w (q + 1) + up q * w (q + 2))) := by linear_combination e
  nlinarith

omit [LinearOrder K] [IsStrictOrderedRing K] in
theorem outerAt_none (c : Option (List K)) (i : Nat) : outerAt c none i = coeffAt c i := by cases c <;> rfl

/-- Signs of the entries. -/
theorem stable_entries (c : PdeCoeffs K) (x : Nat → K) (k : Nat) (mu : K) (hx : Increasing x k) (h : Stable c x k mu) (i : Nat) (hi : i < k + 2) :
    entryLo c x i ≤ 0 ∧ entryUp c x i ≤ 0 ∧ entryLo c x i + entryDiag c x i + entryUp c x i = -coeffAt c.zeroth (i + 1) ∧
      mu * entryDiag c x i ≤ 1 := by
  have hb := sub_pos.2 (hx i (by omega))
  have hf := sub_pos.2 (hx (i + 1) (by omega))
  rw [show i + 1 + 1 = i + 2 from rfl] at hf
  have hcfl := h.cfl i hi
  have hu := h.up i hi
  have hl := h.low i hi
  unfold entryLo entryUp entryDiag wUp1 wLo1 wUp2 wLo2
  rw [h.innerSecond, h.innerFirst]
  simp only [outerAt_none, innerAt, Option.elim_none, mul_one]
  generalize x (i + 1) - x i = bd at *
  generalize x (i + 2) - x (i + 1) = fd at *
  have hz : c.zeroth.elim 0 (fun z => z.getD (i + 1) 0) = coeffAt c.zeroth (i + 1) := rfl
  rw [hz]
  generalize coeffAt c.second (i + 1) = a at *
  generalize coeffAt c.first (i + 1) = b at *
  generalize coeffAt c.zeroth (i + 1) = z at *
  have hs : 0 < fd + bd := by linarith
  refine ⟨?_, ?_, by ring, ?_⟩
  · have : fd / ((fd + bd) * bd) * b + -2 / ((fd + bd) * bd) * a = -((2 * a - b * fd) / ((fd + bd) * bd)) := by field_simp; ring
    rw [this, neg_nonpos]
    exact div_nonneg hl (mul_pos hs hb).le
  · have : -bd / ((fd + bd) * fd) * b + -2 / ((fd + bd) * fd) * a = -((2 * a + b * bd) / ((fd + bd) * fd)) := by field_simp; ring
    rw [this, neg_nonpos]
    exact div_nonneg hu (mul_pos hs hf).le
  · have : -z + (-(-bd / ((fd + bd) * fd)) - fd / ((fd + bd) * bd)) * b + (-(-2 / ((fd + bd) * fd)) - -2 / ((fd + bd) * bd)) * a =
        -z + (2 * a + b * (bd - fd)) / (bd * fd) := by field_simp; ring
    rw [this]; exact hcfl

omit [IsStrictOrderedRing K] in
theorem prescribes_lower (x u : Nat → K) (bc : Option K × Option K × K) (y : K) (h : Prescribes bc y) (hu : LowerBc x u bc)
    (hp : ∃ p : Parabola K, p.Through x u 0) : u 0 = y := by
  obtain ⟨alpha, gamma, rfl, ha, rfl⟩ := h
  obtain ⟨p, hp⟩ := hp
  have := hu p hp
  simp only [Option.getD_some, Option.getD_none, zero_mul, add_zero] at this
  rw [hp.1] at this
  rw [eq_div_iff ha, mul_comm]; exact this

omit [IsStrictOrderedRing K] in
theorem prescribes_upper (x u : Nat → K) (i : Nat) (bc : Option K × Option K × K) (y : K) (h : Prescribes bc y) (hu : UpperBc x u i bc)
    (hp : ∃ p : Parabola K, p.Through x u i) : u (i + 2) = y := by
  obtain ⟨alpha, gamma, rfl, ha, rfl⟩ := h
  obtain ⟨p, hp⟩ := hp
  have := hu p hp
  simp only [Option.getD_some, Option.getD_none, zero_mul, add_zero] at this
  rw [hp.2.2] at this
  rw [eq_div_iff ha, mul_comm]; exact this

omit [IsStrictOrderedRing K] in
theorem prescribes_proper (bc : Option K × Option K × K) (y : K) (h : Prescribes bc y) : ProperBc bc := by
  obtain ⟨alpha, gamma, rfl, ha, rfl⟩ := h
  exact ha

/-- A step with Dirichlet conditions as equations on the grid. -/
theorem dirichlet_rows (x v : Nat → K) (k : Nat) (hx : Increasing x k) (c : K → PdeCoeffs K) (f g : BoundaryFn K) (theta t1 t2 fm gm f2 g2 : K)
    (hc : OnGrid (c ((t1 + t2) / 2)) (k + 4)) (hfm : Prescribes (f ((t1 + t2) / 2)) fm) (hgm : Prescribes (g ((t1 + t2) / 2)) gm)
    (hf2 : Prescribes (f t2) f2) (hg2 : Prescribes (g t2) g2) (z : List K)
    (h : parabolicStep t1 t2 ((List.range (k + 4)).map x) ((List.range (k + 4)).map v) (some f) (some g) c (weightedScheme theta) = some z) :
    0 ≤ theta ∧ theta ≤ 1 ∧ z.length = k + 4 ∧ z.getD 0 0 = f2 ∧ z.getD (k + 3) 0 = g2 ∧ ∃ v' w' : Nat → K,
      v' 0 = fm ∧ w' 0 = fm ∧ v' (k + 3) = gm ∧ w' (k + 3) = gm ∧ (∀ i, 1 ≤ i → i ≤ k + 2 → v' i = v i ∧ w' i = z.getD i 0) ∧
      ∀ i, i < k + 2 → w' (i + 1) - v' (i + 1) = -(t1 - t2) *
        (theta * (entryLo (c ((t1 + t2) / 2)) x i * v' i + entryDiag (c ((t1 + t2) / 2)) x i * v' (i + 1) + entryUp (c ((t1 + t2) / 2)) x i * v' (i + 2)) +
        (1 - theta) * (entryLo (c ((t1 + t2) / 2)) x i * w' i + entryDiag (c ((t1 + t2) / 2)) x i * w' (i + 1) +
          entryUp (c ((t1 + t2) / 2)) x i * w' (i + 2))) := by
  have hm : ProperAt (some f) (some g) ((t1 + t2) / 2) := ⟨by rintro _ ⟨⟩; exact prescribes_proper _ _ hfm, by rintro _ ⟨⟩; exact prescribes_proper _ _ hgm⟩
  have h2 : ProperAt (some f) (some g) t2 := ⟨by rintro _ ⟨⟩; exact prescribes_proper _ _ hf2, by rintro _ ⟨⟩; exact prescribes_proper _ _ hg2⟩
  obtain ⟨th0, th1, hzl, hzbc, heq⟩ := Props.step_rows k x v hx c (some f) (some g) theta t1 t2 hc hm h2 z h
  obtain ⟨v', hv1, hv2, hv3, hv4⟩ := exists_bc x k hx (some f) (some g) ((t1 + t2) / 2) hm v
  obtain ⟨w', hw1, hw2, hw3, hw4⟩ := exists_bc x k hx (some f) (some g) ((t1 + t2) / 2) hm (fun i => z.getD i 0)
  have pl : ∀ u, ∃ p : Parabola K, p.Through x u 0 := fun u => parabola_exists x u 0 (hx 0 (by omega)) (hx 1 (by omega))
  have pu : ∀ u, ∃ p : Parabola K, p.Through x u (k + 1) := fun u => parabola_exists x u (k + 1) (hx (k + 1) (by omega)) (hx (k + 2) (by omega))
  refine ⟨th0, th1, hzl, prescribes_lower _ _ _ _ hf2 (hzbc.lower f rfl) (pl _), prescribes_upper _ _ _ _ _ hg2 (hzbc.upper g rfl) (pu _), v', w',
    prescribes_lower _ _ _ _ hfm (hv4.lower f rfl) (pl _), prescribes_lower _ _ _ _ hfm (hw4.lower f rfl) (pl _),
    prescribes_upper _ _ _ _ _ hgm (hv4.upper g rfl) (pu _), prescribes_upper _ _ _ _ _ hgm (hw4.upper g rfl) (pu _),
    fun i a b => ⟨hv1 i a b, hw1 i a b⟩, ?_⟩
  intro i hi
  have e := heq v' w' hv4 hw4 (Props.agree_inner k _ _ _ _ hv1 hv2 hv3) (Props.agree_inner k _ _ _ _ hw1 hw2 hw3) i (by simpa [innerSize] using hi)
  have hl : lowIndex (some f) = 1 := rfl
  rw [hl, Nat.add_comm 1 i] at e
  simp only [Nat.add_sub_cancel] at e
  rw [show i + 1 + 1 = i + 2 from rfl, Props.gRow_inner _ _ _ _ _ hi, Props.gRow_inner _ _ _ _ _ hi] at e
  rw [e]; ring

/-- The implicit part can be solved. -/
theorem implicitPart_total (m : Tridiag K) (vec : List K) (theta t1 t2 : K) (N : Nat) (hm : Tridiag.Size m N) (hv : vec.length = N) (hth : theta ≤ 1) (ht : t2 ≤ t1)
    (hlo : ∀ i, i < N → m.lower.getD i 0 ≤ 0) (hup : ∀ i, i < N → m.upper.getD i 0 ≤ 0)
    (hs : ∀ i, i < N → 0 ≤ m.lower.getD i 0 + m.diag.getD i 0 + m.upper.getD i 0) : ∃ out, implicitPart vec m theta t1 t2 = some out := by
  unfold implicitPart tridiagonalSolve
  simp only
  apply thomas_total _ _ _ (by simp)
  intro r hr
  obtain ⟨i, hi⟩ := List.mem_iff_getElem?.1 hr
  have hi' : i < N := by
    have := (List.getElem?_eq_some_iff.1 hi).1
    simp [hm.upper, hm.diag, hm.lower, hv] at this
    exact this
  rw [List.getElem?_zip_eq_some] at hi
  simp only [List.getElem?_map, List.getElem?_zip_eq_some] at hi
  rw [getD_some' m.upper i (by rw [hm.upper]; exact hi'), getD_some' m.diag i (by rw [hm.diag]; exact hi'),
    getD_some' m.lower i (by rw [hm.lower]; exact hi')] at hi
  simp only [Option.map_some, Option.some.injEq] at hi
  obtain ⟨h1, h2, h3, _⟩ := hi
  rw [← h1, ← h2, ← h3]
  have hmu : 0 ≤ (1 - theta) * (t1 - t2) := mul_nonneg (by linarith) (by linarith)
  rw [abs_of_nonpos (mul_nonpos_of_nonneg_of_nonpos hmu (hlo i hi')), abs_of_nonpos (mul_nonpos_of_nonneg_of_nonpos hmu (hup i hi'))]
  have := mul_nonneg hmu (hs i hi')
  linarith

/-- A backward step with Dirichlet conditions does not fail. -/
theorem dirichlet_total (x v : Nat → K) (k : Nat) (hx : Increasing x k) (c : K → PdeCoeffs K) (f g : BoundaryFn K) (theta t1 t2 fm gm f2 g2 : K)
    (hc : OnGrid (c ((t1 + t2) / 2)) (k + 4)) (hfm : Prescribes (f ((t1 + t2) / 2)) fm) (hgm : Prescribes (g ((t1 + t2) / 2)) gm)
    (hf2 : Prescribes (f t2) f2) (hg2 : Prescribes (g t2) g2) (hth0 : 0 ≤ theta) (hth1 : theta ≤ 1) (ht : t2 ≤ t1) (mu : K)
    (hst : Stable (c ((t1 + t2) / 2)) x k mu) :
    ∃ z, parabolicStep t1 t2 ((List.range (k + 4)).map x) ((List.range (k + 4)).map v) (some f) (some g) c (weightedScheme theta) = some z := by
  have h2 : ProperAt (some f) (some g) t2 := ⟨by rintro _ ⟨⟩; exact prescribes_proper _ _ hf2, by rintro _ ⟨⟩; exact prescribes_proper _ _ hg2⟩
  have hN : innerSize k (some f) (some g) = k + 2 := by simp [innerSize]
  have hl : lowIndex (some f) = 1 := rfl
  have hp : ∃ b, b.length = k + 2 ∧ equationParams ((List.range (k + 4)).map x) (some f) (some g) c ((t1 + t2) / 2) =
      some (⟨(List.range (k + 2)).map (fun (j : Nat) => gDiag (c ((t1 + t2) / 2)) x k (1 + j)),
        (List.range (k + 2)).map (fun (j : Nat) => gUp (c ((t1 + t2) / 2)) x k (1 + j)),
        (List.range (k + 2)).map (fun (j : Nat) => gLo (c ((t1 + t2) / 2)) x k (1 + j))⟩, b) := by
    unfold equationParams
    have hm := matrix_eq x k (c ((t1 + t2) / 2)) hc (some f) (some g)
    simp only at hm ⊢
    rw [hm, hN, hl]
    obtain ⟨a1, c1, h1, ha1, _⟩ := hfm
    obtain ⟨a2, c2, h3, ha2, _⟩ := hgm
    simp only [applyRobin, Option.map_some, h1, h3, Option.bind_some, Option.isNone_none, and_self, if_true, dirichletTerm, Option.elim_some]
    exact ⟨_, by simp [inhomogTerm, appendEnds, sliceInner], rfl⟩
  obtain ⟨b, hb, hp⟩ := hp
  have gdef : ∀ i, i < k + 2 → gDiag (c ((t1 + t2) / 2)) x k (1 + i) = entryDiag (c ((t1 + t2) / 2)) x i ∧
      gUp (c ((t1 + t2) / 2)) x k (1 + i) = entryUp (c ((t1 + t2) / 2)) x i ∧ gLo (c ((t1 + t2) / 2)) x k (1 + i) = entryLo (c ((t1 + t2) / 2)) x i := by
    intro i hi
    unfold gDiag gUp gLo
    simp only [if_neg (show ¬ 1 + i = 0 by omega), if_neg (show ¬ 1 + i = k + 3 by omega), Nat.add_sub_cancel_left, and_self]
  have hsz : Tridiag.Size (⟨(List.range (k + 2)).map (fun (j : Nat) => gDiag (c ((t1 + t2) / 2)) x k (1 + j)),
        (List.range (k + 2)).map (fun (j : Nat) => gUp (c ((t1 + t2) / 2)) x k (1 + j)),
        (List.range (k + 2)).map (fun (j : Nat) => gLo (c ((t1 + t2) / 2)) x k (1 + j))⟩ : Tridiag K) (k + 2) := ⟨by simp, by simp, by simp⟩
  have hw : ∃ out, weightedScheme theta ((List.range (k + 2)).map (fun (j : Nat) => v (1 + j))) t1 t2
      (equationParams ((List.range (k + 4)).map x) (some f) (some g) c) = some out ∧ out.length = k + 2 := by
    have hex : ∃ out, weightedScheme theta ((List.range (k + 2)).map (fun (j : Nat) => v (1 + j))) t1 t2
        (equationParams ((List.range (k + 4)).map x) (some f) (some g) c) = some out := by
      unfold weightedScheme
      rw [if_neg (by push Not; exact ⟨hth0, hth1⟩), hp]
      simp only [Option.bind_eq_bind, Option.bind_some]
      split
      · refine implicitPart_total _ _ _ _ _ (k + 2) hsz ?_ hth1 ht ?_ ?_ ?_
        · obtain ⟨hel, _⟩ := explicitPart_eq _ (k + 2) (by omega) hsz ((List.range (k + 2)).map (fun (j : Nat) => v (1 + j))) (by simp) theta t1 t2
          rw [List.length_zipWith, hb]
          split
          · simp
          · rw [hel]; simp
        · intro i hi
          rw [getD_rangeMap _ _ _ hi, (gdef i hi).2.2]
          exact (stable_entries _ x k mu hx hst i hi).1
        · intro i hi
          rw [getD_rangeMap _ _ _ hi, (gdef i hi).2.1]
          exact (stable_entries _ x k mu hx hst i hi).2.1
        · intro i hi
          rw [getD_rangeMap _ _ _ hi, getD_rangeMap _ _ _ hi, getD_rangeMap _ _ _ hi, (gdef i hi).1, (gdef i hi).2.1, (gdef i hi).2.2,
            (stable_entries _ x k mu hx hst i hi).2.2.1]
          have := hst.zeroth i hi
          linarith
      · exact ⟨_, rfl⟩
    obtain ⟨out, ho⟩ := hex
    exact ⟨out, ho, (weightedScheme_solves theta _ out t1 t2 _ _ b (k + 2) (by omega) hp hsz hb (by simp) ho).2.2.1⟩
  obtain ⟨out, ho, hol⟩ := hw
  obtain ⟨w2, hw2, _⟩ := boundaryAfterStep_spec x k hx (some f) (some g) t2 h2 out (by rw [hol, hN])
  refine ⟨w2, ?_⟩
  unfold parabolicStep
  have hin := innerValues_eq k v (some f) (some g)
  simp only at hin ⊢
  rw [hin, hN, hl, ho]
  exact hw2

end Lemmas

namespace Props
open Model Lemmas Spec

variable {K : Type} [Field K] [LinearOrder K] [IsStrictOrderedRing K]

/-- C46, maximum principle: a backward step with Dirichlet conditions under the stability conditions succeeds, and the new values are
between any bounds of the old values and of the boundary values (bounds that discounting does not violate). -/
theorem C46_maximum (xs values : List K) (k : Nat) (hxl : xs.length = k + 4) (hvl : values.length = k + 4)
    (hx : ∀ i, i < k + 3 → xs.getD i 0 < xs.getD (i + 1) 0) (c : K → PdeCoeffs K) (f g : BoundaryFn K) (theta t1 t2 fm gm f2 g2 lo hi : K)
    (hth0 : 0 ≤ theta) (hth1 : theta ≤ 1) (ht : t2 ≤ t1)
    (hc : OnGrid (c ((t1 + t2) / 2)) (k + 4)) (hfm : Prescribes (f ((t1 + t2) / 2)) fm) (hgm : Prescribes (g ((t1 + t2) / 2)) gm)
    (hf2 : Prescribes (f t2) f2) (hg2 : Prescribes (g t2) g2)
    (hst : Stable (c ((t1 + t2) / 2)) (fun i => xs.getD i 0) k (theta * (t1 - t2)))
    (hv : ∀ i, i < k + 4 → lo ≤ values.getD i 0 ∧ values.getD i 0 ≤ hi)
    (hb : ∀ y ∈ [fm, gm, f2, g2], lo ≤ y ∧ y ≤ hi)
    (hz : ∀ i, i < k + 2 → coeffAt (c ((t1 + t2) / 2)).zeroth (i + 1) * hi ≤ 0 ∧ 0 ≤ coeffAt (c ((t1 + t2) / 2)).zeroth (i + 1) * lo) :
    ∃ w, parabolicStep t1 t2 xs values (some f) (some g) c (weightedScheme theta) = some w ∧ w.length = k + 4 ∧
      ∀ i, i < k + 4 → lo ≤ w.getD i 0 ∧ w.getD i 0 ≤ hi := by
  have exs := asRange xs _ hxl
  have evs := asRange values _ hvl
  obtain ⟨z, hz1⟩ := dirichlet_total (fun i => xs.getD i 0) (fun i => values.getD i 0) k hx c f g theta t1 t2 fm gm f2 g2 hc hfm hgm hf2 hg2
    hth0 hth1 ht _ hst
  obtain ⟨_, _, hzl, hz0, hzn, v', w', a1, a2, a3, a4, a5, heq⟩ := dirichlet_rows (fun i => xs.getD i 0) (fun i => values.getD i 0) k hx c f g theta t1 t2
    fm gm f2 g2 hc hfm hgm hf2 hg2 z hz1
  rw [← exs, ← evs] at hz1
  refine ⟨z, hz1, hzl, ?_⟩
  have hE := stable_entries _ _ k _ hx hst
  have hb1 := hb fm (by simp)
  have hb2 := hb gm (by simp)
  have hv' : ∀ i, i < k + 2 + 2 → lo ≤ v' i ∧ v' i ≤ hi := by
    intro i hi
    by_cases h0 : i = 0
    · rw [h0, a1]; exact hb1
    · by_cases h3 : i = k + 3
      · rw [h3, a3]; exact hb2
      · rw [(a5 i (by omega) (by omega)).1]; exact hv i (by omega)
  have up := core_max (k + 2) (entryLo (c ((t1 + t2) / 2)) (fun i => xs.getD i 0)) (entryDiag (c ((t1 + t2) / 2)) (fun i => xs.getD i 0))
    (entryUp (c ((t1 + t2) / 2)) (fun i => xs.getD i 0)) v' w' theta (t1 - t2) hi hth0 hth1 (by linarith)
    (fun i h => (hE i h).1) (fun i h => (hE i h).2.1) (fun i h => by rw [(hE i h).2.2.1]; linarith [hst.zeroth i h])
    (fun i h => by rw [(hE i h).2.2.1]; linarith [(hz i h).1]) (fun i h => (hE i h).2.2.2) heq (fun i h => (hv' i h).2)
    (by rw [a2]; exact hb1.2) (by rw [show k + 2 + 1 = k + 3 from rfl, a4]; exact hb2.2)
  have dn := core_max (k + 2) (entryLo (c ((t1 + t2) / 2)) (fun i => xs.getD i 0)) (entryDiag (c ((t1 + t2) / 2)) (fun i => xs.getD i 0))
    (entryUp (c ((t1 + t2) / 2)) (fun i => xs.getD i 0)) (fun i => -v' i) (fun i => -w' i) theta (t1 - t2) (-lo) hth0 hth1 (by linarith)
    (fun i h => (hE i h).1) (fun i h => (hE i h).2.1) (fun i h => by rw [(hE i h).2.2.1]; linarith [hst.zeroth i h])
    (fun i h => by rw [(hE i h).2.2.1]; linarith [(hz i h).2]) (fun i h => (hE i h).2.2.2) (fun i h => by linear_combination -(heq i h))
    (fun i h => neg_le_neg (hv' i h).1) (by simp only [a2]; exact neg_le_neg hb1.1)
    (by simp only [show k + 2 + 1 = k + 3 from rfl, a4]; exact neg_le_neg hb2.1)
  intro i hi
  by_cases h0 : i = 0
  · rw [h0, hz0]; exact hb f2 (by simp)
  · by_cases h3 : i = k + 3
    · rw [h3, hzn]; exact hb g2 (by simp)
    · rw [← (a5 i (by omega) (by omega)).2]
      exact ⟨neg_le_neg_iff.1 (dn i (by omega)), up i (by omega)⟩

/-- C46, comparison: larger values and larger boundary values give larger results. -/
theorem C46_comparison (xs values values' : List K) (k : Nat) (hxl : xs.length = k + 4) (hvl : values.length = k + 4) (hvl' : values'.length = k + 4)
    (hx : ∀ i, i < k + 3 → xs.getD i 0 < xs.getD (i + 1) 0) (c : K → PdeCoeffs K) (f g f' g' : BoundaryFn K)
    (theta t1 t2 fm gm f2 g2 fm' gm' f2' g2' : K) (ht : t2 ≤ t1)
    (hc : OnGrid (c ((t1 + t2) / 2)) (k + 4)) (hfm : Prescribes (f ((t1 + t2) / 2)) fm) (hgm : Prescribes (g ((t1 + t2) / 2)) gm)
    (hf2 : Prescribes (f t2) f2) (hg2 : Prescribes (g t2) g2)
    (hfm' : Prescribes (f' ((t1 + t2) / 2)) fm') (hgm' : Prescribes (g' ((t1 + t2) / 2)) gm')
    (hf2' : Prescribes (f' t2) f2') (hg2' : Prescribes (g' t2) g2')
    (hst : Stable (c ((t1 + t2) / 2)) (fun i => xs.getD i 0) k (theta * (t1 - t2)))
    (hv : ∀ i, i < k + 4 → values.getD i 0 ≤ values'.getD i 0) (hb : fm ≤ fm' ∧ gm ≤ gm' ∧ f2 ≤ f2' ∧ g2 ≤ g2') (w w' : List K)
    (h : parabolicStep t1 t2 xs values (some f) (some g) c (weightedScheme theta) = some w)
    (h' : parabolicStep t1 t2 xs values' (some f') (some g') c (weightedScheme theta) = some w') :
    ∀ i, i < k + 4 → w.getD i 0 ≤ w'.getD i 0 := by
  have exs := asRange xs _ hxl
  have evs := asRange values _ hvl
  have evs' := asRange values' _ hvl'
  rw [exs, evs] at h
  rw [exs, evs'] at h'
  obtain ⟨hth0, hth1, hzl, hz0, hzn, v1, w1, a1, a2, a3, a4, a5, heq⟩ := dirichlet_rows (fun i => xs.getD i 0) (fun i => values.getD i 0) k hx c f g theta t1 t2
    fm gm f2 g2 hc hfm hgm hf2 hg2 w h
  obtain ⟨_, _, hzl', hz0', hzn', v2, w2, b1, b2, b3, b4, b5, heq'⟩ := dirichlet_rows (fun i => xs.getD i 0) (fun i => values'.getD i 0) k hx c f' g' theta t1 t2
    fm' gm' f2' g2' hc hfm' hgm' hf2' hg2' w' h'
  have hE := stable_entries _ _ k _ hx hst
  have up := core_max (k + 2) (entryLo (c ((t1 + t2) / 2)) (fun i => xs.getD i 0)) (entryDiag (c ((t1 + t2) / 2)) (fun i => xs.getD i 0))
    (entryUp (c ((t1 + t2) / 2)) (fun i => xs.getD i 0)) (fun i => v1 i - v2 i) (fun i => w1 i - w2 i) theta (t1 - t2) 0 hth0 hth1 (by linarith)
    (fun i h => (hE i h).1) (fun i h => (hE i h).2.1) (fun i h => by rw [(hE i h).2.2.1]; linarith [hst.zeroth i h])
    (fun i h => by simp) (fun i h => (hE i h).2.2.2) (fun i h => by linear_combination heq i h - heq' i h)
    (by
      intro i hi
      by_cases h0 : i = 0
      · simp only [h0, a1, b1]; linarith [hb.1]
      · by_cases h3 : i = k + 3
        · simp only [h3, a3, b3]; linarith [hb.2.1]
        · simp only [(a5 i (by omega) (by omega)).1, (b5 i (by omega) (by omega)).1]; linarith [hv i (by omega)])
    (by simp only [a2, b2]; linarith [hb.1]) (by simp only [show k + 2 + 1 = k + 3 from rfl, a4, b4]; linarith [hb.2.1])
  intro i hi
  by_cases h0 : i = 0
  · rw [h0, hz0, hz0']; exact hb.2.2.1
  · by_cases h3 : i = k + 3
    · rw [h3, hzn, hzn']; exact hb.2.2.2
    · rw [← (a5 i (by omega) (by omega)).2, ← (b5 i (by omega) (by omega)).2]
      linarith [up i (by omega)]

/-- Crank-Nicolson with discounting on a non-uniform grid: values and boundary values between 0 and 4. -/
theorem ex_stable : Stable (⟨some [1, 1, 1, 1], some [1, 1, 1, 1], some [-1, -1, -1, -1], none, none⟩ : PdeCoeffs Rat)
    (fun i => [0, 1, 3, 4].getD i 0) 0 (1 / 2 * (1 / 2 - 0)) := by
  refine ⟨rfl, rfl, ?_, ?_, ?_, ?_⟩ <;> intro i hi <;> interval_cases i <;> norm_num [coeffAt]

example : ∃ w, parabolicStep (1 / 2 : Rat) 0 [0, 1, 3, 4] [0, 1, 3, 4] (some fun _ => (some 1, none, 0)) (some fun _ => (some 1, none, 4))
    (fun _ => ⟨some [1, 1, 1, 1], some [1, 1, 1, 1], some [-1, -1, -1, -1], none, none⟩) (weightedScheme (1 / 2)) = some w ∧
    w.length = 4 ∧ ∀ i, i < 4 → 0 ≤ w.getD i 0 ∧ w.getD i 0 ≤ 4 := by
  refine C46_maximum [0, 1, 3, 4] [0, 1, 3, 4] 0 rfl rfl ?_ _ _ _ _ _ _ 0 4 0 4 0 4 (by norm_num) (by norm_num) (by norm_num) ?_
    ⟨1, 0, rfl, by norm_num, by norm_num⟩ ⟨1, 4, rfl, by norm_num, by norm_num⟩ ⟨1, 0, rfl, by norm_num, by norm_num⟩
    ⟨1, 4, rfl, by norm_num, by norm_num⟩ ex_stable ?_ ?_ ?_
  · intro i hi; interval_cases i <;> norm_num
  · refine ⟨?_, ?_, ?_, ?_, ?_⟩ <;> intro l hl <;> simp at hl <;> subst hl <;> rfl
  · intro i hi; interval_cases i <;> norm_num
  · intro y hy; simp at hy; rcases hy with rfl | rfl | rfl | rfl <;> norm_num
  · intro i hi; interval_cases i <;> norm_num [coeffAt]

end Props
