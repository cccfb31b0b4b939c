import Verif.Props.FdConvergence
import Verif.Lemmas.EnergyStep
import Mathlib.Analysis.Calculus.MeanValue

/-! # C144 Stability and convergence in the mean square without a condition on the time step -/

namespace Spec
open Model Set

/-- Mean square over the inner points, each weighted with half of the length of its two cells, relative to the whole interval. -/
noncomputable def cellMeanSquare (xs : List ℝ) (k : ℕ) (f : ℕ → ℝ) : ℝ :=
  √(∑ i ∈ Finset.range (k + 2), (xs.getD (i + 2) 0 - xs.getD i 0) / 2 / (xs.getD (k + 3) 0 - xs.getD 0 0) * f (i + 1) ^ 2)

/-- The diffusion is positive and changes at most by `La` per unit of space, the drift is bounded and there is no source. -/
structure Diffusive (a b z : ℝ → ℝ → ℝ) (e s lo hi al La B : ℝ) : Prop where
  positive : ∀ t ∈ Icc e s, ∀ x ∈ Icc lo hi, al ≤ a t x
  lipschitz : ∀ t ∈ Icc e s, ∀ x ∈ Icc lo hi, ∀ y ∈ Icc lo hi, |a t x - a t y| ≤ La * |x - y|
  drift : ∀ t ∈ Icc e s, ∀ x ∈ Icc lo hi, |b t x| ≤ B
  zeroth : ∀ t ∈ Icc e s, ∀ x ∈ Icc lo hi, z t x ≤ 0

/-- Neighbouring cells have lengths within the factor `rho`. -/
def Graded (xs : List ℝ) (k : ℕ) (rho : ℝ) : Prop := ∀ i, i < k + 2 →
  xs.getD (i + 2) 0 - xs.getD (i + 1) 0 ≤ rho * (xs.getD (i + 1) 0 - xs.getD i 0) ∧
  xs.getD (i + 1) 0 - xs.getD i 0 ≤ rho * (xs.getD (i + 2) 0 - xs.getD (i + 1) 0)

/-- Rate at which the mean square can grow. -/
noncomputable def growthRate (al La B rho : ℝ) : ℝ := (La + rho * B) ^ 2 / (4 * al)

/-- Bound of the error in the mean square: `d` is the time step, `T` the length of the time interval, `L` that of the interval in space, `tau` the
truncation error, `de` the error of the average of the boundary values over a step, `ch` its change per unit of time. -/
noncomputable def energyError (G T L B C eps tau de ch : ℝ) : ℝ :=
  Real.exp (4 * G * T) * (eps + de + T * (2 * (tau + 2 * B * de / L + C * de) + ch)) + de

end Spec

namespace Props
open Model Spec Lemmas Set

/-- The errors of a step satisfy the difference equation with the truncation error as source. -/
theorem error_rows {D : ℕ → ℕ → ℝ → ℝ → ℝ} {a b z : ℝ → ℝ → ℝ} {e s lo hi A B C M3 M4 Q : ℝ} {P N : ℕ → ℝ}
    (hS : ClassicalSolution D a b z e s lo hi) (hB : Bounded D a b z e s lo hi A B C M3 M4 Q P N)
    (xs values : List ℝ) (k : ℕ) (c : ℝ → PdeCoeffs ℝ) (f g : BoundaryFn ℝ) (hD : Discretises xs k c f g (D 0 0) a b z e s lo hi)
    (h sigma theta dt t1 t2 : ℝ) (hm : Mesh xs k h sigma) (hth0 : 0 ≤ theta) (hth1 : theta ≤ 1)
    (m1 : t1 ∈ Icc e s) (m2 : t2 ∈ Icc e s) (ht : t2 < t1) (hdt : t1 - t2 ≤ dt)
    (hst : Stable (c ((t1 + t2) / 2)) (fun i => xs.getD i 0) k 0) (hvl : values.length = k + 4) :
    ∃ w, parabolicStep t1 t2 xs values (some f) (some g) c (weightedScheme theta) = some w ∧ w.length = k + 4 ∧
      w.getD 0 0 = D 0 0 t2 lo ∧ w.getD (k + 3) 0 = D 0 0 t2 hi ∧ ∃ ev ew r : ℕ → ℝ,
      (∀ i, i = 0 ∨ i = k + 3 → ev i = D 0 0 ((t1 + t2) / 2) (xs.getD i 0) - (theta * D 0 0 t1 (xs.getD i 0) + (1 - theta) * D 0 0 t2 (xs.getD i 0)) ∧
        ew i = ev i) ∧
      (∀ i, 1 ≤ i → i ≤ k + 2 → ev i = values.getD i 0 - D 0 0 t1 (xs.getD i 0) ∧ ew i = w.getD i 0 - D 0 0 t2 (xs.getD i 0)) ∧
      (∀ i, i < k + 2 → |r i| ≤ truncation theta dt h sigma A B C M3 M4 Q P N) ∧
      ∀ i, i < k + 2 → ew (i + 1) - ev (i + 1) = -(t1 - t2) *
        diffRow (fun i => xs.getD i 0) (fun i => a ((t1 + t2) / 2) (xs.getD i 0)) (fun i => b ((t1 + t2) / 2) (xs.getD i 0))
          (fun i => z ((t1 + t2) / 2) (xs.getD i 0)) (fun i => theta * ev i + (1 - theta) * ew i) i + (t1 - t2) * r i := by
  have mm : (t1 + t2) / 2 ∈ Icc e s := ⟨by linarith [m1.1, m2.1], by linarith [m1.2, m2.2]⟩
  have hx := hD.increasing
  have hmem : ∀ i, i ≤ k + 3 → xs.getD i 0 ∈ Icc lo hi := by
    intro i hi
    have := grid_mem (fun i => xs.getD i 0) k hx i hi
    simp only [hD.first, hD.last] at this
    exact this
  have mlo : lo ∈ Icc lo hi := by have := hmem 0 (by omega); rwa [hD.first] at this
  have mhi : hi ∈ Icc lo hi := by have := hmem (k + 3) le_rfl; rwa [hD.last] at this
  obtain ⟨nA, nB, nC, n3, n4, nQ, nP, nN⟩ := bounded_nonneg hB (m1.1.trans m1.2) (mlo.1.trans mlo.2)
  obtain ⟨w, hw⟩ := dirichlet_total (fun i => xs.getD i 0) (fun i => values.getD i 0) k hx c f g theta t1 t2 _ _ _ _ (hD.onGrid _ mm)
    (hD.lower _ mm) (hD.upper _ mm) (hD.lower _ m2) (hD.upper _ m2) hth0 hth1 ht.le _ hst
  obtain ⟨_, _, hwl, hw0, hwn, v', w', a1, a2, a3, a4, a5, heq⟩ := dirichlet_rows (fun i => xs.getD i 0) (fun i => values.getD i 0) k hx c f g theta t1 t2
    _ _ _ _ (hD.onGrid _ mm) (hD.lower _ mm) (hD.upper _ mm) (hD.lower _ m2) (hD.upper _ m2) w hw
  rw [← asRange xs _ hD.length, ← asRange values _ hvl] at hw
  have hd : 0 < t1 - t2 := by linarith
  have gx : ∀ i, (fun i => xs.getD i 0) i = xs.getD i 0 := fun _ => rfl
  -- errors, at the boundaries those of the average
  obtain ⟨ev, hev⟩ : ∃ ev : Nat → ℝ, ∀ i, ev i = if i = 0 ∨ i = k + 3 then
      D 0 0 ((t1 + t2) / 2) (xs.getD i 0) - (theta * D 0 0 t1 (xs.getD i 0) + (1 - theta) * D 0 0 t2 (xs.getD i 0)) else v' i - D 0 0 t1 (xs.getD i 0) :=
    ⟨_, fun _ => rfl⟩
  obtain ⟨ew, hew⟩ : ∃ ew : Nat → ℝ, ∀ i, ew i = if i = 0 ∨ i = k + 3 then
      D 0 0 ((t1 + t2) / 2) (xs.getD i 0) - (theta * D 0 0 t1 (xs.getD i 0) + (1 - theta) * D 0 0 t2 (xs.getD i 0)) else w' i - D 0 0 t2 (xs.getD i 0) :=
    ⟨_, fun _ => rfl⟩
  obtain ⟨r, hr⟩ : ∃ r : Nat → ℝ, ∀ i, (t1 - t2) * r i = -(D 0 0 t2 (xs.getD (i + 1) 0) - D 0 0 t1 (xs.getD (i + 1) 0) + (t1 - t2) *
      (theta * (entryLo (c ((t1 + t2) / 2)) (fun i => xs.getD i 0) i * D 0 0 t1 (xs.getD i 0) +
        entryDiag (c ((t1 + t2) / 2)) (fun i => xs.getD i 0) i * D 0 0 t1 (xs.getD (i + 1) 0) +
        entryUp (c ((t1 + t2) / 2)) (fun i => xs.getD i 0) i * D 0 0 t1 (xs.getD (i + 2) 0)) +
      (1 - theta) * (entryLo (c ((t1 + t2) / 2)) (fun i => xs.getD i 0) i * D 0 0 t2 (xs.getD i 0) +
        entryDiag (c ((t1 + t2) / 2)) (fun i => xs.getD i 0) i * D 0 0 t2 (xs.getD (i + 1) 0) +
        entryUp (c ((t1 + t2) / 2)) (fun i => xs.getD i 0) i * D 0 0 t2 (xs.getD (i + 2) 0)))) :=
    ⟨fun i => _ / (t1 - t2), fun i => mul_div_cancel₀ _ hd.ne'⟩
  have hrb : ∀ i, i < k + 2 → |r i| ≤ truncation theta dt h sigma A B C M3 M4 Q P N := by
    intro i hi
    have := residual_bound hS hB (c ((t1 + t2) / 2)) (fun i => xs.getD i 0) i (hmem i (by omega)).1 (hx i (by omega)) (hx (i + 1) (by omega))
      (hmem (i + 2) (by omega)).2 h sigma theta dt t1 t2 (hm.size i (by omega)) (hm.size (i + 1) (by omega)) (hm.change i hi) hth0 hth1 m1 m2 ht.le hdt
      hst.innerSecond hst.innerFirst (hD.coeffs _ mm i hi)
    have e := hr i
    rw [← abs_neg, ← e, abs_mul, abs_of_pos hd] at this
    exact le_of_mul_le_mul_left this hd
  -- the combination that occurs in the rows
  have comb : ∀ i, i < k + 4 → theta * ev i + (1 - theta) * ew i =
      theta * (v' i - D 0 0 t1 (xs.getD i 0)) + (1 - theta) * (w' i - D 0 0 t2 (xs.getD i 0)) := by
    intro i hi
    rw [hev, hew]
    by_cases h0 : i = 0
    · rw [if_pos (Or.inl h0), if_pos (Or.inl h0), h0, a1, a2, hD.first]; ring
    · by_cases h3 : i = k + 3
      · rw [if_pos (Or.inr h3), if_pos (Or.inr h3), h3, a3, a4, hD.last]; ring
      · rw [if_neg (by omega), if_neg (by omega)]
  have rows : ∀ i, i < k + 2 → ew (i + 1) - ev (i + 1) = -(t1 - t2) *
      (theta * (entryLo (c ((t1 + t2) / 2)) (fun i => xs.getD i 0) i * ev i + entryDiag (c ((t1 + t2) / 2)) (fun i => xs.getD i 0) i * ev (i + 1) +
        entryUp (c ((t1 + t2) / 2)) (fun i => xs.getD i 0) i * ev (i + 2)) +
      (1 - theta) * (entryLo (c ((t1 + t2) / 2)) (fun i => xs.getD i 0) i * ew i + entryDiag (c ((t1 + t2) / 2)) (fun i => xs.getD i 0) i * ew (i + 1) +
        entryUp (c ((t1 + t2) / 2)) (fun i => xs.getD i 0) i * ew (i + 2))) + (t1 - t2) * r i := by
    intro i hi
    have c0 := comb i (by omega)
    have c1 := comb (i + 1) (by omega)
    have c2 := comb (i + 2) (by omega)
    have q := heq i hi
    have e1 : ev (i + 1) = v' (i + 1) - D 0 0 t1 (xs.getD (i + 1) 0) := by rw [hev, if_neg (by omega)]
    have e2 : ew (i + 1) = w' (i + 1) - D 0 0 t2 (xs.getD (i + 1) 0) := by rw [hew, if_neg (by omega)]
    rw [hr i]
    rw [e1, e2] at c1 ⊢
    linear_combination q + (t1 - t2) * entryLo (c ((t1 + t2) / 2)) (fun i => xs.getD i 0) i * c0 +
      (t1 - t2) * entryUp (c ((t1 + t2) / 2)) (fun i => xs.getD i 0) i * c2
  refine ⟨w, hw, hwl, hw0, hwn, ev, ew, r, fun i hi => ?_, fun i hi1 hi2 => ?_, hrb, fun i hi => ?_⟩
  · rw [hev, hew, if_pos hi, if_pos hi]
    exact ⟨rfl, rfl⟩
  · rw [hev, hew, if_neg (by omega), if_neg (by omega), (a5 i hi1 hi2).1, (a5 i hi1 hi2).2]
    exact ⟨rfl, rfl⟩
  · have q1 := row_differences (c ((t1 + t2) / 2)) (fun i => xs.getD i 0) i (hx i (by omega)) (hx (i + 1) (by omega)) hst.innerSecond hst.innerFirst
      (fun i => theta * ev i + (1 - theta) * ew i)
    obtain ⟨ca, cb, cz⟩ := hD.coeffs _ mm i hi
    rw [ca, cb, cz] at q1
    have q2 := rows i hi
    unfold diffRow
    rw [q2, ← q1]
    ring

/-- Difference of the value in the middle of a step from the average over its ends. -/
noncomputable def boundaryGap (u : ℝ → ℝ → ℝ) (theta t1 t2 y : ℝ) : ℝ := u ((t1 + t2) / 2) y - (theta * u t1 y + (1 - theta) * u t2 y)

/-- The line through `p` at `lo` and `q` at `hi`. -/
noncomputable def gapLift (lo hi p q x : ℝ) : ℝ := p + (x - lo) / (hi - lo) * (q - p)

theorem gapLift_lo (lo hi p q : ℝ) : gapLift lo hi p q lo = p := by
  simp [gapLift]

theorem gapLift_hi (lo hi p q : ℝ) (h : lo < hi) : gapLift lo hi p q hi = q := by
  have : hi - lo ≠ 0 := (sub_pos.2 h).ne'
  rw [gapLift, div_self this]
  ring

theorem gapLift_le (lo hi p q x de : ℝ) (h : lo < hi) (hx : x ∈ Icc lo hi) (hp : |p| ≤ de) (hq : |q| ≤ de) : |gapLift lo hi p q x| ≤ de := by
  have h0 := sub_pos.2 h
  have l0 : 0 ≤ (x - lo) / (hi - lo) := div_nonneg (by linarith [hx.1]) h0.le
  have l1 : (x - lo) / (hi - lo) ≤ 1 := (div_le_one h0).2 (by linarith [hx.2])
  rw [gapLift]
  generalize (x - lo) / (hi - lo) = l at *
  rw [abs_le] at *
  constructor <;> nlinarith

theorem gapLift_sub (lo hi p q p' q' x : ℝ) : gapLift lo hi p q x - gapLift lo hi p' q' x = gapLift lo hi (p - p') (q - q') x := by
  unfold gapLift; ring

theorem diffRow_sub (x a b z m l : ℕ → ℝ) (i : ℕ) : diffRow x a b z (fun i => m i - l i) i = diffRow x a b z m i - diffRow x a b z l i := by
  unfold diffRow; ring

theorem diffRow_lift (x a b z : ℕ → ℝ) (lo hi p q : ℝ) (i : ℕ) (h1 : x i < x (i + 1)) (h2 : x (i + 1) < x (i + 2)) :
    diffRow x a b z (fun i => gapLift lo hi p q (x i)) i = -(b (i + 1) * ((q - p) / (hi - lo)) + z (i + 1) * gapLift lo hi p q (x (i + 1))) := by
  have hb := sub_pos.2 h1
  have hf := sub_pos.2 h2
  have hs : 0 < x (i + 2) - x i := by linarith
  have e1 : gapLift lo hi p q (x (i + 2)) - gapLift lo hi p q (x (i + 1)) = (x (i + 2) - x (i + 1)) * ((q - p) / (hi - lo)) := by unfold gapLift; ring
  have e2 : gapLift lo hi p q (x (i + 1)) - gapLift lo hi p q (x i) = (x (i + 1) - x i) * ((q - p) / (hi - lo)) := by unfold gapLift; ring
  unfold diffRow
  rw [e1, e2]
  generalize (q - p) / (hi - lo) = sl
  have e3 : x (i + 2) - x i = (x (i + 2) - x (i + 1)) + (x (i + 1) - x i) := by ring
  rw [e3] at hs ⊢
  generalize x (i + 1) - x i = bd at *
  generalize x (i + 2) - x (i + 1) = fd at *
  field_simp
  ring

/-- Weights of the mean square. -/
noncomputable def cellWeight (xs : List ℝ) (k : ℕ) (i : ℕ) : ℝ := (xs.getD (i + 2) 0 - xs.getD i 0) / 2 / (xs.getD (k + 3) 0 - xs.getD 0 0)

theorem cellMeanSquare_eq (xs : List ℝ) (k : ℕ) (f : ℕ → ℝ) : cellMeanSquare xs k f = wNorm (k + 2) (cellWeight xs k) f := rfl

theorem cellWeight_nonneg (xs : List ℝ) (k : ℕ) (hx : ∀ i, i < k + 3 → xs.getD i 0 < xs.getD (i + 1) 0) (i : ℕ) (hi : i < k + 2) : 0 ≤ cellWeight xs k i := by
  have h1 := hx i (by omega)
  have h2 := hx (i + 1) (by omega)
  have h3 := (grid_mem (fun i => xs.getD i 0) k hx 0 (by omega)).2
  rw [show i + 1 + 1 = i + 2 from rfl] at h2
  exact div_nonneg (by linarith) (sub_nonneg.2 h3)

theorem cellWeight_sum (xs : List ℝ) (k : ℕ) (hx : ∀ i, i < k + 3 → xs.getD i 0 < xs.getD (i + 1) 0) :
    ∑ i ∈ Finset.range (k + 2), cellWeight xs k i ≤ 1 := by
  have h0 : xs.getD 0 0 < xs.getD (k + 3) 0 :=
    (hx 0 (by omega)).trans_le (grid_mem (fun i => xs.getD i 0) k hx 1 (by omega)).2
  have h1 := (grid_mem (fun i => xs.getD i 0) k hx 1 (by omega)).1
  have h2 := (grid_mem (fun i => xs.getD i 0) k hx (k + 2) (by omega)).2
  beta_reduce at h1 h2
  unfold cellWeight
  rw [← Finset.sum_div, div_le_one (sub_pos.2 h0)]
  have e1 := Finset.sum_range_sub (fun i => xs.getD i 0) (k + 2)
  have e2 := Finset.sum_range_sub (fun i => xs.getD (i + 1) 0) (k + 2)
  have e3 : ∑ i ∈ Finset.range (k + 2), (xs.getD (i + 2) 0 - xs.getD i 0) / 2 =
      (∑ i ∈ Finset.range (k + 2), (xs.getD (i + 1 + 1) 0 - xs.getD (i + 1) 0) + ∑ i ∈ Finset.range (k + 2), (xs.getD (i + 1) 0 - xs.getD i 0)) / 2 := by
    rw [← Finset.sum_add_distrib, Finset.sum_div]
    exact Finset.sum_congr rfl fun i _ => by ring
  rw [e3, e1, e2]
  rw [show k + 2 + 1 = k + 3 from rfl, show (0 : ℕ) + 1 = 1 from rfl]
  linarith

/-- The difference operator on a grid is bounded below in the mean square. -/
theorem grid_energy {a b z : ℝ → ℝ → ℝ} {e s lo hi al La B rho : ℝ} (hV : Diffusive a b z e s lo hi al La B) (hal : 0 < al) (hLa : 0 ≤ La) (hrho : 0 ≤ rho)
    (xs : List ℝ) (k : ℕ) (hx : ∀ i, i < k + 3 → xs.getD i 0 < xs.getD (i + 1) 0) (hlo : xs.getD 0 0 = lo) (hhi : xs.getD (k + 3) 0 = hi)
    (hg : Graded xs k rho) (t : ℝ) (ht : t ∈ Icc e s) (m : ℕ → ℝ) (m0 : m 0 = 0) (mn : m (k + 3) = 0) :
    -(growthRate al La B rho * ∑ i ∈ Finset.range (k + 2), cellWeight xs k i * m (i + 1) ^ 2) ≤
      ∑ i ∈ Finset.range (k + 2), cellWeight xs k i * (m (i + 1) *
        diffRow (fun i => xs.getD i 0) (fun i => a t (xs.getD i 0)) (fun i => b t (xs.getD i 0)) (fun i => z t (xs.getD i 0)) m i) := by
  have hmem : ∀ i, i ≤ k + 3 → xs.getD i 0 ∈ Icc lo hi := by
    intro i hi
    have := grid_mem (fun i => xs.getD i 0) k hx i hi
    simp only [hlo, hhi] at this
    exact this
  have h0 : xs.getD 0 0 < xs.getD (k + 3) 0 :=
    (hx 0 (by omega)).trans_le (grid_mem (fun i => xs.getD i 0) k hx 1 (by omega)).2
  have hB : 0 ≤ B := (abs_nonneg _).trans (hV.drift t ht _ (hmem 0 (by omega)))
  have q := energy_bound (k + 2) (fun i => xs.getD i 0) (fun i => a t (xs.getD i 0)) (fun i => b t (xs.getD i 0)) (fun i => z t (xs.getD i 0)) m al La B rho
    hal hLa hB hrho hx (fun i hi => hV.positive t ht _ (hmem i hi))
    (fun i hi => by
      have := hV.lipschitz t ht _ (hmem (i + 1) (by omega)) _ (hmem i (by omega))
      rwa [abs_of_pos (sub_pos.2 (hx i hi))] at this)
    (fun i hi => hV.drift t ht _ (hmem (i + 1) (by omega))) (fun i hi => hV.zeroth t ht _ (hmem (i + 1) (by omega)))
    (fun i hi => (hg i hi).1) (fun i hi => (hg i hi).2) m0 mn
  have hL : 0 ≤ 1 / (xs.getD (k + 3) 0 - xs.getD 0 0) := (one_div_pos.2 (sub_pos.2 h0)).le
  have q2 := mul_le_mul_of_nonneg_left q hL
  have e1 : ∀ f : ℕ → ℝ, ∑ i ∈ Finset.range (k + 2), cellWeight xs k i * f i =
      1 / (xs.getD (k + 3) 0 - xs.getD 0 0) * ∑ i ∈ Finset.range (k + 2), (xs.getD (i + 2) 0 - xs.getD i 0) / 2 * f i := by
    intro f
    rw [Finset.mul_sum]
    exact Finset.sum_congr rfl fun i _ => by unfold cellWeight; ring
  rw [e1 (fun i => m (i + 1) ^ 2), e1 (fun i => m (i + 1) * _)]
  calc _ = _ := by unfold growthRate; ring
    _ ≤ _ := q2

/-- Coefficients of the equation make the matrix of a step invertible. -/
theorem grid_stable {a b z u : ℝ → ℝ → ℝ} {e s lo hi al La B : ℝ} (hV : Diffusive a b z e s lo hi al La B) (xs : List ℝ) (k : ℕ) (c : ℝ → PdeCoeffs ℝ)
    (f g : BoundaryFn ℝ) (hD : Discretises xs k c f g u a b z e s lo hi) (hin : ∀ t ∈ Icc e s, (c t).innerSecond = none ∧ (c t).innerFirst = none)
    (h : ℝ) (hh : ∀ i, i < k + 3 → xs.getD (i + 1) 0 - xs.getD i 0 ≤ h) (hpe : B * h ≤ 2 * al) (t : ℝ) (ht : t ∈ Icc e s) :
    Stable (c t) (fun i => xs.getD i 0) k 0 := by
  have hx := hD.increasing
  have hmem : ∀ i, i ≤ k + 3 → xs.getD i 0 ∈ Icc lo hi := by
    intro i hi
    have := grid_mem (fun i => xs.getD i 0) k hx i hi
    simp only [hD.first, hD.last] at this
    exact this
  have h0 : 0 ≤ h := (sub_pos.2 (hx 0 (by omega))).le.trans (hh 0 (by omega))
  refine implicit_stable xs k (c t) h al hx hh (hin t ht).1 (hin t ht).2 (fun i hi => ?_) (fun i hi => ?_) (fun i hi => ?_)
  · rw [(hD.coeffs t ht i hi).1]; exact hV.positive t ht _ (hmem _ (by omega))
  · rw [(hD.coeffs t ht i hi).2.1]
    exact (mul_le_mul_of_nonneg_right (hV.drift t ht _ (hmem _ (by omega))) h0).trans hpe
  · rw [(hD.coeffs t ht i hi).2.2]; exact hV.zeroth t ht _ (hmem _ (by omega))

theorem growthRate_nonneg (al La B rho : ℝ) (hal : 0 < al) : 0 ≤ growthRate al La B rho := by
  unfold growthRate; positivity

/-- One step: the error minus the line through the gaps at the boundaries. -/
theorem energy_error_step {D : ℕ → ℕ → ℝ → ℝ → ℝ} {a b z : ℝ → ℝ → ℝ} {e s lo hi A B C M3 M4 Q : ℝ} {P N : ℕ → ℝ} {al La rho : ℝ}
    (hS : ClassicalSolution D a b z e s lo hi) (hB : Bounded D a b z e s lo hi A B C M3 M4 Q P N)
    (hV : Diffusive a b z e s lo hi al La B) (hal : 0 < al) (hLa : 0 ≤ La) (hrho : 0 ≤ rho)
    (xs values : List ℝ) (k : ℕ) (c : ℝ → PdeCoeffs ℝ) (f g : BoundaryFn ℝ) (hD : Discretises xs k c f g (D 0 0) a b z e s lo hi)
    (hin : ∀ t ∈ Icc e s, (c t).innerSecond = none ∧ (c t).innerFirst = none) (hg : Graded xs k rho)
    (h sigma theta t1 t2 de : ℝ) (hm : Mesh xs k h sigma) (hpe : B * h ≤ 2 * al) (hth0 : 0 ≤ theta) (hth1 : theta ≤ 1 / 2)
    (m1 : t1 ∈ Icc e s) (m2 : t2 ∈ Icc e s) (ht : t2 < t1) (hvl : values.length = k + 4)
    (hgl : |boundaryGap (D 0 0) theta t1 t2 lo| ≤ de) (hgh : |boundaryGap (D 0 0) theta t1 t2 hi| ≤ de) :
    ∃ w, parabolicStep t1 t2 xs values (some f) (some g) c (weightedScheme theta) = some w ∧ w.length = k + 4 ∧
      (1 - 2 * (t1 - t2) * growthRate al La B rho) * wNorm (k + 2) (cellWeight xs k) (fun i => w.getD i 0 - D 0 0 t2 (xs.getD i 0) -
        gapLift lo hi (boundaryGap (D 0 0) theta t1 t2 lo) (boundaryGap (D 0 0) theta t1 t2 hi) (xs.getD i 0)) ≤
      wNorm (k + 2) (cellWeight xs k) (fun i => values.getD i 0 - D 0 0 t1 (xs.getD i 0) -
        gapLift lo hi (boundaryGap (D 0 0) theta t1 t2 lo) (boundaryGap (D 0 0) theta t1 t2 hi) (xs.getD i 0)) +
      2 * (t1 - t2) * (truncation theta (t1 - t2) h sigma A B C M3 M4 Q P N + 2 * B * de / (hi - lo) + C * de) := by
  have mm : (t1 + t2) / 2 ∈ Icc e s := ⟨by linarith [m1.1, m2.1], by linarith [m1.2, m2.2]⟩
  have hx := hD.increasing
  have hmem : ∀ i, i ≤ k + 3 → xs.getD i 0 ∈ Icc lo hi := by
    intro i hi
    have := grid_mem (fun i => xs.getD i 0) k hx i hi
    simp only [hD.first, hD.last] at this
    exact this
  have hlh : lo < hi := by
    rw [← hD.first, ← hD.last]
    exact (hx 0 (by omega)).trans_le (grid_mem (fun i => xs.getD i 0) k hx 1 (by omega)).2
  have hde : 0 ≤ de := (abs_nonneg _).trans hgl
  obtain ⟨nA, nB, nC, n3, n4, nQ, nP, nN⟩ := bounded_nonneg hB (m1.1.trans m1.2) hlh.le
  have hst := grid_stable hV xs k c f g hD hin h hm.size hpe _ mm
  obtain ⟨w, hw, hwl, -, -, ev, ew, r, hbd, hinn, hr, hrows⟩ := error_rows hS hB xs values k c f g hD h sigma theta (t1 - t2) t1 t2 hm hth0 (by linarith) m1 m2 ht
    le_rfl hst hvl
  refine ⟨w, hw, hwl, ?_⟩
  obtain ⟨l, hl⟩ : ∃ l : ℕ → ℝ, ∀ i, l i = gapLift lo hi (boundaryGap (D 0 0) theta t1 t2 lo) (boundaryGap (D 0 0) theta t1 t2 hi) (xs.getD i 0) := ⟨_, fun _ => rfl⟩
  obtain ⟨dr, hdr⟩ : ∃ dr : (ℕ → ℝ) → ℕ → ℝ, dr = diffRow (fun i => xs.getD i 0) (fun i => a ((t1 + t2) / 2) (xs.getD i 0)) (fun i => b ((t1 + t2) / 2) (xs.getD i 0))
          (fun i => z ((t1 + t2) / 2) (xs.getD i 0)) := ⟨_, rfl⟩
  have hz0 : ∀ i, i = 0 ∨ i = k + 3 → ev i - l i = 0 ∧ ew i - l i = 0 := by
    intro i hi
    obtain ⟨b1, b2⟩ := hbd i hi
    rw [b2, b1, hl]
    rcases hi with rfl | rfl
    · rw [hD.first, gapLift_lo]; simp [boundaryGap]
    · rw [hD.last, gapLift_hi _ _ _ _ hlh]; simp [boundaryGap]
  have hlin : ∀ i, dr (fun i => theta * (ev i - l i) + (1 - theta) * (ew i - l i)) i = dr (fun i => theta * ev i + (1 - theta) * ew i) i - dr l i := by
    intro i
    rw [hdr, ← diffRow_sub]
    congr 1
    funext j
    ring
  have hlift : ∀ i, i < k + 2 → |dr l i| ≤ 2 * B * de / (hi - lo) + C * de := by
    intro i hi'
    have el : l = fun i => gapLift lo hi (boundaryGap (D 0 0) theta t1 t2 lo) (boundaryGap (D 0 0) theta t1 t2 hi) (xs.getD i 0) := funext hl
    have hq := diffRow_lift (fun i => xs.getD i 0) (fun i => a ((t1 + t2) / 2) (xs.getD i 0)) (fun i => b ((t1 + t2) / 2) (xs.getD i 0))
      (fun i => z ((t1 + t2) / 2) (xs.getD i 0)) lo hi (boundaryGap (D 0 0) theta t1 t2 lo) (boundaryGap (D 0 0) theta t1 t2 hi) i (hx i (by omega)) (hx (i + 1) (by omega))
    rw [hdr, el, hq, abs_neg]
    have mi := hmem (i + 1) (by omega)
    have c1 := hB.first _ mm _ mi
    have c2 := hB.zeroth _ mm _ mi
    have c3 := gapLift_le lo hi _ _ _ de hlh mi hgl hgh
    have c4 : |(boundaryGap (D 0 0) theta t1 t2 hi - boundaryGap (D 0 0) theta t1 t2 lo) / (hi - lo)| ≤ 2 * de / (hi - lo) := by
      rw [abs_div, abs_of_pos (sub_pos.2 hlh)]
      refine div_le_div_of_nonneg_right ?_ (sub_pos.2 hlh).le
      exact (abs_sub _ _).trans (by linarith)
    refine (abs_add_le _ _).trans (add_le_add ?_ ?_)
    · rw [abs_mul]
      calc _ ≤ B * (2 * de / (hi - lo)) := mul_le_mul c1 c4 (abs_nonneg _) nB
        _ = _ := by ring
    · rw [abs_mul]
      exact mul_le_mul c2 c3 (abs_nonneg _) nC
  have hres : wNorm (k + 2) (cellWeight xs k) (fun j => r (j - 1) - dr l (j - 1)) ≤
      truncation theta (t1 - t2) h sigma A B C M3 M4 Q P N + 2 * B * de / (hi - lo) + C * de := by
    have hb : ∀ i, i < k + 2 → |r (i + 1 - 1) - dr l (i + 1 - 1)| ≤
        truncation theta (t1 - t2) h sigma A B C M3 M4 Q P N + 2 * B * de / (hi - lo) + C * de := by
      intro i hi
      rw [show i + 1 - 1 = i by omega]
      exact (abs_sub _ _).trans (by linarith [hr i hi, hlift i hi])
    exact wNorm_le _ _ _ (cellWeight_nonneg xs k hx) (cellWeight_sum xs k hx) _ ((abs_nonneg _).trans (hb 0 (by omega))) hb
  have hen := grid_energy hV hal hLa hrho xs k hx hD.first hD.last hg _ mm (fun i => theta * (ev i - l i) + (1 - theta) * (ew i - l i))
    (by beta_reduce; rw [(hz0 0 (Or.inl rfl)).1, (hz0 0 (Or.inl rfl)).2]; ring)
    (by beta_reduce; rw [(hz0 (k + 3) (Or.inr rfl)).1, (hz0 (k + 3) (Or.inr rfl)).2]; ring)
  rw [← hdr] at hen
  rw [← hdr] at hrows
  have key := energy_step (k + 2) (cellWeight xs k) (fun i => ev i - l i) (fun i => ew i - l i) (fun j => r (j - 1) - dr l (j - 1))
    (fun i => dr (fun i => theta * (ev i - l i) + (1 - theta) * (ew i - l i)) i) theta (t1 - t2) (growthRate al La B rho)
    (cellWeight_nonneg xs k hx) hth0 hth1 (by linarith) (growthRate_nonneg _ _ _ _ hal) hen
    (fun i hi => by
      have q := hrows i hi
      beta_reduce
      rw [hlin, show i + 1 - 1 = i by omega]
      linear_combination q)
  have c1 : wNorm (k + 2) (cellWeight xs k) (fun i => ev i - l i) = wNorm (k + 2) (cellWeight xs k) (fun i => values.getD i 0 - D 0 0 t1 (xs.getD i 0) -
        gapLift lo hi (boundaryGap (D 0 0) theta t1 t2 lo) (boundaryGap (D 0 0) theta t1 t2 hi) (xs.getD i 0)) :=
    wNorm_congr _ _ _ _ fun i hi => by beta_reduce; rw [(hinn (i + 1) (by omega) (by omega)).1, hl]
  have c2 : wNorm (k + 2) (cellWeight xs k) (fun i => ew i - l i) = wNorm (k + 2) (cellWeight xs k) (fun i => w.getD i 0 - D 0 0 t2 (xs.getD i 0) -
        gapLift lo hi (boundaryGap (D 0 0) theta t1 t2 lo) (boundaryGap (D 0 0) theta t1 t2 hi) (xs.getD i 0)) :=
    wNorm_congr _ _ _ _ fun i hi => by beta_reduce; rw [(hinn (i + 1) (by omega) (by omega)).2, hl]
  rw [c1, c2] at key
  have := mul_le_mul_of_nonneg_left hres (show 0 ≤ 2 * (t1 - t2) by linarith)
  linarith

/-- The gap at a point changes slowly from step to step. -/
theorem gap_change (F : ℕ → ℝ → ℝ) (e s n q theta d t : ℝ) (hF : ∀ j, j < 3 → ∀ y ∈ Icc e s, HasDerivWithinAt (F j) (F (j + 1) y) (Icc e s) y)
    (h2 : ∀ y ∈ Icc e s, |F 2 y| ≤ n) (h3 : ∀ y ∈ Icc e s, |F 3 y| ≤ q) (h0 : 0 ≤ theta) (h1 : theta ≤ 1) (hd : 0 < d) (ht : t ≤ s) (hte : e ≤ t - 2 * d) :
    |(F 0 (t - d - d / 2) - (theta * F 0 (t - d) + (1 - theta) * F 0 (t - 2 * d))) - (F 0 (t - d / 2) - (theta * F 0 t + (1 - theta) * F 0 (t - d)))| ≤
      d * averageError theta d n q := by
  have hder : ∀ r : ℝ, 0 ≤ r → r ≤ d → ∀ u ∈ Icc (t - d) t, HasDerivWithinAt (fun u => F 0 (u - r)) (F 1 (u - r)) (Icc (t - d) t) u := by
    intro r hr0 hrd u hu
    have hmem : u - r ∈ Icc e s := ⟨by linarith [hu.1], by linarith [hu.2]⟩
    have hs : HasDerivWithinAt (fun u : ℝ => u - r) 1 (Icc (t - d) t) u := ((hasDerivAt_id u).sub_const r).hasDerivWithinAt
    have hmaps : MapsTo (fun u : ℝ => u - r) (Icc (t - d) t) (Icc e s) := fun v hv => by
      have := hv.1
      have := hv.2
      exact ⟨by beta_reduce; linarith, by beta_reduce; linarith⟩
    have := (hF 0 (by omega) _ hmem).comp u hs hmaps
    rw [mul_one] at this
    exact this
  have hphi : ∀ u ∈ Icc (t - d) t, HasDerivWithinAt (fun u => F 0 (u - d / 2) - (theta * F 0 (u - 0) + (1 - theta) * F 0 (u - d)))
      (F 1 (u - d / 2) - (theta * F 1 (u - 0) + (1 - theta) * F 1 (u - d))) (Icc (t - d) t) u := by
    intro u hu
    exact (hder (d / 2) (by linarith) (by linarith) u hu).sub (((hder 0 le_rfl hd.le u hu).const_mul theta).add ((hder d hd.le le_rfl u hu).const_mul (1 - theta)))
  have hbd : ∀ u ∈ Icc (t - d) t, ‖F 1 (u - d / 2) - (theta * F 1 (u - 0) + (1 - theta) * F 1 (u - d))‖ ≤ averageError theta d n q := by
    intro u hu
    have q1 := average_error e s n q theta d u (u - d) (fun j => F (j + 1)) (fun j hj y hy => hF (j + 1) (by omega) y hy) h2 h3 h0 h1
      ⟨by linarith [hu.1], by linarith [hu.2]⟩ ⟨by linarith [hu.1], by linarith [hu.2]⟩ (by linarith) (by linarith)
    beta_reduce at q1
    rw [show (u + (u - d)) / 2 = u - d / 2 by ring, show (0 : ℕ) + 1 = 1 from rfl] at q1
    rw [Real.norm_eq_abs, abs_sub_comm, sub_zero]
    exact q1
  have := (convex_Icc (t - d) t).norm_image_sub_le_of_norm_hasDerivWithin_le hphi hbd (show t ∈ Icc (t - d) t from ⟨by linarith, le_rfl⟩)
    (show t - d ∈ Icc (t - d) t from ⟨le_rfl, by linarith⟩)
  rw [Real.norm_eq_abs, Real.norm_eq_abs, show |t - d - t| = d by rw [show t - d - t = -d by ring, abs_neg, abs_of_pos hd]] at this
  beta_reduce at this
  rw [sub_zero, sub_zero, show t - d - d = t - 2 * d by ring] at this
  linarith

/-- The errors of the steps add up. -/
theorem energy_march {D : ℕ → ℕ → ℝ → ℝ → ℝ} {a b z : ℝ → ℝ → ℝ} {e s lo hi A B C M3 M4 Q : ℝ} {P N : ℕ → ℝ} {al La rho : ℝ}
    (hS : ClassicalSolution D a b z e s lo hi) (hB : Bounded D a b z e s lo hi A B C M3 M4 Q P N)
    (hV : Diffusive a b z e s lo hi al La B) (hal : 0 < al) (hLa : 0 ≤ La) (hrho : 0 ≤ rho)
    (xs : List ℝ) (k : ℕ) (c : ℝ → PdeCoeffs ℝ) (f g : BoundaryFn ℝ) (hD : Discretises xs k c f g (D 0 0) a b z e s lo hi)
    (hin : ∀ t ∈ Icc e s, (c t).innerSecond = none ∧ (c t).innerFirst = none) (hg : Graded xs k rho)
    (h sigma theta d de ch R : ℝ) (hm : Mesh xs k h sigma) (hpe : B * h ≤ 2 * al) (hth0 : 0 ≤ theta) (hth1 : theta ≤ 1 / 2)
    (hd : 0 < d) (hdG : 4 * d * growthRate al La B rho ≤ 1) (hR : R = truncation theta d h sigma A B C M3 M4 Q P N + 2 * B * de / (hi - lo) + C * de) (hR0 : 0 ≤ R)
    (times : ℕ → ℝ) (k0 L : ℕ) (hL0 : 0 < L) (hmem : ∀ i, i ≤ L → times i ∈ Icc e s) (hdt : ∀ i, i < L → times i - times (i + 1) = d)
    (hgap : ∀ i, i < L → ∀ y ∈ Icc lo hi, |boundaryGap (D 0 0) theta (times i) (times (i + 1)) y| ≤ de)
    (hch : ∀ i, i < L → ∀ y ∈ Icc lo hi, |boundaryGap (D 0 0) theta (times i) (times (i + 1)) y -
      boundaryGap (D 0 0) theta (times (i - 1)) (times (i - 1 + 1)) y| ≤ d * ch)
    (n i : ℕ) (hL : i + n = L) (values : List ℝ) (E : ℝ) (hvl : values.length = k + 4)
    (hv : wNorm (k + 2) (cellWeight xs k) (fun j => values.getD j 0 - D 0 0 (times i) (xs.getD j 0) -
        gapLift lo hi (boundaryGap (D 0 0) theta (times (i - 1)) (times (i - 1 + 1)) lo)
          (boundaryGap (D 0 0) theta (times (i - 1)) (times (i - 1 + 1)) hi) (xs.getD j 0)) ≤ E) :
    ∃ w, march (fdStep xs c f g theta) none times k0 i n values = some w ∧ w.length = k + 4 ∧
      wNorm (k + 2) (cellWeight xs k) (fun j => w.getD j 0 - D 0 0 (times L) (xs.getD j 0)) ≤
        Real.exp (4 * growthRate al La B rho * (n * d)) * (E + n * d * (2 * R + ch)) + de := by
  have hx := hD.increasing
  have hmx : ∀ i, i ≤ k + 3 → xs.getD i 0 ∈ Icc lo hi := by
    intro i hi
    have := grid_mem (fun i => xs.getD i 0) k hx i hi
    simp only [hD.first, hD.last] at this
    exact this
  have hlh : lo < hi := by
    rw [← hD.first, ← hD.last]
    exact (hx 0 (by omega)).trans_le (grid_mem (fun i => xs.getD i 0) k hx 1 (by omega)).2
  have ml : lo ∈ Icc lo hi := ⟨le_rfl, hlh.le⟩
  have mh : hi ∈ Icc lo hi := ⟨hlh.le, le_rfl⟩
  have hw0 := cellWeight_nonneg xs k hx
  have hw1 := cellWeight_sum xs k hx
  have hG := growthRate_nonneg al La B rho hal
  have hch0 : 0 ≤ d * ch := (abs_nonneg _).trans (hch 0 hL0 lo ml)
  have hc0 : 0 ≤ ch := nonneg_of_mul_nonneg_right hch0 hd
  induction n generalizing i values E with
  | zero =>
    refine ⟨values, rfl, hvl, ?_⟩
    have hde := hgap (i - 1) (by omega)
    have q1 := wNorm_le (k + 2) (cellWeight xs k) (fun j => gapLift lo hi (boundaryGap (D 0 0) theta (times (i - 1)) (times (i - 1 + 1)) lo)
          (boundaryGap (D 0 0) theta (times (i - 1)) (times (i - 1 + 1)) hi) (xs.getD j 0)) hw0 hw1 de ((abs_nonneg _).trans (hde lo ml))
      (fun j hj => gapLift_le _ _ _ _ _ _ hlh (hmx (j + 1) (by omega)) (hde lo ml) (hde hi mh))
    have q2 := wNorm_add (k + 2) (cellWeight xs k) (fun j => values.getD j 0 - D 0 0 (times i) (xs.getD j 0) -
        gapLift lo hi (boundaryGap (D 0 0) theta (times (i - 1)) (times (i - 1 + 1)) lo)
          (boundaryGap (D 0 0) theta (times (i - 1)) (times (i - 1 + 1)) hi) (xs.getD j 0))
      (fun j => gapLift lo hi (boundaryGap (D 0 0) theta (times (i - 1)) (times (i - 1 + 1)) lo)
          (boundaryGap (D 0 0) theta (times (i - 1)) (times (i - 1 + 1)) hi) (xs.getD j 0)) hw0
    have q3 : wNorm (k + 2) (cellWeight xs k) (fun j => values.getD j 0 - D 0 0 (times i) (xs.getD j 0) -
        gapLift lo hi (boundaryGap (D 0 0) theta (times (i - 1)) (times (i - 1 + 1)) lo)
          (boundaryGap (D 0 0) theta (times (i - 1)) (times (i - 1 + 1)) hi) (xs.getD j 0) +
        gapLift lo hi (boundaryGap (D 0 0) theta (times (i - 1)) (times (i - 1 + 1)) lo)
          (boundaryGap (D 0 0) theta (times (i - 1)) (times (i - 1 + 1)) hi) (xs.getD j 0)) =
        wNorm (k + 2) (cellWeight xs k) (fun j => values.getD j 0 - D 0 0 (times L) (xs.getD j 0)) :=
      wNorm_congr _ _ _ _ fun j _ => by beta_reduce; rw [sub_add_cancel, show L = i from hL.symm]
    rw [q3] at q2
    rw [Nat.cast_zero, zero_mul, mul_zero, Real.exp_zero, zero_mul]
    linarith
  | succ n ih =>
    have hiL : i < L := by omega
    have m1 := hmem i hiL.le
    have m2 := hmem (i + 1) hiL
    have hdi := hdt i hiL
    obtain ⟨w, hw, hwl, hstep⟩ := energy_error_step hS hB hV hal hLa hrho xs values k c f g hD hin hg h sigma theta (times i) (times (i + 1)) de hm hpe hth0 hth1
      m1 m2 (by linarith) hvl (hgap i hiL lo ml) (hgap i hiL _ mh)
    rw [hdi, ← hR] at hstep
    have hgr := growth_factor (2 * d * growthRate al La B rho) _ _ (by positivity) (by linarith) (add_nonneg (wNorm_nonneg _ _ _) (by positivity)) hstep
    -- change of the line
    have q1 := wNorm_le (k + 2) (cellWeight xs k) (fun j => gapLift lo hi
          (boundaryGap (D 0 0) theta (times (i - 1)) (times (i - 1 + 1)) lo - boundaryGap (D 0 0) theta (times i) (times (i + 1)) lo)
          (boundaryGap (D 0 0) theta (times (i - 1)) (times (i - 1 + 1)) hi - boundaryGap (D 0 0) theta (times i) (times (i + 1)) hi) (xs.getD j 0))
      hw0 hw1 (d * ch) hch0
      (fun j hj => gapLift_le _ _ _ _ _ _ hlh (hmx (j + 1) (by omega)) (by rw [abs_sub_comm]; exact hch i hiL lo ml) (by rw [abs_sub_comm]; exact hch i hiL _ mh))
    have q2 := wNorm_add (k + 2) (cellWeight xs k) (fun j => values.getD j 0 - D 0 0 (times i) (xs.getD j 0) -
        gapLift lo hi (boundaryGap (D 0 0) theta (times (i - 1)) (times (i - 1 + 1)) lo)
          (boundaryGap (D 0 0) theta (times (i - 1)) (times (i - 1 + 1)) hi) (xs.getD j 0))
      (fun j => gapLift lo hi
          (boundaryGap (D 0 0) theta (times (i - 1)) (times (i - 1 + 1)) lo - boundaryGap (D 0 0) theta (times i) (times (i + 1)) lo)
          (boundaryGap (D 0 0) theta (times (i - 1)) (times (i - 1 + 1)) hi - boundaryGap (D 0 0) theta (times i) (times (i + 1)) hi) (xs.getD j 0)) hw0
    have q3 : wNorm (k + 2) (cellWeight xs k) (fun j => values.getD j 0 - D 0 0 (times i) (xs.getD j 0) -
        gapLift lo hi (boundaryGap (D 0 0) theta (times (i - 1)) (times (i - 1 + 1)) lo)
          (boundaryGap (D 0 0) theta (times (i - 1)) (times (i - 1 + 1)) hi) (xs.getD j 0) +
        gapLift lo hi
          (boundaryGap (D 0 0) theta (times (i - 1)) (times (i - 1 + 1)) lo - boundaryGap (D 0 0) theta (times i) (times (i + 1)) lo)
          (boundaryGap (D 0 0) theta (times (i - 1)) (times (i - 1 + 1)) hi - boundaryGap (D 0 0) theta (times i) (times (i + 1)) hi) (xs.getD j 0)) =
        wNorm (k + 2) (cellWeight xs k) (fun j => values.getD j 0 - D 0 0 (times i) (xs.getD j 0) -
        gapLift lo hi (boundaryGap (D 0 0) theta (times i) (times (i + 1)) lo)
          (boundaryGap (D 0 0) theta (times i) (times (i + 1)) hi) (xs.getD j 0)) :=
      wNorm_congr _ _ _ _ fun j _ => by beta_reduce; rw [← gapLift_sub]; ring
    rw [q3] at q2
    obtain ⟨w2, hw2, hl2, he2⟩ := ih (i + 1) (by omega) w (Real.exp (2 * (2 * d * growthRate al La B rho)) * (E + d * ch + 2 * d * R)) hwl
      (by
        rw [show i + 1 - 1 = i by omega]
        refine hgr.trans (mul_le_mul_of_nonneg_left ?_ (Real.exp_pos _).le)
        linarith)
    refine ⟨w2, ?_, hl2, he2.trans ?_⟩
    · unfold march
      rw [show fdStep xs c f g theta (times i) (times (i + 1)) (k0 + i) values = some w from hw]
      exact hw2
    · have e1 : Real.exp (4 * growthRate al La B rho * ((n + 1 : ℕ) * d)) =
          Real.exp (4 * growthRate al La B rho * (n * d)) * Real.exp (2 * (2 * d * growthRate al La B rho)) := by
        rw [← Real.exp_add]; congr 1; push_cast; ring
      rw [e1]
      have e2 : 1 ≤ Real.exp (2 * (2 * d * growthRate al La B rho)) := Real.one_le_exp (by positivity)
      have e3 : 0 ≤ (n : ℝ) * d * (2 * R + ch) := by positivity
      have e4 := mul_le_mul_of_nonneg_right e2 e3
      have e5 := mul_le_mul_of_nonneg_left (add_le_add_right e4 (Real.exp (2 * (2 * d * growthRate al La B rho)) * (E + d * ch + 2 * d * R)))
        (Real.exp_pos (4 * growthRate al La B rho * (n * d))).le
      push_cast
      generalize Real.exp (4 * growthRate al La B rho * (n * d)) = x at *
      generalize Real.exp (2 * (2 * d * growthRate al La B rho)) = y at *
      linarith

/-- C144, stability of a step: with at most half of the weight on the explicit part, the mean square of the difference of two results grows by at most the factor
`1 / (1 - 2 dt G)`, whatever the ratio of the time step to the cells. -/
theorem C144_stable_step {a b z u : ℝ → ℝ → ℝ} {e s lo hi al La B rho : ℝ}
    (hV : Diffusive a b z e s lo hi al La B) (hal : 0 < al) (hLa : 0 ≤ La) (hrho : 0 ≤ rho)
    (xs : List ℝ) (k : ℕ) (c : ℝ → PdeCoeffs ℝ) (f g : BoundaryFn ℝ) (hD : Discretises xs k c f g u a b z e s lo hi)
    (hin : ∀ t ∈ Icc e s, (c t).innerSecond = none ∧ (c t).innerFirst = none) (hg : Graded xs k rho)
    (theta t1 t2 : ℝ) (hth1 : theta ≤ 1 / 2) (m1 : t1 ∈ Icc e s) (m2 : t2 ∈ Icc e s) (ht : t2 ≤ t1)
    (values values' w w' : List ℝ) (hvl : values.length = k + 4) (hvl' : values'.length = k + 4)
    (h : parabolicStep t1 t2 xs values (some f) (some g) c (weightedScheme theta) = some w)
    (h' : parabolicStep t1 t2 xs values' (some f) (some g) c (weightedScheme theta) = some w') :
    w.length = k + 4 ∧ w'.length = k + 4 ∧
    (1 - 2 * (t1 - t2) * growthRate al La B rho) * cellMeanSquare xs k (fun i => w.getD i 0 - w'.getD i 0) ≤
      cellMeanSquare xs k (fun i => values.getD i 0 - values'.getD i 0) := by
  have mm : (t1 + t2) / 2 ∈ Icc e s := ⟨by linarith [m1.1, m2.1], by linarith [m1.2, m2.2]⟩
  have hx := hD.increasing
  rw [asRange xs _ hD.length, asRange values _ hvl] at h
  rw [asRange xs _ hD.length, asRange values' _ hvl'] at h'
  obtain ⟨hth0, _, hwl, -, -, v1, w1, a1, a2, a3, a4, a5, heq⟩ := dirichlet_rows (fun i => xs.getD i 0) (fun i => values.getD i 0) k hx c f g theta t1 t2
    _ _ _ _ (hD.onGrid _ mm) (hD.lower _ mm) (hD.upper _ mm) (hD.lower _ m2) (hD.upper _ m2) w h
  obtain ⟨-, -, hwl', -, -, v2, w2, b1, b2, b3, b4, b5, heq'⟩ := dirichlet_rows (fun i => xs.getD i 0) (fun i => values'.getD i 0) k hx c f g theta t1 t2
    _ _ _ _ (hD.onGrid _ mm) (hD.lower _ mm) (hD.upper _ mm) (hD.lower _ m2) (hD.upper _ m2) w' h'
  refine ⟨hwl, hwl', ?_⟩
  have hen := grid_energy hV hal hLa hrho xs k hx hD.first hD.last hg _ mm (fun i => theta * (v1 i - v2 i) + (1 - theta) * (w1 i - w2 i))
    (by beta_reduce; rw [a1, a2, b1, b2]; ring) (by beta_reduce; rw [a3, a4, b3, b4]; ring)
  have key := energy_step (k + 2) (cellWeight xs k) (fun i => v1 i - v2 i) (fun i => w1 i - w2 i) (fun _ => 0) _ theta (t1 - t2) (growthRate al La B rho)
    (cellWeight_nonneg xs k hx) hth0 hth1 (by linarith) (growthRate_nonneg _ _ _ _ hal) hen
    (fun i hi => by
      have q1 := row_differences (c ((t1 + t2) / 2)) (fun i => xs.getD i 0) i (hx i (by omega)) (hx (i + 1) (by omega)) (hin _ mm).1 (hin _ mm).2
        (fun i => theta * (v1 i - v2 i) + (1 - theta) * (w1 i - w2 i))
      obtain ⟨ca, cb, cz⟩ := hD.coeffs _ mm i hi
      rw [ca, cb, cz] at q1
      unfold diffRow
      beta_reduce at q1 ⊢
      linear_combination heq i hi - heq' i hi - (t1 - t2) * q1)
  have hz : wNorm (k + 2) (cellWeight xs k) (fun _ => 0) = 0 := by simp [wNorm]
  rw [hz, mul_zero, add_zero] at key
  rw [cellMeanSquare_eq, cellMeanSquare_eq]
  have c1 : wNorm (k + 2) (cellWeight xs k) (fun i => v1 i - v2 i) = wNorm (k + 2) (cellWeight xs k) (fun i => values.getD i 0 - values'.getD i 0) :=
    wNorm_congr _ _ _ _ fun i hi => by beta_reduce; rw [(a5 (i + 1) (by omega) (by omega)).1, (b5 (i + 1) (by omega) (by omega)).1]
  have c2 : wNorm (k + 2) (cellWeight xs k) (fun i => w1 i - w2 i) = wNorm (k + 2) (cellWeight xs k) (fun i => w.getD i 0 - w'.getD i 0) :=
    wNorm_congr _ _ _ _ fun i hi => by beta_reduce; rw [(a5 (i + 1) (by omega) (by omega)).2, (b5 (i + 1) (by omega) (by omega)).2]
  rw [c1, c2] at key
  exact key

/-- C144, stability of `solve_backward`: the mean square of the difference of two solutions is at most `exp (4 G (s - e))` times that of the given values. -/
theorem C144_stable {a b z u : ℝ → ℝ → ℝ} {e s lo hi al La B rho : ℝ}
    (hV : Diffusive a b z e s lo hi al La B) (hal : 0 < al) (hLa : 0 ≤ La) (hrho : 0 ≤ rho) (he : 0 ≤ e) (hes : e < s)
    (xs : List ℝ) (k : ℕ) (c : ℝ → PdeCoeffs ℝ) (f g : BoundaryFn ℝ) (hD : Discretises xs k c f g u a b z e s lo hi)
    (hin : ∀ t ∈ Icc e s, (c t).innerSecond = none ∧ (c t).innerFirst = none) (hg : Graded xs k rho)
    (theta : ℝ) (hth1 : theta ≤ 1 / 2) (n k0 : ℕ) (hn : 0 < n) (hdG : 4 * ((s - e) / n) * growthRate al La B rho ≤ 1)
    (values values' : List ℝ) (hvl : values.length = k + 4) (hvl' : values'.length = k + 4) (r r' : List ℝ × ℝ × ℕ)
    (h : solveBackward s e values (some n) k0 none (fdStep xs c f g theta) none = some r)
    (h' : solveBackward s e values' (some n) k0 none (fdStep xs c f g theta) none = some r') :
    cellMeanSquare xs k (fun i => r.1.getD i 0 - r'.1.getD i 0) ≤
      Real.exp (4 * growthRate al La B rho * (s - e)) * cellMeanSquare xs k (fun i => values.getD i 0 - values'.getD i 0) := by
  have hn' : (0 : ℝ) < n := by exact_mod_cast hn
  have hG := growthRate_nonneg al La B rho hal
  have hend : s - n * ((s - e) / n) = e := by field_simp; ring
  have hT : (n : ℝ) * ((s - e) / n) = s - e := by linarith
  have hd : 0 < (s - e) / n := div_pos (by linarith) hn'
  rw [C47_backward_steps s e he hes n hn] at h h'
  obtain ⟨w, hw, rfl⟩ := Option.map_eq_some_iff.1 h
  obtain ⟨w', hw', rfl⟩ := Option.map_eq_some_iff.1 h'
  have htime : ∀ i : ℕ, i ≤ n → (if i < n then s - i * ((s - e) / n) else e) = s - i * ((s - e) / n) := by
    intro i hi
    split
    · rfl
    · next hc => rw [show i = n by omega, hend]
  have hcast : ∀ i : ℕ, i ≤ n → s - i * ((s - e) / n) ∈ Icc e s := by
    intro i hi
    have : (i : ℝ) ≤ n := by exact_mod_cast hi
    have := mul_le_mul_of_nonneg_right this hd.le
    have : 0 ≤ (i : ℝ) * ((s - e) / n) := by positivity
    exact ⟨by linarith, by linarith⟩
  have ind : ∀ (j i : ℕ), i + j = n → ∀ v v' : List ℝ, v.length = k + 4 → v'.length = k + 4 →
      march (fdStep xs c f g theta) none (fun i => if i < n then s - i * ((s - e) / n) else e) k0 i j v = some w →
      march (fdStep xs c f g theta) none (fun i => if i < n then s - i * ((s - e) / n) else e) k0 i j v' = some w' →
      cellMeanSquare xs k (fun i => w.getD i 0 - w'.getD i 0) ≤
        Real.exp (4 * growthRate al La B rho * (j * ((s - e) / n))) * cellMeanSquare xs k (fun i => v.getD i 0 - v'.getD i 0) := by
    intro j
    induction j with
    | zero =>
      intro i _ v v' _ _ h1 h2
      cases h1
      cases h2
      simp
    | succ j ih =>
      intro i hij v v' hl hl' h1 h2
      unfold march at h1 h2
      obtain ⟨q, hq, hqw⟩ := Option.bind_eq_some_iff.1 h1
      obtain ⟨q', hq', hqw'⟩ := Option.bind_eq_some_iff.1 h2
      beta_reduce at hq hq'
      rw [htime i (by omega), htime (i + 1) (by omega)] at hq hq'
      have hlt : s - ((i + 1 : ℕ) : ℝ) * ((s - e) / n) ≤ s - i * ((s - e) / n) := by push_cast; linarith
      obtain ⟨l1, l2, st⟩ := C144_stable_step hV hal hLa hrho xs k c f g hD hin hg theta _ _ hth1 (hcast i (by omega)) (hcast (i + 1) (by omega)) hlt
        v v' q q' hl hl' hq hq'
      rw [show s - i * ((s - e) / n) - (s - ((i + 1 : ℕ) : ℝ) * ((s - e) / n)) = (s - e) / n by push_cast; ring] at st
      have gf := growth_factor (2 * ((s - e) / n) * growthRate al La B rho) _ _ (by positivity) (by linarith) (Real.sqrt_nonneg _) st
      refine (ih (i + 1) (by omega) q q' l1 l2 hqw hqw').trans ((mul_le_mul_of_nonneg_left gf (Real.exp_pos _).le).trans (le_of_eq ?_))
      rw [← mul_assoc, ← Real.exp_add]
      congr 2
      push_cast
      ring
  have := ind n 0 (by omega) values values' hvl hvl' hw hw'
  rw [hT] at this
  exact this

/-- C144, error of weighted schemes: with at most half of the weight on the explicit part the solver succeeds with any number of steps, and the mean square of the
error is at most `energyError`. -/
theorem C144_error {D : ℕ → ℕ → ℝ → ℝ → ℝ} {a b z : ℝ → ℝ → ℝ} {e s lo hi A B C M3 M4 Q : ℝ} {P N : ℕ → ℝ} {al La rho : ℝ}
    (hS : ClassicalSolution D a b z e s lo hi) (hB : Bounded D a b z e s lo hi A B C M3 M4 Q P N)
    (hV : Diffusive a b z e s lo hi al La B) (hal : 0 < al) (hLa : 0 ≤ La) (hrho : 0 ≤ rho) (he : 0 ≤ e) (hes : e < s)
    (xs values : List ℝ) (k : ℕ) (c : ℝ → PdeCoeffs ℝ) (f g : BoundaryFn ℝ) (hD : Discretises xs k c f g (D 0 0) a b z e s lo hi)
    (hin : ∀ t ∈ Icc e s, (c t).innerSecond = none ∧ (c t).innerFirst = none) (hg : Graded xs k rho)
    (h sigma theta eps : ℝ) (hm : Mesh xs k h sigma) (hpe : B * h ≤ 2 * al) (hth0 : 0 ≤ theta) (hth1 : theta ≤ 1 / 2)
    (n k0 : ℕ) (hn : 0 < n) (hdG : 4 * ((s - e) / n) * growthRate al La B rho ≤ 1) (hvl : values.length = k + 4)
    (hv : cellMeanSquare xs k (fun i => values.getD i 0 - D 0 0 s (xs.getD i 0)) ≤ eps) :
    ∃ w, solveBackward s e values (some n) k0 none (fdStep xs c f g theta) none = some (w, e, k0 + n) ∧ w.length = k + 4 ∧
      cellMeanSquare xs k (fun i => w.getD i 0 - D 0 0 e (xs.getD i 0)) ≤
        energyError (growthRate al La B rho) (s - e) (hi - lo) B C eps (truncation theta ((s - e) / n) h sigma A B C M3 M4 Q P N)
          (averageError theta ((s - e) / n) (P 0) (N 0)) (averageError theta ((s - e) / n) (N 0) Q) := by
  have hn' : (0 : ℝ) < n := by exact_mod_cast hn
  have hend : s - n * ((s - e) / n) = e := by field_simp; ring
  have hT : (n : ℝ) * ((s - e) / n) = s - e := by linarith
  have hd : 0 < (s - e) / n := div_pos (by linarith) hn'
  have hx := hD.increasing
  have hlh : lo < hi := by
    rw [← hD.first, ← hD.last]
    exact (hx 0 (by omega)).trans_le (grid_mem (fun i => xs.getD i 0) k hx 1 (by omega)).2
  have hmx : ∀ i, i ≤ k + 3 → xs.getD i 0 ∈ Icc lo hi := by
    intro i hi
    have := grid_mem (fun i => xs.getD i 0) k hx i hi
    simp only [hD.first, hD.last] at this
    exact this
  obtain ⟨nA, nB, nC, n3, n4, nQ, nP, nN⟩ := bounded_nonneg hB hes.le hlh.le
  have hav := averageError_nonneg theta ((s - e) / n) _ _ hd.le (nP 0 (by omega)) (nN 0 (by omega))
  have hch0 := averageError_nonneg theta ((s - e) / n) _ _ hd.le (nN 0 (by omega)) nQ
  have htau := truncation_nonneg hB hes.le hlh.le theta ((s - e) / n) h sigma hd.le ((abs_nonneg _).trans (hm.change 0 (by omega)))
  have htime : ∀ i : ℕ, i ≤ n → (if i < n then s - i * ((s - e) / n) else e) = s - i * ((s - e) / n) := by
    intro i hi
    split
    · rfl
    · next hc => rw [show i = n by omega, hend]
  have hcast : ∀ i : ℕ, i ≤ n → s - i * ((s - e) / n) ∈ Icc e s := by
    intro i hi
    have : (i : ℝ) ≤ n := by exact_mod_cast hi
    have := mul_le_mul_of_nonneg_right this hd.le
    have : 0 ≤ (i : ℝ) * ((s - e) / n) := by positivity
    exact ⟨by linarith, by linarith⟩
  have hgap : ∀ i, i < n → ∀ y ∈ Icc lo hi, |boundaryGap (D 0 0) theta (if i < n then s - i * ((s - e) / n) else e)
      (if i + 1 < n then s - (i + 1 : ℕ) * ((s - e) / n) else e) y| ≤ averageError theta ((s - e) / n) (P 0) (N 0) := by
    intro i hi y hy
    rw [htime i hi.le, htime (i + 1) hi, boundaryGap, abs_sub_comm]
    exact average_error e s _ _ theta _ _ _ (fun j t => D j 0 t y) (fun j hj t ht => hS.time j (by omega) t ht y hy) (fun t ht => hB.speed 0 (by omega) t ht y hy)
      (fun t ht => hB.acceleration 0 (by omega) t ht y hy) hth0 (by linarith) (hcast i hi.le) (hcast (i + 1) hi) (by push_cast; linarith) (by push_cast; linarith)
  have hch : ∀ i, i < n → ∀ y ∈ Icc lo hi, |boundaryGap (D 0 0) theta (if i < n then s - i * ((s - e) / n) else e)
      (if i + 1 < n then s - (i + 1 : ℕ) * ((s - e) / n) else e) y -
      boundaryGap (D 0 0) theta (if i - 1 < n then s - (i - 1 : ℕ) * ((s - e) / n) else e)
      (if i - 1 + 1 < n then s - (i - 1 + 1 : ℕ) * ((s - e) / n) else e) y| ≤ (s - e) / n * averageError theta ((s - e) / n) (N 0) Q := by
    intro i hi y hy
    rcases i with _ | i
    · rw [show 0 - 1 = 0 from rfl, sub_self, abs_zero]
      positivity
    · rw [show i + 1 - 1 = i by omega, htime (i + 1) hi.le, htime (i + 1 + 1) hi, htime i (by omega)]
      have key := gap_change (fun j t => D j 0 t y) e s (N 0) Q theta ((s - e) / n) (s - i * ((s - e) / n)) (fun j hj t ht => hS.time j hj t ht y hy)
        (fun t ht => hB.acceleration 0 (by omega) t ht y hy) (fun t ht => hB.jerk t ht y hy) hth0 (by linarith) hd (hcast i (by omega)).2
        (by have := (hcast (i + 1 + 1) hi).1; push_cast at this; linarith)
      beta_reduce at key
      unfold boundaryGap
      push_cast
      generalize (s - e) / (n : ℝ) = d at *
      rw [show (s - (i + 1) * d + (s - (i + 1 + 1) * d)) / 2 = s - i * d - d - d / 2 by ring, show s - (i + 1) * d = s - i * d - d by ring,
        show s - (i + 1 + 1) * d = s - i * d - 2 * d by ring, show (s - i * d + (s - i * d - d)) / 2 = s - i * d - d / 2 by ring]
      exact key
  obtain ⟨w, hw, hwl, hwe⟩ := energy_march hS hB hV hal hLa hrho xs k c f g hD hin hg h sigma theta ((s - e) / n) (averageError theta ((s - e) / n) (P 0) (N 0))
    (averageError theta ((s - e) / n) (N 0) Q) _ hm hpe hth0 hth1 hd hdG rfl
    (by have := sub_pos.2 hlh; positivity)
    (fun i => if i < n then s - i * ((s - e) / n) else e) k0 n hn
    (fun i hi => by simp only [htime i hi]; exact hcast i hi)
    (fun i hi => by simp only [htime i hi.le, htime (i + 1) hi]; push_cast; ring)
    hgap hch n 0 (by omega) values (eps + averageError theta ((s - e) / n) (P 0) (N 0)) hvl
    (by
      have q1 := wNorm_le (k + 2) (cellWeight xs k) (fun j => -gapLift lo hi (boundaryGap (D 0 0) theta (if 0 - 1 < n then s - (0 - 1 : ℕ) * ((s - e) / n) else e)
          (if 0 - 1 + 1 < n then s - (0 - 1 + 1 : ℕ) * ((s - e) / n) else e) lo)
          (boundaryGap (D 0 0) theta (if 0 - 1 < n then s - (0 - 1 : ℕ) * ((s - e) / n) else e)
          (if 0 - 1 + 1 < n then s - (0 - 1 + 1 : ℕ) * ((s - e) / n) else e) hi) (xs.getD j 0)) (cellWeight_nonneg xs k hx) (cellWeight_sum xs k hx) _ hav
        (fun j hj => by
          beta_reduce
          rw [abs_neg]
          exact gapLift_le _ _ _ _ _ _ hlh (hmx (j + 1) (by omega)) (hgap 0 hn lo ⟨le_rfl, hlh.le⟩) (hgap 0 hn _ ⟨hlh.le, le_rfl⟩))
      have q2 := wNorm_add (k + 2) (cellWeight xs k) (fun i => values.getD i 0 - D 0 0 s (xs.getD i 0)) _ (cellWeight_nonneg xs k hx) |>.trans (add_le_add hv q1)
      refine le_of_eq_of_le ?_ q2
      refine wNorm_congr _ _ _ _ fun j _ => ?_
      beta_reduce
      rw [if_pos hn, Nat.cast_zero, zero_mul, sub_zero]
      ring)
  refine ⟨w, ?_, hwl, ?_⟩
  · rw [C47_backward_steps s e he hes n hn, hw]; rfl
  · rw [cellMeanSquare_eq]
    simp only [lt_irrefl, if_false, hT] at hwe
    unfold energyError
    exact hwe

/-- C144, order of the Crank-Nicolson scheme: the mean square of the error is at most a constant times that of the given values plus `dt^2 + h^2 + sigma`, without a
bound on the ratio of the time step to the cells. -/
theorem C144_crank_nicolson {D : ℕ → ℕ → ℝ → ℝ → ℝ} {a b z : ℝ → ℝ → ℝ} {e s lo hi A B C M3 M4 Q : ℝ} {P N : ℕ → ℝ} {al La rho : ℝ}
    (hS : ClassicalSolution D a b z e s lo hi) (hB : Bounded D a b z e s lo hi A B C M3 M4 Q P N)
    (hV : Diffusive a b z e s lo hi al La B) (hal : 0 < al) (hLa : 0 ≤ La) (hrho : 0 ≤ rho) (he : 0 ≤ e) (hes : e < s) (hlh : lo < hi) :
    ∃ K : ℝ, 0 ≤ K ∧ ∀ (xs values : List ℝ) (k : ℕ) (c : ℝ → PdeCoeffs ℝ) (f g : BoundaryFn ℝ) (h sigma eps : ℝ) (n k0 : ℕ),
      Discretises xs k c f g (D 0 0) a b z e s lo hi → (∀ t ∈ Icc e s, (c t).innerSecond = none ∧ (c t).innerFirst = none) → Graded xs k rho →
      Mesh xs k h sigma → B * h ≤ 2 * al → 0 < n → 4 * ((s - e) / n) * growthRate al La B rho ≤ 1 → values.length = k + 4 →
      cellMeanSquare xs k (fun i => values.getD i 0 - D 0 0 s (xs.getD i 0)) ≤ eps →
      ∃ w, solveBackward s e values (some n) k0 none (fdStep xs c f g (1 / 2)) none = some (w, e, k0 + n) ∧ w.length = k + 4 ∧
        cellMeanSquare xs k (fun i => w.getD i 0 - D 0 0 e (xs.getD i 0)) ≤ K * (eps + ((s - e) / n) ^ 2 + h ^ 2 + sigma) := by
  obtain ⟨nA, nB, nC, n3, n4, nQ, nP, nN⟩ := bounded_nonneg hB hes.le hlh.le
  have nN0 := nN 0 (by omega)
  have nN1 := nN 1 (by omega)
  have nN2 := nN 2 (by omega)
  have hT : 0 < s - e := by linarith
  have hL : 0 < hi - lo := by linarith
  obtain ⟨X, hX⟩ : ∃ X, X = Real.exp (4 * growthRate al La B rho * (s - e)) := ⟨_, rfl⟩
  have hX1 : 1 ≤ X := by
    rw [hX]
    have := growthRate_nonneg al La B rho hal
    exact Real.one_le_exp (by positivity)
  obtain ⟨K1, hK1⟩ : ∃ K1, K1 = N 0 / 8 + (s - e) * (2 * (Q / 24 + A * (N 2 / 8) + B * (N 1 / 8) + C * (N 0 / 8) + 2 * B * (N 0 / 8) / (hi - lo) + C * (N 0 / 8)) + Q / 8) :=
    ⟨_, rfl⟩
  obtain ⟨K2, hK2⟩ : ∃ K2, K2 = (s - e) * (2 * (A * M4 / 12 + B * M3 / 6)) := ⟨_, rfl⟩
  obtain ⟨K3, hK3⟩ : ∃ K3, K3 = (s - e) * (2 * (A * M3 / 3)) := ⟨_, rfl⟩
  have p1 : 0 ≤ K1 := by rw [hK1]; positivity
  have p2 : 0 ≤ K2 := by rw [hK2]; positivity
  have p3 : 0 ≤ K3 := by rw [hK3]; positivity
  refine ⟨X * (1 + K1 + K2 + K3) + N 0 / 8, by positivity, ?_⟩
  intro xs values k c f g h sigma eps n k0 hD hin hg hm hpe hn hdG hvl hv
  have hsig : 0 ≤ sigma := (abs_nonneg _).trans (hm.change 0 (by omega))
  have heps : 0 ≤ eps := (Real.sqrt_nonneg _).trans hv
  obtain ⟨w, hw, hwl, hwe⟩ := C144_error hS hB hV hal hLa hrho he hes xs values k c f g hD hin hg h sigma (1 / 2) eps hm hpe (by norm_num) le_rfl n k0 hn hdG hvl hv
  refine ⟨w, hw, hwl, hwe.trans ?_⟩
  unfold energyError truncation averageError
  rw [← hX, sub_self, abs_zero]
  generalize (s - e) / (n : ℝ) = d at *
  have e1 : X * (eps + (0 * d * P 0 + N 0 * d ^ 2 / 8) + (s - e) * (2 * (Q * d ^ 2 / 24 + A * (0 * d * P 2 + N 2 * d ^ 2 / 8 + M3 * sigma / 3 + M4 * h ^ 2 / 12) +
      B * (0 * d * P 1 + N 1 * d ^ 2 / 8 + M3 * h ^ 2 / 6) + C * (0 * d * P 0 + N 0 * d ^ 2 / 8) + 2 * B * (0 * d * P 0 + N 0 * d ^ 2 / 8) / (hi - lo) +
      C * (0 * d * P 0 + N 0 * d ^ 2 / 8)) + (0 * d * N 0 + Q * d ^ 2 / 8))) + (0 * d * P 0 + N 0 * d ^ 2 / 8) =
      X * (eps + K1 * d ^ 2 + K2 * h ^ 2 + K3 * sigma) + N 0 / 8 * d ^ 2 := by
    rw [hK1, hK2, hK3]; ring
  rw [e1]
  have t3 : eps + K1 * d ^ 2 + K2 * h ^ 2 + K3 * sigma ≤ (1 + K1 + K2 + K3) * (eps + d ^ 2 + h ^ 2 + sigma) := by
    have hd2 := sq_nonneg d
    have hh2 := sq_nonneg h
    have hp : 0 ≤ 1 + K1 + K2 + K3 := by positivity
    calc _ ≤ (1 + K1 + K2 + K3) * eps + (1 + K1 + K2 + K3) * d ^ 2 + (1 + K1 + K2 + K3) * h ^ 2 + (1 + K1 + K2 + K3) * sigma := by
          gcongr
          · exact le_mul_of_one_le_left heps (by linarith)
          · linarith
          · linarith
          · linarith
      _ = _ := by ring
  have t4 := mul_le_mul_of_nonneg_left t3 (by linarith : 0 ≤ X)
  have t5 : N 0 / 8 * d ^ 2 ≤ N 0 / 8 * (eps + d ^ 2 + h ^ 2 + sigma) :=
    mul_le_mul_of_nonneg_left (by linarith [sq_nonneg h]) (by positivity)
  linarith

/-- C144, convergence of the Crank-Nicolson scheme: the mean square of the error gets as small as wanted when the cells and the time step get small, independently of
each other. -/
theorem C144_converges {D : ℕ → ℕ → ℝ → ℝ → ℝ} {a b z : ℝ → ℝ → ℝ} {e s lo hi A B C M3 M4 Q : ℝ} {P N : ℕ → ℝ} {al La rho : ℝ}
    (hS : ClassicalSolution D a b z e s lo hi) (hB : Bounded D a b z e s lo hi A B C M3 M4 Q P N)
    (hV : Diffusive a b z e s lo hi al La B) (hal : 0 < al) (hLa : 0 ≤ La) (hrho : 0 ≤ rho) (he : 0 ≤ e) (hes : e < s) (hlh : lo < hi) (delta : ℝ) (hdelta : 0 < delta) :
    ∃ eta : ℝ, 0 < eta ∧ ∀ (xs : List ℝ) (k : ℕ) (c : ℝ → PdeCoeffs ℝ) (f g : BoundaryFn ℝ) (n k0 : ℕ),
      Discretises xs k c f g (D 0 0) a b z e s lo hi → (∀ t ∈ Icc e s, (c t).innerSecond = none ∧ (c t).innerFirst = none) → Graded xs k rho →
      (∀ i, i < k + 3 → xs.getD (i + 1) 0 - xs.getD i 0 ≤ eta) → 0 < n → (s - e) / n ≤ eta →
      ∃ w, solveBackward s e (xs.map (D 0 0 s)) (some n) k0 none (fdStep xs c f g (1 / 2)) none = some (w, e, k0 + n) ∧ w.length = k + 4 ∧
        cellMeanSquare xs k (fun i => w.getD i 0 - D 0 0 e (xs.getD i 0)) ≤ delta := by
  obtain ⟨nA, nB, nC, n3, n4, nQ, nP, nN⟩ := bounded_nonneg hB hes.le hlh.le
  obtain ⟨K, hK, hall⟩ := C144_crank_nicolson hS hB hV hal hLa hrho he hes hlh
  obtain ⟨G, hGe⟩ : ∃ G, G = growthRate al La B rho := ⟨_, rfl⟩
  have hG : 0 ≤ G := hGe ▸ growthRate_nonneg al La B rho hal
  rw [← hGe] at hall
  have hT : 0 < s - e := by linarith
  refine ⟨min 1 (min (2 * al / (B + 1)) (min (1 / (4 * (G + 1))) (delta / (3 * (K + 1))))), by positivity, ?_⟩
  intro xs k c f g n k0 hD hin hg hmesh hn hdt
  generalize heta : min 1 (min (2 * al / (B + 1)) (min (1 / (4 * (G + 1))) (delta / (3 * (K + 1))))) = eta at *
  have e1 : eta ≤ 1 := heta ▸ min_le_left _ _
  have e2 : eta ≤ 2 * al / (B + 1) := heta ▸ (min_le_right _ _).trans (min_le_left _ _)
  have e3 : eta ≤ 1 / (4 * (G + 1)) := heta ▸ (min_le_right _ _).trans ((min_le_right _ _).trans (min_le_left _ _))
  have e4 : eta ≤ delta / (3 * (K + 1)) := heta ▸ (min_le_right _ _).trans ((min_le_right _ _).trans (min_le_right _ _))
  have e0 : 0 < eta := heta ▸ (by positivity)
  rw [le_div_iff₀ (by positivity)] at e2 e3 e4
  have hn' : (0 : ℝ) < n := by exact_mod_cast hn
  have hd : 0 < (s - e) / n := div_pos hT hn'
  have hdG : 4 * ((s - e) / n) * G ≤ 1 := by
    have := mul_le_mul_of_nonneg_right hdt hG
    nlinarith
  obtain ⟨w, hw, hwl, hwe⟩ := hall xs (xs.map (D 0 0 s)) k c f g eta eta 0 n k0 hD hin hg (mesh_any xs k eta hD.increasing hmesh) (by nlinarith) hn hdG
    (by rw [List.length_map, hD.length]) (by
      have : ∀ i, i < k + 4 → (xs.map (D 0 0 s)).getD i 0 = D 0 0 s (xs.getD i 0) := by
        intro i hi
        rw [List.getD_eq_getElem _ _ (by rw [List.length_map, hD.length]; exact hi), List.getD_eq_getElem _ _ (by rw [hD.length]; exact hi), List.getElem_map]
      unfold cellMeanSquare
      rw [Finset.sum_eq_zero fun i hi => by
        beta_reduce
        rw [this (i + 1) (by have := Finset.mem_range.1 hi; omega), sub_self]
        ring, Real.sqrt_zero])
  refine ⟨w, hw, hwl, hwe.trans ?_⟩
  have q : 0 + ((s - e) / n) ^ 2 + eta ^ 2 + eta ≤ 3 * eta := by nlinarith
  have := mul_le_mul_of_nonneg_left q hK
  nlinarith

/-- A single Crank-Nicolson step of length one on three cells, nine times the length allowed by the maximum principle: the difference of two results is not larger than
that of the given values. -/
example (v v' w w' : List ℝ) (hv : v.length = 4) (hv' : v'.length = 4)
    (h : parabolicStep 1 0 [0, 1 / 3, 2 / 3, 1] v (some fun _ => (some 1, none, 0)) (some fun _ => (some 1, none, 5))
      (fun _ => ⟨some [1, 1, 1, 1], none, none, none, none⟩) (weightedScheme (1 / 2)) = some w)
    (h' : parabolicStep 1 0 [0, 1 / 3, 2 / 3, 1] v' (some fun _ => (some 1, none, 0)) (some fun _ => (some 1, none, 5))
      (fun _ => ⟨some [1, 1, 1, 1], none, none, none, none⟩) (weightedScheme (1 / 2)) = some w') :
    (w.getD 1 0 - w'.getD 1 0) ^ 2 + (w.getD 2 0 - w'.getD 2 0) ^ 2 ≤ (v.getD 1 0 - v'.getD 1 0) ^ 2 + (v.getD 2 0 - v'.getD 2 0) ^ 2 := by
  have hV : Diffusive (fun _ _ => (1 : ℝ)) (fun _ _ => 0) (fun _ _ => 0) 0 1 0 1 1 0 0 := ⟨by simp, by simp, by simp, by simp⟩
  have hD : Discretises [0, 1 / 3, 2 / 3, 1] 0 (fun _ => ⟨some [1, 1, 1, 1], none, none, none, none⟩) (fun _ => (some 1, none, 0)) (fun _ => (some 1, none, 5))
      (fun _ x => 5 * x) (fun _ _ => 1) (fun _ _ => 0) (fun _ _ => 0) 0 1 0 1 := by
    refine ⟨rfl, ?_, rfl, rfl, fun t _ => ⟨?_, ?_, ?_, ?_, ?_⟩, ?_, fun t _ => ⟨1, _, rfl, one_ne_zero, by simp⟩, fun t _ => ⟨1, _, rfl, one_ne_zero, by simp⟩⟩
    · intro i hi; interval_cases i <;> norm_num
    · rintro l ⟨⟩; rfl
    · rintro l ⟨⟩
    · rintro l ⟨⟩
    · rintro l ⟨⟩
    · rintro l ⟨⟩
    · intro t _ i hi; interval_cases i <;> simp [coeffAt]
  have hg : Graded [0, 1 / 3, 2 / 3, 1] 0 1 := by
    intro i hi; interval_cases i <;> norm_num
  have := (C144_stable_step hV one_pos le_rfl zero_le_one _ 0 _ _ _ hD (fun _ _ => ⟨rfl, rfl⟩) hg (1 / 2) 1 0 le_rfl ⟨zero_le_one, le_rfl⟩ ⟨le_rfl, zero_le_one⟩
    zero_le_one v v' w w' hv hv' h h').2.2
  have hG : growthRate 1 0 0 1 = 0 := by norm_num [growthRate]
  rw [hG, mul_zero, sub_zero, one_mul] at this
  unfold cellMeanSquare at this
  have q := Real.sqrt_le_sqrt_iff (by simp only [Finset.sum_range_succ, Finset.sum_range_zero]; norm_num; positivity) |>.1 this
  simp only [Finset.sum_range_succ, Finset.sum_range_zero] at q
  norm_num at q ⊢
  linarith

end Props
