import Verif.Lemmas.VectorHullWhite
import Verif.Props.HullWhiteBonds
import Verif.Props.PathDiscount
import Mathlib.MeasureTheory.Integral.Bochner.Basic

/-! # C112: correlated Hull-White models -/

namespace VectorHw
open Model Spec Lemmas MeasureTheory

variable (m : VectorHullWhite)

/-- The correlation of two factors at a time; without a matrix the factors are independent. -/
noncomputable def rho (i j : Nat) (t : ℝ) : ℝ :=
  match m.corr with
  | none => if i = j then 1 else 0
  | some c => VectorHullWhite.corrAt c t i j

/-- The weights of the independent draws of a step. -/
noncomputable def load (root : (Nat → Nat → ℝ) → Nat → Nat → ℝ) (grid : List ℝ) (k i l : Nat) : ℝ :=
  match m.corr with
  | none => if i = l then 1 else 0
  | some c => root (VectorHullWhite.corrAt c (grid.getD k 0 + VectorHullWhite.smallestStep grid / 2)) i l

/-- A function that takes the square root of all matrices that occur. -/
def RootOk (root : (Nat → Nat → ℝ) → Nat → Nat → ℝ) : Prop :=
  ∀ c, m.corr = some c → ∀ t i j, i < m.dim → j < m.dim →
    ∑ l ∈ Finset.range m.dim, root (VectorHullWhite.corrAt c t) i l * root (VectorHullWhite.corrAt c t) j l = VectorHullWhite.corrAt c t i j

theorem correlated_eq (root : (Nat → Nat → ℝ) → Nat → Nat → ℝ) (grid : List ℝ) (k i : Nat) (hi : i < m.dim) (z : Nat → ℝ) :
    m.correlated root grid k z i = ∑ l ∈ Finset.range m.dim, load m root grid k i l * z l := by
  unfold VectorHullWhite.correlated load
  cases m.corr with
  | none => simp [ite_mul, hi]
  | some c =>
    dsimp only
    rw [sum_mapRange]

theorem load_mul (root : (Nat → Nat → ℝ) → Nat → Nat → ℝ) (hr : RootOk m root) (grid : List ℝ) (k i j : Nat) (hi : i < m.dim) (hj : j < m.dim) :
    ∑ l ∈ Finset.range m.dim, load m root grid k i l * load m root grid k j l =
      rho m i j (grid.getD k 0 + VectorHullWhite.smallestStep grid / 2) := by
  unfold load rho
  cases h : m.corr with
  | none =>
    simp [ite_mul, hi, eq_comm]
    omega
  | some c =>
    dsimp only
    exact hr c h _ i j hi hj

/-- The weight of the draw of step `k` in the state after step `n`. -/
noncomputable def weight (grid : List ℝ) (i n k : Nat) : ℝ :=
  Real.exp (-m.meanReversion i * (grid.getD n 0 - grid.getD (k + 1) 0)) *
    Real.sqrt (stateVariance (m.meanReversion i) (m.volatility i) (grid.getD k 0) (grid.getD (k + 1) 0))

theorem weight_shift (grid : List ℝ) (i n n' k : Nat) :
    weight m grid i n' k = Real.exp (-m.meanReversion i * (grid.getD n' 0 - grid.getD n 0)) * weight m grid i n k := by
  unfold weight
  rw [← mul_assoc, ← Real.exp_add]
  congr 2
  ring

theorem weight_self (grid : List ℝ) (i n : Nat) :
    weight m grid i (n + 1) n = Real.sqrt (stateVariance (m.meanReversion i) (m.volatility i) (grid.getD n 0) (grid.getD (n + 1) 0)) := by
  unfold weight
  simp

section
variable (i : Nat) (hm : FactorOk m i) (grid : List ℝ) (hs : grid.Pairwise (· ≤ ·)) (h0 : ∀ t ∈ grid, 0 ≤ t)
include hm hs h0

theorem step_le (n : Nat) (hn : n + 1 < grid.length) : 0 ≤ grid.getD n 0 ∧ grid.getD n 0 ≤ grid.getD (n + 1) 0 :=
  ⟨h0 _ (List.mem_of_getElem? (getD_some grid n (by omega))), getD_mono grid hs n (n + 1) (by omega) hn⟩

theorem conditionalVariance_step (n : Nat) (hn : n + 1 < grid.length) :
    m.conditionalVariance i (grid.getD n 0) (grid.getD (n + 1) 0) =
      stateVariance (m.meanReversion i) (m.volatility i) (grid.getD n 0) (grid.getD (n + 1) 0) := by
  obtain ⟨a, b⟩ := step_le m i hm grid hs h0 n hn
  rw [conditionalVariance_alone m i hm _ _ a b, conditionalVariance_eq (alone m i) (alone_ok m i hm) _ _ a b]
  rfl

/-- The state is the mean plus the weighted draws. -/
theorem state_eq (root : (Nat → Nat → ℝ) → Nat → Nat → ℝ) (draws : Nat → Nat → ℝ) (n : Nat) (hn : n < grid.length) :
    m.state root grid draws n i = stateMean (m.meanReversion i) (m.volatility i) (grid.getD 0 0) (grid.getD n 0) +
      ∑ k ∈ Finset.range n, weight m grid i n k * m.correlated root grid k (draws k) i := by
  have hg0 : 0 ≤ grid.getD 0 0 := h0 _ (List.mem_of_getElem? (getD_some grid 0 (by omega)))
  have hmean : ∀ n, n < grid.length → stateMean (m.meanReversion i) (m.volatility i) (grid.getD 0 0) (grid.getD n 0) =
      (alone m i).conditionalMean (grid.getD 0 0) (grid.getD n 0) := fun n hn =>
    (conditionalMean_eq (alone m i) (alone_ok m i hm) _ _ hg0 (getD_mono grid hs 0 n (by omega) hn)).symm
  induction n with
  | zero =>
    rw [hmean 0 hn]
    simp [VectorHullWhite.state, HullWhite.conditionalMean]
  | succ n ih =>
    obtain ⟨a, b⟩ := step_le m i hm grid hs h0 n hn
    have hcv := conditionalVariance_step m i hm grid hs h0 n hn
    rw [conditionalVariance_alone m i hm _ _ a b] at hcv
    rw [VectorHullWhite.state, nextState_alone m i hm _ _ _ _ a b, nextState_eq (alone m i) (alone_ok m i hm) _ _ _ _ a b, ih (by omega), hmean (n + 1) hn,
      hmean n (by omega), conditionalMean_add (alone m i) (grid.getD 0 0) (grid.getD n 0) (grid.getD (n + 1) 0), Finset.sum_range_succ, weight_self, hcv]
    have e : ∑ k ∈ Finset.range n, weight m grid i (n + 1) k * m.correlated root grid k (draws k) i =
        Real.exp (-m.meanReversion i * (grid.getD (n + 1) 0 - grid.getD n 0)) *
          ∑ k ∈ Finset.range n, weight m grid i n k * m.correlated root grid k (draws k) i := by
      rw [Finset.mul_sum]
      refine Finset.sum_congr rfl (fun k _ => ?_)
      rw [weight_shift m grid i n (n + 1) k, mul_assoc]
    rw [e]
    have ha : (alone m i).meanReversion = m.meanReversion i := rfl
    rw [ha]
    ring

theorem weight_sq (n : Nat) (hn : n < grid.length) :
    ∑ k ∈ Finset.range n, weight m grid i n k * weight m grid i n k =
      stateVariance (m.meanReversion i) (m.volatility i) (grid.getD 0 0) (grid.getD n 0) := by
  have hg0 : 0 ≤ grid.getD 0 0 := h0 _ (List.mem_of_getElem? (getD_some grid 0 (by omega)))
  have hvar : ∀ n, n < grid.length → stateVariance (m.meanReversion i) (m.volatility i) (grid.getD 0 0) (grid.getD n 0) =
      (alone m i).conditionalVariance (grid.getD 0 0) (grid.getD n 0) := fun n hn =>
    (conditionalVariance_eq (alone m i) (alone_ok m i hm) _ _ hg0 (getD_mono grid hs 0 n (by omega) hn)).symm
  induction n with
  | zero =>
    rw [hvar 0 hn]
    simp [HullWhite.conditionalVariance]
  | succ n ih =>
    obtain ⟨a, b⟩ := step_le m i hm grid hs h0 n hn
    have hcv := conditionalVariance_eq (alone m i) (alone_ok m i hm) _ _ a b
    have hnn := conditionalVariance_nonneg (alone m i) (alone_ok m i hm) _ _ a b
    rw [hcv] at hnn
    rw [Finset.sum_range_succ, weight_self, hvar (n + 1) hn, conditionalVariance_add (alone m i) (grid.getD 0 0) (grid.getD n 0) (grid.getD (n + 1) 0),
      ← hvar n (by omega), ← ih (by omega), hcv, Finset.mul_sum]
    have e2 : Real.sqrt (stateVariance (m.meanReversion i) (m.volatility i) (grid.getD n 0) (grid.getD (n + 1) 0)) *
        Real.sqrt (stateVariance (m.meanReversion i) (m.volatility i) (grid.getD n 0) (grid.getD (n + 1) 0)) =
        stateVariance (alone m i).meanReversion (alone m i).volatility (grid.getD n 0) (grid.getD (n + 1) 0) := Real.mul_self_sqrt hnn
    rw [e2]
    congr 1
    refine Finset.sum_congr rfl (fun k _ => ?_)
    rw [weight_shift m grid i n (n + 1) k]
    have ha : (alone m i).meanReversion = m.meanReversion i := rfl
    rw [ha]
    ring

end

/-- Sums of uncorrelated draws. -/
theorem draws_sums {Ω : Type*} [MeasurableSpace Ω] {P : Measure Ω} {z : Nat → Nat → Ω → ℝ} (hz : UnitDraws P z) (d n n' : Nat) (hn : n ≤ n')
    (b b' : Nat → Nat → ℝ) :
    Integrable (fun ω => ∑ k ∈ Finset.range n, ∑ l ∈ Finset.range d, b k l * z k l ω) P ∧
    ∫ ω, ∑ k ∈ Finset.range n, ∑ l ∈ Finset.range d, b k l * z k l ω ∂P = 0 ∧
    ∫ ω, (∑ k ∈ Finset.range n, ∑ l ∈ Finset.range d, b k l * z k l ω) * (∑ k ∈ Finset.range n', ∑ l ∈ Finset.range d, b' k l * z k l ω) ∂P =
      ∑ k ∈ Finset.range n, ∑ l ∈ Finset.range d, b k l * b' k l := by
  have hi : ∀ k l, Integrable (fun ω => b k l * z k l ω) P := fun k l => (hz.integrable k l).const_mul _
  refine ⟨integrable_finsetSum _ (fun k _ => integrable_finsetSum _ (fun l _ => hi k l)), ?_, ?_⟩
  · rw [integral_finsetSum _ (fun k _ => integrable_finsetSum _ (fun l _ => hi k l))]
    refine Finset.sum_eq_zero (fun k _ => ?_)
    rw [integral_finsetSum _ (fun l _ => hi k l)]
    refine Finset.sum_eq_zero (fun l _ => ?_)
    rw [integral_const_mul, hz.mean_zero, mul_zero]
  · have hp : ∀ k l k' l', Integrable (fun ω => b k l * z k l ω * (b' k' l' * z k' l' ω)) P := fun k l k' l' => by
      have := (hz.prod_integrable k l k' l').const_mul (b k l * b' k' l')
      refine this.congr (Filter.Eventually.of_forall (fun ω => ?_))
      dsimp only
      ring
    have hpv : ∀ k l k' l', ∫ ω, b k l * z k l ω * (b' k' l' * z k' l' ω) ∂P = if k = k' ∧ l = l' then b k l * b' k l else 0 := fun k l k' l' => by
      have : (fun ω => b k l * z k l ω * (b' k' l' * z k' l' ω)) = fun ω => (b k l * b' k' l') * (z k l ω * z k' l' ω) := by
        funext ω; ring
      rw [this, integral_const_mul, hz.prod_mean]
      by_cases h : k = k' ∧ l = l'
      · rw [if_pos h, if_pos h, h.1, h.2, mul_one]
      · rw [if_neg h, if_neg h, mul_zero]
    have hexp : (fun ω => (∑ k ∈ Finset.range n, ∑ l ∈ Finset.range d, b k l * z k l ω) *
        (∑ k ∈ Finset.range n', ∑ l ∈ Finset.range d, b' k l * z k l ω)) = fun ω =>
        ∑ k ∈ Finset.range n, ∑ l ∈ Finset.range d, ∑ k' ∈ Finset.range n', ∑ l' ∈ Finset.range d, b k l * z k l ω * (b' k' l' * z k' l' ω) := by
      funext ω
      rw [Finset.sum_mul]
      refine Finset.sum_congr rfl (fun k _ => ?_)
      rw [Finset.sum_mul]
      refine Finset.sum_congr rfl (fun l _ => ?_)
      rw [Finset.mul_sum]
      refine Finset.sum_congr rfl (fun k' _ => ?_)
      rw [Finset.mul_sum]
    rw [hexp, integral_finsetSum _ (fun k _ => integrable_finsetSum _ (fun l _ => integrable_finsetSum _ (fun k' _ => integrable_finsetSum _ (fun l' _ => hp k l k' l'))))]
    refine Finset.sum_congr rfl (fun k hk => ?_)
    rw [integral_finsetSum _ (fun l _ => integrable_finsetSum _ (fun k' _ => integrable_finsetSum _ (fun l' _ => hp k l k' l')))]
    refine Finset.sum_congr rfl (fun l hl => ?_)
    rw [integral_finsetSum _ (fun k' _ => integrable_finsetSum _ (fun l' _ => hp k l k' l'))]
    have hk' : k ∈ Finset.range n' := Finset.mem_range.2 (lt_of_lt_of_le (Finset.mem_range.1 hk) hn)
    rw [Finset.sum_eq_single_of_mem k hk']
    · rw [integral_finsetSum _ (fun l' _ => hp k l k l'), Finset.sum_eq_single_of_mem l hl]
      · rw [hpv, if_pos ⟨rfl, rfl⟩]
      · intro l' _ hne
        rw [hpv, if_neg (fun h => hne h.2.symm)]
    · intro k' _ hne
      rw [integral_finsetSum _ (fun l' _ => hp k l k' l')]
      refine Finset.sum_eq_zero (fun l' _ => ?_)
      rw [hpv, if_neg (fun h => hne h.1.symm)]

end VectorHw
