import Verif.Props.VectorHullWhite
import Verif.Props.PrepareGrid
import Mathlib.Probability.Independence.InfinitePi
import Mathlib.Probability.Distributions.Gaussian.Real
import Mathlib.Probability.Independence.Integration

/-! # C112: correlated Hull-White models, the law of the paths -/

namespace VectorHw
open Model Spec Lemmas MeasureTheory

variable (m : VectorHullWhite)

theorem grid_perm (times : List ℝ) : (m.grid times).Perm ([0] ++ times ++ (List.range m.dim).flatMap m.volJumps ++ m.corrJumps) :=
  List.perm_insertionSort _ _

theorem grid_sorted (times : List ℝ) : (m.grid times).Pairwise (· ≤ ·) := List.pairwise_insertionSort _ _

theorem mem_grid_of_time (times : List ℝ) {t : ℝ} (h : t ∈ times) : t ∈ m.grid times := by
  rw [(grid_perm m times).mem_iff]; simp [h]

theorem mem_grid_of_vol (times : List ℝ) {i : Nat} (hi : i < m.dim) {t : ℝ} (h : t ∈ m.volJumps i) : t ∈ m.grid times := by
  rw [(grid_perm m times).mem_iff]
  simp only [List.mem_append, List.mem_flatMap, List.mem_range]
  exact Or.inl (Or.inr ⟨i, hi, h⟩)

theorem mem_grid_of_corr (times : List ℝ) {t : ℝ} (h : t ∈ m.corrJumps) : t ∈ m.grid times := by
  rw [(grid_perm m times).mem_iff]; simp [h]

section
variable (hf : ∀ i, i < m.dim → FactorOk m i) (hc : ∀ j ∈ m.corrJumps, 0 ≤ j)
include hf hc

theorem grid_nonneg (times : List ℝ) (h0 : ∀ t ∈ times, 0 ≤ t) : ∀ t ∈ m.grid times, 0 ≤ t := by
  intro t ht
  rw [(grid_perm m times).mem_iff] at ht
  simp only [List.mem_append, List.mem_flatMap, List.mem_range, List.mem_singleton] at ht
  rcases ht with ((h | h) | ⟨i, hi, h⟩) | h
  · exact h.ge
  · exact h0 t h
  · exact (hf i hi).nonneg t h
  · exact hc t h

theorem grid_first (times : List ℝ) (h0 : ∀ t ∈ times, 0 ≤ t) : (m.grid times).getD 0 0 = 0 := by
  have hz : (0 : ℝ) ∈ m.grid times := by rw [(grid_perm m times).mem_iff]; simp
  obtain ⟨p, hp⟩ := List.mem_iff_getElem?.1 hz
  have hpl := (List.getElem?_eq_some_iff.1 hp).1
  apply le_antisymm
  · have := getD_mono _ (grid_sorted m times) 0 p (by omega) hpl
    rwa [getD_of_some _ _ _ hp] at this
  · exact grid_nonneg m hf hc times h0 _ (List.mem_of_getElem? (getD_some _ 0 (by omega)))

end

/-- The position of a time in the grid. -/
noncomputable def place (times : List ℝ) (t : ℝ) : Nat := searchLeft (m.grid times) t

theorem place_get (times : List ℝ) {t : ℝ} (h : t ∈ times) : (m.grid times)[place m times t]? = some t :=
  Props.searchLeft_mem (m.grid times) (grid_sorted m times) t (mem_grid_of_time m times h)

theorem place_lt (times : List ℝ) {t t' : ℝ} (h : t ∈ times) (h' : t' ∈ times) (hlt : t < t') : place m times t < place m times t' := by
  by_contra hc
  have h1 := place_get m times h
  have h2 := place_get m times h'
  have := getD_mono _ (grid_sorted m times) _ _ (not_lt.1 hc) (List.getElem?_eq_some_iff.1 h1).1
  rw [getD_of_some _ _ _ h1, getD_of_some _ _ _ h2] at this
  linarith

theorem samplePath_eq (root : (Nat → Nat → ℝ) → Nat → Nat → ℝ) (times : List ℝ) (hs : times.Pairwise (· < ·)) (draws : Nat → Nat → ℝ) :
    m.samplePath root times draws = times.map (fun t => some (fun i => m.state root (m.grid times) draws (place m times t) i + m.instantForwardRate i t)) := by
  set rates := (List.range (m.grid times).length).map (fun n => fun i => m.state root (m.grid times) draws n i + m.instantForwardRate i ((m.grid times).getD n 0)) with hrates
  have hrl : rates.length = (m.grid times).length := by rw [hrates]; simp
  have hidx : (times.map (fun t => searchLeft (m.grid times) t)).Pairwise (· < ·) := by
    rw [List.pairwise_map]
    apply List.Pairwise.imp_of_mem _ hs
    intro a b ha hb hab
    exact place_lt m times ha hb hab
  have hlt : ∀ n ∈ times.map (fun t => searchLeft (m.grid times) t), n < rates.length := by
    intro n hn
    rw [List.mem_map] at hn
    obtain ⟨t, ht, rfl⟩ := hn
    rw [hrl]
    exact (List.getElem?_eq_some_iff.1 (place_get m times ht)).1
  have hfm := filter_mask (fun _ => (0 : ℝ)) rates (times.map (fun t => searchLeft (m.grid times) t)) hidx hlt
  have hcount : ((rates.zip ((List.range rates.length).map (fun n => (times.map (fun t => searchLeft (m.grid times) t)).contains n))).filter Prod.snd).length =
      times.length := by
    have := congrArg List.length hfm
    simpa using this
  unfold VectorHullWhite.samplePath VectorHullWhite.keepMask
  dsimp only
  rw [← hrates, ← hrl, recordLoop_eq times.length _ 0 _ (by simp) (by rw [hcount]; omega), List.take_zero, List.nil_append,
    show (fun (p : (Nat → ℝ) × Bool) => some p.1) = some ∘ (fun p => p.1) from rfl, ← List.map_map, hfm, List.map_map, List.map_map]
  apply List.map_congr_left
  intro t ht
  have hp := place_get m times ht
  have hpl := (List.getElem?_eq_some_iff.1 hp).1
  change some (rates.getD (place m times t) (fun _ => 0)) = _
  rw [hrates, List.getD_eq_getElem?_getD, List.getElem?_map, List.getElem?_range hpl]
  simp only [Option.map_some, Option.getD_some]
  rw [getD_of_some _ _ _ hp]

/-- The rate of a factor at a requested time. -/
noncomputable def rateAt (path : List (Option (Nat → ℝ))) (j i : Nat) : ℝ := ((path[j]?.join).map (fun f => f i)).getD 0

theorem rateAt_eq (root : (Nat → Nat → ℝ) → Nat → Nat → ℝ) (times : List ℝ) (hs : times.Pairwise (· < ·)) (draws : Nat → Nat → ℝ) (j i : Nat) (t : ℝ)
    (hj : times[j]? = some t) :
    rateAt (m.samplePath root times draws) j i = m.state root (m.grid times) draws (place m times t) i + m.instantForwardRate i t := by
  unfold rateAt
  rw [samplePath_eq m root times hs draws, List.getElem?_map, hj]
  rfl

section
variable (hf : ∀ i, i < m.dim → FactorOk m i) (hc : ∀ j ∈ m.corrJumps, 0 ≤ j)
include hf hc

/-- The rate is its mean plus weighted independent draws. -/
theorem rate_eq (root : (Nat → Nat → ℝ) → Nat → Nat → ℝ) (times : List ℝ) (hs : times.Pairwise (· < ·)) (h0 : ∀ t ∈ times, 0 ≤ t)
    (draws : Nat → Nat → ℝ) (j i : Nat) (hi : i < m.dim) (t : ℝ) (hj : times[j]? = some t) :
    rateAt (m.samplePath root times draws) j i = (m.instantForwardRate i t + stateMean (m.meanReversion i) (m.volatility i) 0 t) +
      ∑ k ∈ Finset.range (place m times t), ∑ l ∈ Finset.range m.dim,
        (weight m (m.grid times) i (place m times t) k * load m root (m.grid times) k i l) * draws k l := by
  have hp := place_get m times (List.mem_of_getElem? hj)
  have hpl := (List.getElem?_eq_some_iff.1 hp).1
  rw [rateAt_eq m root times hs draws j i t hj, state_eq m i (hf i hi) (m.grid times) (grid_sorted m times) (grid_nonneg m hf hc times h0) root draws _ hpl,
    grid_first m hf hc times h0, getD_of_some _ _ _ hp]
  have : ∀ k, weight m (m.grid times) i (place m times t) k * m.correlated root (m.grid times) k (draws k) i =
      ∑ l ∈ Finset.range m.dim, (weight m (m.grid times) i (place m times t) k * load m root (m.grid times) k i l) * draws k l := by
    intro k
    rw [correlated_eq m root _ k i hi, Finset.mul_sum]
    exact Finset.sum_congr rfl (fun l _ => by ring)
  rw [Finset.sum_congr rfl (fun k _ => this k)]
  ring

/-- The covariance of the sampled rates. -/
theorem rate_cov {Ω : Type*} [MeasurableSpace Ω] {P : Measure Ω} {z : Nat → Nat → Ω → ℝ} (hz : UnitDraws P z)
    (root : (Nat → Nat → ℝ) → Nat → Nat → ℝ) (hr : RootOk m root) (times : List ℝ) (hs : times.Pairwise (· < ·)) (h0 : ∀ t ∈ times, 0 ≤ t)
    (j j' i i' : Nat) (hjj : j ≤ j') (hi : i < m.dim) (hi' : i' < m.dim) (t t' : ℝ) (hj : times[j]? = some t) (hj' : times[j']? = some t') :
    ∫ ω, (rateAt (m.samplePath root times (fun k l => z k l ω)) j i - (m.instantForwardRate i t + stateMean (m.meanReversion i) (m.volatility i) 0 t)) *
      (rateAt (m.samplePath root times (fun k l => z k l ω)) j' i' - (m.instantForwardRate i' t' + stateMean (m.meanReversion i') (m.volatility i') 0 t')) ∂P =
    ∑ k ∈ Finset.range (place m times t), weight m (m.grid times) i (place m times t) k * weight m (m.grid times) i' (place m times t') k *
      rho m i i' ((m.grid times).getD k 0 + VectorHullWhite.smallestStep (m.grid times) / 2) := by
  have hpp : place m times t ≤ place m times t' := by
    rcases Nat.lt_or_eq_of_le hjj with h | h
    · have ht : t < t' := by
        obtain ⟨a1, a2⟩ := List.getElem?_eq_some_iff.1 hj
        obtain ⟨b1, b2⟩ := List.getElem?_eq_some_iff.1 hj'
        have := List.pairwise_iff_getElem.1 hs j j' a1 b1 h
        rwa [a2, b2] at this
      exact (place_lt m times (List.mem_of_getElem? hj) (List.mem_of_getElem? hj') ht).le
    · subst h
      rw [hj] at hj'
      rw [Option.some.inj hj']
  have h3 := (draws_sums hz m.dim _ _ hpp (fun k l => weight m (m.grid times) i (place m times t) k * load m root (m.grid times) k i l)
    (fun k l => weight m (m.grid times) i' (place m times t') k * load m root (m.grid times) k i' l)).2.2
  rw [show (fun ω => (rateAt (m.samplePath root times (fun k l => z k l ω)) j i - (m.instantForwardRate i t + stateMean (m.meanReversion i) (m.volatility i) 0 t)) *
      (rateAt (m.samplePath root times (fun k l => z k l ω)) j' i' - (m.instantForwardRate i' t' + stateMean (m.meanReversion i') (m.volatility i') 0 t'))) =
    fun ω => (∑ k ∈ Finset.range (place m times t), ∑ l ∈ Finset.range m.dim,
        (weight m (m.grid times) i (place m times t) k * load m root (m.grid times) k i l) * z k l ω) *
      ∑ k ∈ Finset.range (place m times t'), ∑ l ∈ Finset.range m.dim,
        (weight m (m.grid times) i' (place m times t') k * load m root (m.grid times) k i' l) * z k l ω from by
    funext ω
    rw [rate_eq m hf hc root times hs h0 (fun k l => z k l ω) j i hi t hj, rate_eq m hf hc root times hs h0 (fun k l => z k l ω) j' i' hi' t' hj',
      add_sub_cancel_left, add_sub_cancel_left], h3]
  refine Finset.sum_congr rfl (fun k _ => ?_)
  rw [← load_mul m root hr (m.grid times) k i i' hi hi', Finset.mul_sum]
  exact Finset.sum_congr rfl (fun l _ => by ring)

end

/-- A piecewise constant function whose jumps belong to the grid is constant on its steps. -/
theorem search_step (jumps : List ℝ) (hj : jumps.Pairwise (· ≤ ·)) (g : List ℝ) (hg : g.Pairwise (· ≤ ·)) (hmem : ∀ q ∈ jumps, q ∈ g) (k : Nat)
    (hk : k + 1 < g.length) (s : ℝ) (h1 : g.getD k 0 < s) (h2 : s ≤ g.getD (k + 1) 0) : searchLeft jumps s = searchLeft jumps (g.getD (k + 1) 0) := by
  obtain ⟨e1, e2⟩ := searchLeft_spec jumps hj (g.getD (k + 1) 0)
  apply searchLeft_eq jumps hj s _ e1
  · intro a hn ha
    have hlt := (e2 _ a ha).1 (by omega)
    obtain ⟨p, hp⟩ := List.mem_iff_getElem?.1 (hmem a (List.mem_of_getElem? ha))
    have hpl := (List.getElem?_eq_some_iff.1 hp).1
    have hpk : p ≤ k := by
      by_contra hge
      have := getD_mono g hg (k + 1) p (by omega) hpl
      rw [getD_of_some _ _ _ hp] at this
      linarith
    have := getD_mono g hg p k hpk (by omega)
    rw [getD_of_some _ _ _ hp] at this
    linarith
  · intro a ha
    have hna : ¬ a < g.getD (k + 1) 0 := fun h => by
      have := (e2 _ a ha).2 h
      omega
    exact le_trans h2 (not_lt.1 hna)

theorem vol_step (i : Nat) (hi : i < m.dim) (hm : FactorOk m i) (times : List ℝ) (k : Nat) (hk : k + 1 < (m.grid times).length) (s : ℝ)
    (h1 : (m.grid times).getD k 0 < s) (h2 : s ≤ (m.grid times).getD (k + 1) 0) : m.volatility i s = m.volatility i ((m.grid times).getD (k + 1) 0) := by
  unfold VectorHullWhite.volatility piecewiseConstant
  simp only [if_true]
  rw [search_step _ (hm.sorted.imp le_of_lt) _ (grid_sorted m times) (fun q hq => mem_grid_of_vol m times hi hq) k hk s h1 h2]

theorem rho_step (hcs : m.corrJumps.Pairwise (· ≤ ·)) (i j : Nat) (times : List ℝ) (k : Nat) (hk : k + 1 < (m.grid times).length) (s : ℝ)
    (h1 : (m.grid times).getD k 0 < s) (h2 : s ≤ (m.grid times).getD (k + 1) 0) : rho m i j s = rho m i j ((m.grid times).getD (k + 1) 0) := by
  have hmem : ∀ q ∈ m.corrJumps, q ∈ m.grid times := fun q hq => mem_grid_of_corr m times hq
  have hst := search_step _ hcs _ (grid_sorted m times) hmem k hk s h1 h2
  unfold rho
  cases h : m.corr with
  | none => rfl
  | some c =>
    have : m.corrJumps = c.1 := by unfold VectorHullWhite.corrJumps; rw [h]; rfl
    rw [this] at hst
    unfold VectorHullWhite.corrAt piecewiseConstant
    simp only [if_true]
    rw [hst]

theorem smallestStep_le (g : List ℝ) (k : Nat) (hk : k + 1 < g.length) : VectorHullWhite.smallestStep g ≤ g.getD (k + 1) 0 - g.getD k 0 := by
  have hmem : g.getD (k + 1) 0 - g.getD k 0 ∈ List.zipWith (fun a b : ℝ => a - b) g.tail g := by
    apply List.mem_of_getElem? (i := k)
    rw [List.getElem?_zipWith, List.getElem?_tail, getD_some g (k + 1) hk, getD_some g k (by omega)]
  unfold VectorHullWhite.smallestStep
  cases h : (List.zipWith (fun a b : ℝ => a - b) g.tail g).min? with
  | none =>
    rw [List.min?_eq_none_iff] at h
    rw [h] at hmem
    simp at hmem
  | some a => exact (List.min?_eq_some_iff.1 h).2 _ hmem

/-- Between equal steps the correlation at the sampling point is the one of the step. -/
theorem rho_sampled (hcs : m.corrJumps.Pairwise (· ≤ ·)) (i j : Nat) (times : List ℝ) (hpos : 0 < VectorHullWhite.smallestStep (m.grid times)) (k : Nat)
    (hk : k + 1 < (m.grid times).length) :
    rho m i j ((m.grid times).getD k 0 + VectorHullWhite.smallestStep (m.grid times) / 2) = rho m i j ((m.grid times).getD (k + 1) 0) := by
  have := smallestStep_le (m.grid times) k hk
  exact rho_step m hcs i j times k hk _ (by linarith) (by linarith)

/-- The integral of the decay over a step. -/
noncomputable def decay (c t t' : ℝ) : ℝ := ∫ s in t..t', Real.exp (-c * (t' - s))

theorem decay_pos (c t t' : ℝ) (h : t < t') : 0 < decay c t t' :=
  intervalIntegral.intervalIntegral_pos_of_pos (Continuous.intervalIntegrable (by fun_prop) _ _) (fun s => Real.exp_pos _) h

theorem decay_nonneg (c t t' : ℝ) (h : t ≤ t') : 0 ≤ decay c t t' := intervalIntegral.integral_nonneg h (fun s _ => (Real.exp_pos _).le)

theorem variance_step (i : Nat) (hi : i < m.dim) (hm : FactorOk m i) (times : List ℝ) (k : Nat) (hk : k + 1 < (m.grid times).length) :
    stateVariance (m.meanReversion i) (m.volatility i) ((m.grid times).getD k 0) ((m.grid times).getD (k + 1) 0) =
      m.volatility i ((m.grid times).getD (k + 1) 0) ^ 2 * decay (2 * m.meanReversion i) ((m.grid times).getD k 0) ((m.grid times).getD (k + 1) 0) := by
  have hle := getD_mono _ (grid_sorted m times) k (k + 1) (by omega) hk
  unfold stateVariance decay
  rw [← intervalIntegral.integral_const_mul]
  refine intervalIntegral.integral_congr_ae (Filter.Eventually.of_forall (fun s hs => ?_))
  rw [Set.uIoc_of_le hle] at hs
  rw [vol_step m i hi hm times k hk s hs.1 hs.2, mul_comm]
  congr 3
  ring

section
variable (hcs : m.corrJumps.Pairwise (· ≤ ·)) (i i' : Nat) (hi : i < m.dim) (hi' : i' < m.dim) (hm : FactorOk m i) (hm' : FactorOk m i') (times : List ℝ)
include hcs hi hi' hm hm'

theorem cov_step (k : Nat) (hk : k + 1 < (m.grid times).length) :
    IntervalIntegrable (fun s => Real.exp ((m.meanReversion i + m.meanReversion i') * s) * (rho m i i' s * m.volatility i s * m.volatility i' s)) volume
      ((m.grid times).getD k 0) ((m.grid times).getD (k + 1) 0) ∧
    stateCovariance (m.meanReversion i) (m.meanReversion i') (m.volatility i) (m.volatility i') (rho m i i') ((m.grid times).getD k 0) ((m.grid times).getD (k + 1) 0) =
      rho m i i' ((m.grid times).getD (k + 1) 0) * m.volatility i ((m.grid times).getD (k + 1) 0) * m.volatility i' ((m.grid times).getD (k + 1) 0) *
        decay (m.meanReversion i + m.meanReversion i') ((m.grid times).getD k 0) ((m.grid times).getD (k + 1) 0) := by
  have hle := getD_mono _ (grid_sorted m times) k (k + 1) (by omega) hk
  have hconst : ∀ s ∈ Set.Ioc ((m.grid times).getD k 0) ((m.grid times).getD (k + 1) 0), rho m i i' s * m.volatility i s * m.volatility i' s =
      rho m i i' ((m.grid times).getD (k + 1) 0) * m.volatility i ((m.grid times).getD (k + 1) 0) * m.volatility i' ((m.grid times).getD (k + 1) 0) := by
    intro s hs
    rw [vol_step m i hi hm times k hk s hs.1 hs.2, vol_step m i' hi' hm' times k hk s hs.1 hs.2, rho_step m hcs i i' times k hk s hs.1 hs.2]
  constructor
  · have hcont : Continuous (fun s => Real.exp ((m.meanReversion i + m.meanReversion i') * s) * (rho m i i' ((m.grid times).getD (k + 1) 0) *
        m.volatility i ((m.grid times).getD (k + 1) 0) * m.volatility i' ((m.grid times).getD (k + 1) 0))) := by fun_prop
    refine (hcont.intervalIntegrable _ _).congr ?_
    rw [Set.uIoc_of_le hle]
    intro s hs
    dsimp only
    rw [hconst s hs]
  · unfold stateCovariance decay
    rw [← intervalIntegral.integral_const_mul]
    refine intervalIntegral.integral_congr_ae (Filter.Eventually.of_forall (fun s hs => ?_))
    rw [Set.uIoc_of_le hle] at hs
    rw [hconst s hs, mul_comm]

theorem cov_scale (t t' : ℝ) : stateCovariance (m.meanReversion i) (m.meanReversion i') (m.volatility i) (m.volatility i') (rho m i i') t t' =
    Real.exp (-(m.meanReversion i + m.meanReversion i') * t') *
      ∫ s in t..t', Real.exp ((m.meanReversion i + m.meanReversion i') * s) * (rho m i i' s * m.volatility i s * m.volatility i' s) := by
  unfold stateCovariance
  rw [← intervalIntegral.integral_const_mul]
  congr 1
  funext s
  rw [show -(m.meanReversion i + m.meanReversion i') * (t' - s) = -(m.meanReversion i + m.meanReversion i') * t' +
    (m.meanReversion i + m.meanReversion i') * s from by ring, Real.exp_add, mul_assoc]

/-- The covariance of the model, step by step. -/
theorem cov_rec (n : Nat) (hn : n < (m.grid times).length) :
    IntervalIntegrable (fun s => Real.exp ((m.meanReversion i + m.meanReversion i') * s) * (rho m i i' s * m.volatility i s * m.volatility i' s)) volume
      ((m.grid times).getD 0 0) ((m.grid times).getD n 0) ∧
    stateCovariance (m.meanReversion i) (m.meanReversion i') (m.volatility i) (m.volatility i') (rho m i i') ((m.grid times).getD 0 0) ((m.grid times).getD n 0) =
      ∑ k ∈ Finset.range n, Real.exp (-(m.meanReversion i + m.meanReversion i') * ((m.grid times).getD n 0 - (m.grid times).getD (k + 1) 0)) *
        (rho m i i' ((m.grid times).getD (k + 1) 0) * m.volatility i ((m.grid times).getD (k + 1) 0) * m.volatility i' ((m.grid times).getD (k + 1) 0) *
          decay (m.meanReversion i + m.meanReversion i') ((m.grid times).getD k 0) ((m.grid times).getD (k + 1) 0)) := by
  induction n with
  | zero => simp [stateCovariance]
  | succ n ih =>
    obtain ⟨a1, a2⟩ := ih (by omega)
    obtain ⟨b1, b2⟩ := cov_step m hcs i i' hi hi' hm hm' times n hn
    refine ⟨a1.trans b1, ?_⟩
    rw [Finset.sum_range_succ, ← b2, sub_self, mul_zero, Real.exp_zero, one_mul]
    have e : ∑ k ∈ Finset.range n, Real.exp (-(m.meanReversion i + m.meanReversion i') * ((m.grid times).getD (n + 1) 0 - (m.grid times).getD (k + 1) 0)) *
        (rho m i i' ((m.grid times).getD (k + 1) 0) * m.volatility i ((m.grid times).getD (k + 1) 0) * m.volatility i' ((m.grid times).getD (k + 1) 0) *
          decay (m.meanReversion i + m.meanReversion i') ((m.grid times).getD k 0) ((m.grid times).getD (k + 1) 0)) =
        Real.exp (-(m.meanReversion i + m.meanReversion i') * ((m.grid times).getD (n + 1) 0 - (m.grid times).getD n 0)) *
          stateCovariance (m.meanReversion i) (m.meanReversion i') (m.volatility i) (m.volatility i') (rho m i i') ((m.grid times).getD 0 0) ((m.grid times).getD n 0) := by
      rw [a2, Finset.mul_sum]
      refine Finset.sum_congr rfl (fun k _ => ?_)
      rw [show -(m.meanReversion i + m.meanReversion i') * ((m.grid times).getD (n + 1) 0 - (m.grid times).getD (k + 1) 0) =
        -(m.meanReversion i + m.meanReversion i') * ((m.grid times).getD (n + 1) 0 - (m.grid times).getD n 0) +
        -(m.meanReversion i + m.meanReversion i') * ((m.grid times).getD n 0 - (m.grid times).getD (k + 1) 0) from by ring, Real.exp_add, mul_assoc]
    rw [e, cov_scale m hcs i i' hi hi' hm hm', cov_scale m hcs i i' hi hi' hm hm', cov_scale m hcs i i' hi hi' hm hm',
      ← intervalIntegral.integral_add_adjacent_intervals a1 b1, mul_add, ← mul_assoc (Real.exp _) (Real.exp _), ← Real.exp_add]
    congr 3
    ring

end

theorem decay_strict (a b t t' : ℝ) (hab : a ≠ b) (h : t < t') : decay (a + b) t t' ^ 2 < decay (2 * a) t t' * decay (2 * b) t t' := by
  have hb := decay_pos (2 * b) t t' h
  obtain ⟨c, hc⟩ : ∃ c, c = decay (a + b) t t' / decay (2 * b) t t' := ⟨_, rfl⟩
  have hcb : c * decay (2 * b) t t' = decay (a + b) t t' := by rw [hc]; exact div_mul_cancel₀ _ hb.ne'
  have hpos : 0 < ∫ s in t..t', (Real.exp (-a * (t' - s)) - c * Real.exp (-b * (t' - s))) ^ 2 := by
    have hcont : Continuous (fun s => (Real.exp (-a * (t' - s)) - c * Real.exp (-b * (t' - s))) ^ 2) := by fun_prop
    have hz : ∫ s in t..t', (0 : ℝ) = 0 := by simp
    rw [← hz]
    refine intervalIntegral.integral_lt_integral_of_continuousOn_of_le_of_exists_lt h continuousOn_const hcont.continuousOn (fun s _ => sq_nonneg _) ?_
    by_contra hno
    push Not at hno
    have h1 := hno t' ⟨h.le, le_rfl⟩
    have h2 := hno t ⟨le_rfl, h.le⟩
    have e1 := pow_eq_zero_iff (two_ne_zero) |>.1 (le_antisymm h1 (sq_nonneg _))
    have e2 := pow_eq_zero_iff (two_ne_zero) |>.1 (le_antisymm h2 (sq_nonneg _))
    simp only [sub_self, mul_zero, Real.exp_zero, mul_one] at e1
    have hc1 : c = 1 := by linarith
    rw [hc1, one_mul, sub_eq_zero] at e2
    have := Real.exp_injective e2
    have h3 : (a - b) * (t' - t) = 0 := by linear_combination -this
    rcases mul_eq_zero.1 h3 with h4 | h4
    · exact hab (by linarith)
    · linarith
  have hexp : ∫ s in t..t', (Real.exp (-a * (t' - s)) - c * Real.exp (-b * (t' - s))) ^ 2 =
      decay (2 * a) t t' - 2 * c * decay (a + b) t t' + c ^ 2 * decay (2 * b) t t' := by
    unfold decay
    rw [← intervalIntegral.integral_const_mul, ← intervalIntegral.integral_const_mul, ← intervalIntegral.integral_sub, ← intervalIntegral.integral_add]
    · congr 1
      funext s
      have e1 : Real.exp (-(2 * a) * (t' - s)) = Real.exp (-a * (t' - s)) * Real.exp (-a * (t' - s)) := by rw [← Real.exp_add]; congr 1; ring
      have e2 : Real.exp (-(2 * b) * (t' - s)) = Real.exp (-b * (t' - s)) * Real.exp (-b * (t' - s)) := by rw [← Real.exp_add]; congr 1; ring
      have e3 : Real.exp (-(a + b) * (t' - s)) = Real.exp (-a * (t' - s)) * Real.exp (-b * (t' - s)) := by rw [← Real.exp_add]; congr 1; ring
      rw [e1, e2, e3]
      ring
    · exact Continuous.intervalIntegrable (by fun_prop) _ _
    · exact Continuous.intervalIntegrable (by fun_prop) _ _
    · exact Continuous.intervalIntegrable (by fun_prop) _ _
    · exact Continuous.intervalIntegrable (by fun_prop) _ _
  rw [hexp] at hpos
  have : decay (2 * a) t t' - 2 * c * decay (a + b) t t' + c ^ 2 * decay (2 * b) t t' = decay (2 * a) t t' - c * decay (a + b) t t' := by
    rw [← hcb]; ring
  rw [this] at hpos
  have h5 := mul_pos hpos hb
  have h6 : (decay (2 * a) t t' - c * decay (a + b) t t') * decay (2 * b) t t' = decay (2 * a) t t' * decay (2 * b) t t' - decay (a + b) t t' ^ 2 := by
    rw [sq, ← hcb]; ring
  rw [h6] at h5
  linarith

open ProbabilityTheory in
/-- Independent standard normal draws are unit draws. -/
theorem unitDraws_exist : ∃ (Ω : Type) (_ : MeasurableSpace Ω) (P : Measure Ω) (_ : IsProbabilityMeasure P) (z : Nat → Nat → Ω → ℝ), UnitDraws P z := by
  refine ⟨Nat × Nat → ℝ, inferInstance, Measure.infinitePi (fun _ => gaussianReal 0 1), inferInstance, fun n l ω => ω (n, l), ?_⟩
  have hmp : ∀ p : Nat × Nat, MeasurePreserving (fun ω : Nat × Nat → ℝ => ω p) (Measure.infinitePi (fun _ => gaussianReal 0 1)) (gaussianReal 0 1) :=
    fun p => measurePreserving_eval_infinitePi _ p
  have hint : ∀ p : Nat × Nat, Integrable (fun ω : Nat × Nat → ℝ => ω p) (Measure.infinitePi (fun _ => gaussianReal 0 1)) := fun p =>
    (hmp p).integrable_comp_of_integrable (g := id) (MemLp.integrable (q := 1) le_rfl (by simpa using memLp_id_gaussianReal (μ := 0) (v := 1) 1))
  have hmean : ∀ p : Nat × Nat, ∫ ω : Nat × Nat → ℝ, ω p ∂(Measure.infinitePi (fun _ => gaussianReal 0 1)) = 0 := by
    intro p
    have := integral_map (μ := Measure.infinitePi (fun _ : Nat × Nat => gaussianReal 0 1)) (hmp p).measurable.aemeasurable (f := fun x : ℝ => x) (by fun_prop)
    rw [(hmp p).map_eq, integral_id_gaussianReal] at this
    exact this.symm
  have hind := iIndepFun_infinitePi (P := fun _ : Nat × Nat => gaussianReal 0 1) (X := fun _ (x : ℝ) => x) (fun _ => measurable_id)
  have hsq : ∀ p : Nat × Nat, Integrable (fun ω : Nat × Nat → ℝ => ω p * ω p) (Measure.infinitePi (fun _ => gaussianReal 0 1)) ∧
      ∫ ω : Nat × Nat → ℝ, ω p * ω p ∂(Measure.infinitePi (fun _ => gaussianReal 0 1)) = 1 := by
    intro p
    constructor
    · have h2 := (memLp_id_gaussianReal (μ := 0) (v := 1) 2).integrable_sq
      have := (hmp p).integrable_comp_of_integrable h2
      simpa [Function.comp_def, sq] using this
    · have := integral_map (μ := Measure.infinitePi (fun _ : Nat × Nat => gaussianReal 0 1)) (hmp p).measurable.aemeasurable (f := fun x : ℝ => x * x) (by fun_prop)
      rw [(hmp p).map_eq] at this
      rw [← this]
      have hv := variance_eq_integral (X := fun x : ℝ => x) (μ := gaussianReal 0 1) (by fun_prop)
      rw [variance_fun_id_gaussianReal, integral_id_gaussianReal] at hv
      simp only [sub_zero, NNReal.coe_one] at hv
      rw [hv]
      exact integral_congr_ae (Filter.Eventually.of_forall (fun x => (sq x).symm))
  refine ⟨fun n l => hint (n, l), fun n l => hmean (n, l), ?_, ?_⟩
  · intro n l n' l'
    by_cases h : (n, l) = (n', l')
    · rw [← h]
      exact (hsq (n, l)).1
    · exact (hind.indepFun h).integrable_mul (hint _) (hint _)
  · intro n l n' l'
    by_cases h : (n, l) = (n', l')
    · rw [← h, (hsq (n, l)).2, if_pos (by simpa using h)]
    · rw [if_neg (by simpa using h)]
      have := (hind.indepFun h).integral_mul_eq_mul_integral (hint _).aestronglyMeasurable (hint _).aestronglyMeasurable
      simp only [Pi.mul_apply] at this
      rw [this, hmean, zero_mul]

end VectorHw

namespace Props
open Model Spec Lemmas VectorHw MeasureTheory

/-- C112: the moments of each factor are those of its own volatility, whatever jumps the correlation has. -/
theorem C112_moments (m : VectorHullWhite) (i : Nat) (hm : FactorOk m i) (t t' : ℝ) (ht : 0 ≤ t) (ht' : t ≤ t') :
    m.computeYt i t = convexity (m.meanReversion i) (m.volatility i) t ∧
    m.conditionalVariance i t t' = stateVariance (m.meanReversion i) (m.volatility i) t t' ∧
    m.conditionalMean i t t' = stateMean (m.meanReversion i) (m.volatility i) t t' := by
  obtain ⟨h1, h2, h3⟩ := C51_moments (alone m i) (alone_ok m i hm) t t' ht ht'
  refine ⟨?_, ?_, ?_⟩
  · unfold VectorHullWhite.computeYt
    rw [varianceAt_alone m i hm t ht]
    exact h1
  · rw [conditionalVariance_alone m i hm t t' ht ht']
    exact h2
  · rw [conditionalMean_alone m i hm t t' ht ht']
    exact h3

/-- C112: the rate added to the state is the instantaneous forward rate of the initial curve of the factor. -/
theorem C112_forward (m : VectorHullWhite) (i : Nat) (t f : ℝ) (hf : HasDerivAt (fun s => m.discountRate i s * s) f t) : m.instantForwardRate i t = f := by
  unfold VectorHullWhite.instantForwardRate
  have h : HasDerivAt (fun s => -m.discountRate i s * s) (-f) t := by
    refine hf.neg.congr_of_eventuallyEq (Filter.Eventually.of_forall fun s => ?_)
    simp
  rw [h.deriv, neg_neg]

/-- C112: each requested time has its rates, which are the forward rates plus the means plus weighted draws; the squared weights add up to the variance. -/
theorem C112_paths (m : VectorHullWhite) (hf : ∀ i, i < m.dim → FactorOk m i) (root : (Nat → Nat → ℝ) → Nat → Nat → ℝ) (times : List ℝ)
    (hs : times.Pairwise (· < ·)) (h0 : ∀ t ∈ times, 0 ≤ t) (j : Nat) (t : ℝ) (hj : times[j]? = some t) (i : Nat) (hi : i < m.dim) :
    ∃ (n : Nat) (w : Nat → ℝ), (m.grid times)[n]? = some t ∧
      ∑ k ∈ Finset.range n, w k ^ 2 = stateVariance (m.meanReversion i) (m.volatility i) 0 t ∧
      ∀ draws : Nat → Nat → ℝ, (m.samplePath root times draws).length = times.length ∧
        ∃ rates, (m.samplePath root times draws)[j]? = some (some rates) ∧
        rates i = m.instantForwardRate i t + stateMean (m.meanReversion i) (m.volatility i) 0 t +
          ∑ k ∈ Finset.range n, w k * m.correlated root (m.grid times) k (draws k) i := by
  have hc : ∀ j ∈ m.corrJumps, 0 ≤ j := (hf i hi).corr_nonneg
  have hp := place_get m times (List.mem_of_getElem? hj)
  have hpl := (List.getElem?_eq_some_iff.1 hp).1
  refine ⟨place m times t, weight m (m.grid times) i (place m times t), hp, ?_, ?_⟩
  · have := weight_sq m i (hf i hi) (m.grid times) (grid_sorted m times) (grid_nonneg m hf hc times h0) _ hpl
    rw [grid_first m hf hc times h0, getD_of_some _ _ _ hp] at this
    rw [← this]
    exact Finset.sum_congr rfl (fun k _ => sq _)
  · intro draws
    rw [samplePath_eq m root times hs draws]
    refine ⟨by simp, _, by rw [List.getElem?_map, hj]; rfl, ?_⟩
    rw [state_eq m i (hf i hi) (m.grid times) (grid_sorted m times) (grid_nonneg m hf hc times h0) root draws _ hpl,
      grid_first m hf hc times h0, getD_of_some _ _ _ hp]
    ring

/-- C112: with unit draws every sampled rate has exactly the mean and, with ones on the diagonal of the correlation, the variance of the model. -/
theorem C112_law {Ω : Type*} [MeasurableSpace Ω] {P : Measure Ω} [IsProbabilityMeasure P] {z : Nat → Nat → Ω → ℝ} (hz : UnitDraws P z)
    (m : VectorHullWhite) (hf : ∀ i, i < m.dim → FactorOk m i) (root : (Nat → Nat → ℝ) → Nat → Nat → ℝ) (hr : RootOk m root) (times : List ℝ)
    (hs : times.Pairwise (· < ·)) (h0 : ∀ t ∈ times, 0 ≤ t) (j : Nat) (t : ℝ) (hj : times[j]? = some t) (i : Nat) (hi : i < m.dim)
    (hd : ∀ s, rho m i i s = 1) :
    Integrable (fun ω => rateAt (m.samplePath root times (fun k l => z k l ω)) j i) P ∧
    ∫ ω, rateAt (m.samplePath root times (fun k l => z k l ω)) j i ∂P = m.instantForwardRate i t + stateMean (m.meanReversion i) (m.volatility i) 0 t ∧
    ∫ ω, (rateAt (m.samplePath root times (fun k l => z k l ω)) j i -
      (m.instantForwardRate i t + stateMean (m.meanReversion i) (m.volatility i) 0 t)) ^ 2 ∂P = stateVariance (m.meanReversion i) (m.volatility i) 0 t := by
  have hc : ∀ j ∈ m.corrJumps, 0 ≤ j := (hf i hi).corr_nonneg
  have hp := place_get m times (List.mem_of_getElem? hj)
  have hpl := (List.getElem?_eq_some_iff.1 hp).1
  obtain ⟨d1, d2, -⟩ := draws_sums hz m.dim (place m times t) (place m times t) le_rfl
    (fun k l => weight m (m.grid times) i (place m times t) k * load m root (m.grid times) k i l)
    (fun k l => weight m (m.grid times) i (place m times t) k * load m root (m.grid times) k i l)
  have he : (fun ω => rateAt (m.samplePath root times (fun k l => z k l ω)) j i) = fun ω =>
      (m.instantForwardRate i t + stateMean (m.meanReversion i) (m.volatility i) 0 t) + ∑ k ∈ Finset.range (place m times t), ∑ l ∈ Finset.range m.dim,
        (weight m (m.grid times) i (place m times t) k * load m root (m.grid times) k i l) * z k l ω := by
    funext ω
    exact rate_eq m hf hc root times hs h0 (fun k l => z k l ω) j i hi t hj
  refine ⟨?_, ?_, ?_⟩
  · rw [he]
    exact (integrable_const _).add d1
  · rw [he, integral_add (integrable_const _) d1, d2]
    simp
  · have := rate_cov m hf hc hz root hr times hs h0 j j i i le_rfl hi hi t t hj hj
    rw [show (fun ω => (rateAt (m.samplePath root times (fun k l => z k l ω)) j i -
      (m.instantForwardRate i t + stateMean (m.meanReversion i) (m.volatility i) 0 t)) ^ 2) = fun ω =>
      (rateAt (m.samplePath root times (fun k l => z k l ω)) j i - (m.instantForwardRate i t + stateMean (m.meanReversion i) (m.volatility i) 0 t)) *
      (rateAt (m.samplePath root times (fun k l => z k l ω)) j i - (m.instantForwardRate i t + stateMean (m.meanReversion i) (m.volatility i) 0 t)) from
      funext (fun ω => sq _), this]
    have h2 := weight_sq m i (hf i hi) (m.grid times) (grid_sorted m times) (grid_nonneg m hf hc times h0) _ hpl
    rw [grid_first m hf hc times h0, getD_of_some _ _ _ hp] at h2
    rw [← h2]
    exact Finset.sum_congr rfl (fun k _ => by rw [hd, mul_one])

/-- C112: when no point of the grid occurs twice, each step uses the correlation that holds on the whole step. -/
theorem C112_correlation_time (m : VectorHullWhite) (hcs : m.corrJumps.Pairwise (· ≤ ·)) (times : List ℝ)
    (hpos : 0 < VectorHullWhite.smallestStep (m.grid times)) (k : Nat) (hk : k + 1 < (m.grid times).length) (s : ℝ) (h1 : (m.grid times).getD k 0 < s)
    (h2 : s ≤ (m.grid times).getD (k + 1) 0) (i j : Nat) :
    rho m i j ((m.grid times).getD k 0 + VectorHullWhite.smallestStep (m.grid times) / 2) = rho m i j s := by
  rw [rho_sampled m hcs i j times hpos k hk, rho_step m hcs i j times k hk s h1 h2]

/-- C112 (partial): for factors with the same mean reversion the sampled rates at any two requested times have the covariance of the model.
What is missing: different mean reversions, see `C112_covariance_deviates`, and points that occur twice in the grid, see `C112_late_correlation_deviates`. -/
theorem C112_covariance_partial {Ω : Type*} [MeasurableSpace Ω] {P : Measure Ω} {z : Nat → Nat → Ω → ℝ} (hz : UnitDraws P z)
    (m : VectorHullWhite) (hf : ∀ i, i < m.dim → FactorOk m i) (hcs : m.corrJumps.Pairwise (· ≤ ·)) (root : (Nat → Nat → ℝ) → Nat → Nat → ℝ) (hr : RootOk m root)
    (times : List ℝ) (hs : times.Pairwise (· < ·)) (h0 : ∀ t ∈ times, 0 ≤ t) (hpos : 0 < VectorHullWhite.smallestStep (m.grid times))
    (j j' : Nat) (hjj : j ≤ j') (t t' : ℝ) (hj : times[j]? = some t) (hj' : times[j']? = some t') (i i' : Nat) (hi : i < m.dim) (hi' : i' < m.dim)
    (hk : m.meanReversion i = m.meanReversion i') (hv : ∀ s, 0 ≤ m.volatility i s) (hv' : ∀ s, 0 ≤ m.volatility i' s) :
    ∫ ω, (rateAt (m.samplePath root times (fun k l => z k l ω)) j i - (m.instantForwardRate i t + stateMean (m.meanReversion i) (m.volatility i) 0 t)) *
      (rateAt (m.samplePath root times (fun k l => z k l ω)) j' i' - (m.instantForwardRate i' t' + stateMean (m.meanReversion i') (m.volatility i') 0 t')) ∂P =
    Real.exp (-m.meanReversion i' * (t' - t)) *
      stateCovariance (m.meanReversion i) (m.meanReversion i') (m.volatility i) (m.volatility i') (rho m i i') 0 t := by
  have hc : ∀ j ∈ m.corrJumps, 0 ≤ j := (hf i hi).corr_nonneg
  have hp := place_get m times (List.mem_of_getElem? hj)
  have hp' := place_get m times (List.mem_of_getElem? hj')
  have hpl := (List.getElem?_eq_some_iff.1 hp).1
  rw [rate_cov m hf hc hz root hr times hs h0 j j' i i' hjj hi hi' t t' hj hj']
  have h2 := (cov_rec m hcs i i' hi hi' (hf i hi) (hf i' hi') times _ hpl).2
  rw [grid_first m hf hc times h0, getD_of_some _ _ _ hp] at h2
  rw [h2, Finset.mul_sum]
  refine Finset.sum_congr rfl (fun k hkr => ?_)
  have hkl : k + 1 < (m.grid times).length := by
    have := Finset.mem_range.1 hkr
    omega
  have hle := getD_mono _ (grid_sorted m times) k (k + 1) (by omega) hkl
  rw [rho_sampled m hcs i i' times hpos k hkl, weight_shift m (m.grid times) i' (place m times t) (place m times t') k, getD_of_some _ _ _ hp, getD_of_some _ _ _ hp']
  unfold weight
  rw [variance_step m i hi (hf i hi) times k hkl, variance_step m i' hi' (hf i' hi') times k hkl, getD_of_some _ _ _ hp, hk, ← two_mul]
  have hdec := decay_nonneg (2 * m.meanReversion i') _ _ hle
  rw [Real.sqrt_mul (sq_nonneg _), Real.sqrt_mul (sq_nonneg _), Real.sqrt_sq (hv _), Real.sqrt_sq (hv' _)]
  have hsq := Real.mul_self_sqrt hdec
  have hex : Real.exp (-(2 * m.meanReversion i') * (t - (m.grid times).getD (k + 1) 0)) =
      Real.exp (-m.meanReversion i' * (t - (m.grid times).getD (k + 1) 0)) * Real.exp (-m.meanReversion i' * (t - (m.grid times).getD (k + 1) 0)) := by
    rw [← Real.exp_add]; congr 1; ring
  rw [hex]
  linear_combination (Real.exp (-m.meanReversion i' * (t' - t)) * (Real.exp (-m.meanReversion i' * (t - (m.grid times).getD (k + 1) 0)) *
    Real.exp (-m.meanReversion i' * (t - (m.grid times).getD (k + 1) 0))) * (rho m i i' ((m.grid times).getD (k + 1) 0) *
    m.volatility i ((m.grid times).getD (k + 1) 0) * m.volatility i' ((m.grid times).getD (k + 1) 0))) * hsq

/-- Two factors with constant parameters and a constant correlation. -/
noncomputable def twoFactors (a b s₁ s₂ r : ℝ) (rate : Nat → ℝ → ℝ) : VectorHullWhite where
  dim := 2
  meanReversion := fun i => if i = 0 then a else b
  volJumps := fun _ => []
  volValues := fun i => [if i = 0 then s₁ else s₂]
  discountRate := rate
  corr := some ([], [fun i j => if i = j then 1 else r])

theorem twoFactors_ok (a b s₁ s₂ r : ℝ) (rate : Nat → ℝ → ℝ) (ha : a ≠ 0) (hb : b ≠ 0) (i : Nat) : FactorOk (twoFactors a b s₁ s₂ r rate) i := by
  refine ⟨?_, List.Pairwise.nil, by simp [twoFactors], by simp [twoFactors, VectorHullWhite.corrJumps]⟩
  unfold twoFactors
  dsimp only
  split_ifs
  · exact ha
  · exact hb

/-- C112 (deviation): with different mean reversions the sampled rates of correlated factors are too strongly correlated, because the correlation is put
on the draws of the step and not on the Brownian motions. -/
theorem C112_covariance_deviates {Ω : Type*} [MeasurableSpace Ω] {P : Measure Ω} {z : Nat → Nat → Ω → ℝ} (hz : UnitDraws P z)
    (a b s₁ s₂ r t : ℝ) (rate : Nat → ℝ → ℝ) (ha : a ≠ 0) (hb : b ≠ 0) (hab : a ≠ b) (h₁ : 0 < s₁) (h₂ : 0 < s₂) (hr0 : r ≠ 0) (ht : 0 < t)
    (root : (Nat → Nat → ℝ) → Nat → Nat → ℝ) (hr : RootOk (twoFactors a b s₁ s₂ r rate) root) :
    |stateCovariance a b (fun _ => s₁) (fun _ => s₂) (fun _ => r) 0 t| <
    |∫ ω, (rateAt ((twoFactors a b s₁ s₂ r rate).samplePath root [t] (fun k l => z k l ω)) 0 0 -
        ((twoFactors a b s₁ s₂ r rate).instantForwardRate 0 t + stateMean a (fun _ => s₁) 0 t)) *
      (rateAt ((twoFactors a b s₁ s₂ r rate).samplePath root [t] (fun k l => z k l ω)) 0 1 -
        ((twoFactors a b s₁ s₂ r rate).instantForwardRate 1 t + stateMean b (fun _ => s₂) 0 t)) ∂P| := by
  set m := twoFactors a b s₁ s₂ r rate with hm
  have hf : ∀ i, i < m.dim → FactorOk m i := fun i _ => twoFactors_ok a b s₁ s₂ r rate ha hb i
  have hc : ∀ j ∈ m.corrJumps, 0 ≤ j := (hf 0 (by simp [hm, twoFactors])).corr_nonneg
  have hgrid : m.grid [t] = [0, t] := by
    simp [hm, twoFactors, VectorHullWhite.grid, VectorHullWhite.corrJumps, List.insertionSort, List.orderedInsert, List.range_succ, ht.le]
  have hmr0 : m.meanReversion 0 = a := rfl
  have hmr1 : m.meanReversion 1 = b := rfl
  have hv0 : m.volatility 0 = fun _ => s₁ := rfl
  have hv1 : m.volatility 1 = fun _ => s₂ := rfl
  have hrho : ∀ s, rho m 0 1 s = r := fun s => rfl
  have hcov := rate_cov m hf hc hz root hr [t] (List.pairwise_singleton _ _) (by simpa using ht.le) 0 0 0 1 le_rfl (by simp [hm, twoFactors]) (by simp [hm, twoFactors])
    t t rfl rfl
  rw [hmr0, hmr1, hv0, hv1] at hcov
  rw [hcov]
  have hplace : place m [t] t = 1 := by
    have h1 := place_get m [t] (List.mem_singleton_self t)
    rw [hgrid] at h1
    obtain ⟨hlt, h2⟩ := List.getElem?_eq_some_iff.1 h1
    have hlt' : place m [t] t < 2 := hlt
    interval_cases h : place m [t] t
    · simp at h2
      exact absurd h2 ht.ne
    · rfl
  have hst : ∀ c s : ℝ, stateVariance c (fun _ => s) 0 t = s ^ 2 * decay (2 * c) 0 t := by
    intro c s
    unfold stateVariance decay
    rw [← intervalIntegral.integral_const_mul]
    congr 1
    funext x
    rw [mul_comm]
    congr 3
    ring
  have hsc : stateCovariance a b (fun _ => s₁) (fun _ => s₂) (fun _ => r) 0 t = r * s₁ * s₂ * decay (a + b) 0 t := by
    unfold stateCovariance decay
    rw [← intervalIntegral.integral_const_mul]
    congr 1
    funext x
    rw [mul_comm]
  rw [hplace, Finset.sum_range_one, weight_self, weight_self, hmr0, hmr1, hv0, hv1, hrho, hgrid, hsc]
  change _ < |√(stateVariance a (fun _ => s₁) 0 t) * √(stateVariance b (fun _ => s₂) 0 t) * r|
  have ja := decay_pos (2 * a) 0 t ht
  have jb := decay_pos (2 * b) 0 t ht
  have jab := decay_pos (a + b) 0 t ht
  rw [hst, hst, Real.sqrt_mul (sq_nonneg _), Real.sqrt_mul (sq_nonneg _), Real.sqrt_sq h₁.le, Real.sqrt_sq h₂.le]
  have hstrict : decay (a + b) 0 t < √(decay (2 * a) 0 t) * √(decay (2 * b) 0 t) := by
    rw [← Real.sqrt_mul ja.le]
    exact Real.lt_sqrt_of_sq_lt (decay_strict a b 0 t hab ht)
  have e1 : |r * s₁ * s₂ * decay (a + b) 0 t| = (|r| * (s₁ * s₂)) * decay (a + b) 0 t := by
    rw [abs_mul, abs_mul, abs_mul, abs_of_pos h₁, abs_of_pos h₂, abs_of_pos jab]; ring
  have e2 : |s₁ * √(decay (2 * a) 0 t) * (s₂ * √(decay (2 * b) 0 t)) * r| = (|r| * (s₁ * s₂)) * (√(decay (2 * a) 0 t) * √(decay (2 * b) 0 t)) := by
    rw [abs_mul, abs_of_nonneg (by positivity : 0 ≤ s₁ * √(decay (2 * a) 0 t) * (s₂ * √(decay (2 * b) 0 t)))]; ring
  rw [e1, e2]
  exact mul_lt_mul_of_pos_left hstrict (mul_pos (abs_pos.2 hr0) (mul_pos h₁ h₂))

/-- Two factors whose volatilities jump at the same time, and a correlation that jumps later. -/
noncomputable def lateFactors (r₁ r₂ : ℝ) : VectorHullWhite where
  dim := 2
  meanReversion := fun _ => 1
  volJumps := fun _ => [1]
  volValues := fun _ => [1, 2]
  discountRate := fun _ _ => 0
  corr := some ([2], [fun i j => if i = j then 1 else r₁, fun i j => if i = j then 1 else r₂])

/-- C112 (deviation): when two volatilities jump at the same time this time occurs twice in the grid, the smallest step is zero and the correlation after a
jump is used one step late. -/
theorem C112_late_correlation_deviates (r₁ r₂ : ℝ) (hr : r₁ ≠ r₂) :
    (∀ i, FactorOk (lateFactors r₁ r₂) i) ∧ (lateFactors r₁ r₂).grid [3] = [0, 1, 1, 2, 3] ∧
    VectorHullWhite.smallestStep ((lateFactors r₁ r₂).grid [3]) = 0 ∧
    ∀ s, 2 < s → s ≤ 3 → rho (lateFactors r₁ r₂) 0 1 s = r₂ ∧
      rho (lateFactors r₁ r₂) 0 1 (((lateFactors r₁ r₂).grid [3]).getD 3 0 + VectorHullWhite.smallestStep ((lateFactors r₁ r₂).grid [3]) / 2) = r₁ := by
  have hgrid : (lateFactors r₁ r₂).grid [3] = [0, 1, 1, 2, 3] := by
    norm_num [lateFactors, VectorHullWhite.grid, VectorHullWhite.corrJumps, List.insertionSort, List.orderedInsert, List.range_succ]
  have hstep : VectorHullWhite.smallestStep ((lateFactors r₁ r₂).grid [3]) = 0 := by
    rw [hgrid]
    norm_num [VectorHullWhite.smallestStep, List.min?]
  refine ⟨fun i => ⟨by simp [lateFactors], by simp [lateFactors], by simp [lateFactors], by simp [lateFactors, VectorHullWhite.corrJumps]⟩, hgrid, hstep, ?_⟩
  intro s h1 h2
  rw [hstep, hgrid]
  constructor
  · simp [rho, lateFactors, VectorHullWhite.corrAt, piecewiseConstant, searchLeft, h1]
  · simp [rho, lateFactors, VectorHullWhite.corrAt, piecewiseConstant, searchLeft]

/-- C112: each sampled curve value is the bond price of the model given the sampled rate. -/
theorem C112_curves (m : VectorHullWhite) (root : (Nat → Nat → ℝ) → Nat → Nat → ℝ) (times curveTimes : List ℝ) (hs : times.Pairwise (· < ·))
    (h0 : ∀ t ∈ times, 0 ≤ t) (draws : Nat → Nat → ℝ) (j c : Nat) (t tau : ℝ) (hj : times[j]? = some t) (hc : curveTimes[c]? = some tau) :
    ∃ row prices rates, (m.discountCurvePath root times curveTimes draws).2 = m.samplePath root times draws ∧
      (m.samplePath root times draws)[j]? = some (some rates) ∧ (m.discountCurvePath root times curveTimes draws).1[c]? = some row ∧
      row[j]? = some (some prices) ∧ ∀ i, FactorOk m i → prices i =
        Real.exp (-m.discountRate i (t + tau) * (t + tau)) / Real.exp (-m.discountRate i t * t) *
          Real.exp (-((rates i - m.instantForwardRate i t) * ((1 - Real.exp (-m.meanReversion i * tau)) / m.meanReversion i)) -
            1 / 2 * convexity (m.meanReversion i) (m.volatility i) t * ((1 - Real.exp (-m.meanReversion i * tau)) / m.meanReversion i) ^ 2) := by
  have hpath : (m.samplePath root times draws)[j]? = some (some (fun i => m.state root (m.grid times) draws (place m times t) i + m.instantForwardRate i t)) := by
    rw [samplePath_eq m root times hs draws, List.getElem?_map, hj]
    rfl
  refine ⟨List.zipWith (fun t r => r.map (fun r => fun i => m.bondReconstitution i t (t + tau) (r i) (m.computeYt i t))) times (m.samplePath root times draws),
    fun i => m.bondReconstitution i t (t + tau) (m.state root (m.grid times) draws (place m times t) i + m.instantForwardRate i t) (m.computeYt i t),
    fun i => m.state root (m.grid times) draws (place m times t) i + m.instantForwardRate i t, rfl, hpath, ?_, ?_, ?_⟩
  · unfold VectorHullWhite.discountCurvePath
    dsimp only
    rw [List.getElem?_map, hc]
    rfl
  · rw [List.getElem?_zipWith, hj, hpath]
    rfl
  · intro i hi
    have h0t := h0 t (List.mem_of_getElem? hj)
    dsimp only
    rw [(C112_moments m i hi t t h0t le_rfl).1]
    unfold VectorHullWhite.bondReconstitution
    dsimp only
    rw [add_sub_cancel_left t tau, add_sub_cancel_right]
    congr 2
    ring

/-- C112: the volatility function of the process is a root of the covariance of the rates. -/
theorem C112_volatility (m : VectorHullWhite) (root : (Nat → Nat → ℝ) → Nat → Nat → ℝ) (hr : RootOk m root) (t : ℝ) (i j : Nat) (hi : i < m.dim) (hj : j < m.dim) :
    ∑ l ∈ Finset.range m.dim, m.volFn root t i l * m.volFn root t j l = m.volatility i t * m.volatility j t * rho m i j t := by
  unfold VectorHullWhite.volFn rho
  cases h : m.corr with
  | none =>
    simp [hi]
    intro h
    omega
  | some c =>
    dsimp only
    rw [← hr c h t i j hi hj, Finset.mul_sum]
    exact Finset.sum_congr rfl (fun l _ => by ring)

/-- C112: which parameters are accepted, and which are sampled by Euler steps. -/
theorem C112_inputs (dim : Nat) (isMr : Bool) (p : HwParam) :
    (∃ r, hwInputType dim isMr p = .ok r) ↔ match p with
      | .piecewise shape => shape.length ≤ 1 ∨ shape.length = 2 ∧ shape.headD 0 = dim
      | .callable => True
      | .tensor shape => shape = [] ∨ shape.getLastD 0 = dim := by
  cases p with
  | piecewise shape =>
    unfold hwInputType
    dsimp only
    split_ifs with h1 h2
    · simp only [reduceCtorEq, exists_false, false_iff]; omega
    · simp only [reduceCtorEq, exists_false, false_iff]; omega
    · refine ⟨fun _ => ?_, fun _ => ⟨_, rfl⟩⟩
      omega
  | callable => exact ⟨fun _ => trivial, fun _ => ⟨_, rfl⟩⟩
  | tensor shape =>
    unfold hwInputType
    dsimp only
    split_ifs with h1
    · simp only [reduceCtorEq, exists_false, false_iff]; tauto
    · refine ⟨fun _ => ?_, fun _ => ⟨_, rfl⟩⟩
      tauto

/-- C112 (deviation): a mean reversion that never jumps is sampled exactly, unless it is given as a batch of piecewise constant functions. -/
theorem C112_batch_mean_reversion_deviates (dim : Nat) (hd : 0 < dim) :
    hwInputType dim true (.piecewise [0]) = .ok (false, true) ∧ hwInputType dim true (.tensor [dim]) = .ok (false, true) ∧
    hwInputType dim true (.piecewise [dim, 0]) = .ok (true, true) := by
  simp [hwInputType, hd]

/-- The Cholesky root of a correlation matrix of two factors. -/
noncomputable def rootTwo (c : Nat → Nat → ℝ) (i l : Nat) : ℝ :=
  if i = 0 then (if l = 0 then 1 else 0) else if l = 0 then c 1 0 else √(1 - c 1 0 ^ 2)

theorem rootTwo_ok (a b s₁ s₂ r : ℝ) (rate : Nat → ℝ → ℝ) (hr : r ^ 2 ≤ 1) : RootOk (twoFactors a b s₁ s₂ r rate) rootTwo := by
  intro c hc t i j hi hj
  have hc' : c = ([], [fun i j => if i = j then 1 else r]) := (Option.some.inj hc).symm
  subst hc'
  have hat : ∀ i j, VectorHullWhite.corrAt ([], [fun i j => if i = j then 1 else r]) t i j = if i = j then 1 else r := fun i j => rfl
  have hi' : i < 2 := hi
  have hj' : j < 2 := hj
  have hd : (twoFactors a b s₁ s₂ r rate).dim = 2 := rfl
  have hsq := Real.mul_self_sqrt (sub_nonneg.2 hr)
  rw [hd, Finset.sum_range_succ, Finset.sum_range_one]
  interval_cases i <;> interval_cases j <;> simp [rootTwo, hat]
  linear_combination hsq

/-- Factors with mean reversion one and correlation a half: the covariance of the first rate after one year and the second after two years. -/
example {Ω : Type*} [MeasurableSpace Ω] {P : Measure Ω} {z : Nat → Nat → Ω → ℝ} (hz : UnitDraws P z) :
    ∫ ω, (rateAt ((twoFactors 1 1 2 3 (1 / 2) (fun _ _ => 0)).samplePath rootTwo [1, 2] (fun k l => z k l ω)) 0 0 -
        ((twoFactors 1 1 2 3 (1 / 2) (fun _ _ => 0)).instantForwardRate 0 1 + stateMean 1 (fun _ => 2) 0 1)) *
      (rateAt ((twoFactors 1 1 2 3 (1 / 2) (fun _ _ => 0)).samplePath rootTwo [1, 2] (fun k l => z k l ω)) 1 1 -
        ((twoFactors 1 1 2 3 (1 / 2) (fun _ _ => 0)).instantForwardRate 1 2 + stateMean 1 (fun _ => 3) 0 2)) ∂P =
    Real.exp (-1 * (2 - 1)) * stateCovariance 1 1 (fun _ => 2) (fun _ => 3) (fun _ => 1 / 2) 0 1 := by
  have hgrid : (twoFactors 1 1 2 3 (1 / 2) (fun _ _ => 0)).grid [1, 2] = [0, 1, 2] := by
    norm_num [twoFactors, VectorHullWhite.grid, VectorHullWhite.corrJumps, List.insertionSort, List.orderedInsert, List.range_succ]
  exact C112_covariance_partial hz (twoFactors 1 1 2 3 (1 / 2) (fun _ _ => 0)) (fun i _ => twoFactors_ok 1 1 2 3 (1 / 2) _ one_ne_zero one_ne_zero i)
    (by simp [twoFactors, VectorHullWhite.corrJumps]) rootTwo (rootTwo_ok 1 1 2 3 (1 / 2) _ (by norm_num)) [1, 2] (by norm_num) (by norm_num)
    (by rw [hgrid]; norm_num [VectorHullWhite.smallestStep, List.min?]) 0 1 (by omega) 1 2 rfl rfl 0 1 (by simp [twoFactors]) (by simp [twoFactors]) rfl
    (fun s => by change (0 : ℝ) ≤ 2; norm_num) (fun s => by change (0 : ℝ) ≤ 3; norm_num)

/-- There are draws and a root for which the covariance deviates: mean reversions one and two. -/
example : ∃ (Ω : Type) (_ : MeasurableSpace Ω) (P : Measure Ω) (_ : IsProbabilityMeasure P) (z : Nat → Nat → Ω → ℝ), UnitDraws P z ∧
    |stateCovariance 1 2 (fun _ => 1) (fun _ => 1) (fun _ => 1 / 2) 0 1| <
    |∫ ω, (rateAt ((twoFactors 1 2 1 1 (1 / 2) (fun _ _ => 0)).samplePath rootTwo [1] (fun k l => z k l ω)) 0 0 -
        ((twoFactors 1 2 1 1 (1 / 2) (fun _ _ => 0)).instantForwardRate 0 1 + stateMean 1 (fun _ => 1) 0 1)) *
      (rateAt ((twoFactors 1 2 1 1 (1 / 2) (fun _ _ => 0)).samplePath rootTwo [1] (fun k l => z k l ω)) 0 1 -
        ((twoFactors 1 2 1 1 (1 / 2) (fun _ _ => 0)).instantForwardRate 1 1 + stateMean 2 (fun _ => 1) 0 1)) ∂P| := by
  obtain ⟨Ω, i, P, hP, z, hz⟩ := unitDraws_exist
  exact ⟨Ω, i, P, hP, z, hz, C112_covariance_deviates hz 1 2 1 1 (1 / 2) 1 _ (by norm_num) (by norm_num) (by norm_num) (by norm_num) (by norm_num) (by norm_num)
    (by norm_num) rootTwo (rootTwo_ok 1 2 1 1 (1 / 2) _ (by norm_num))⟩

end Props
