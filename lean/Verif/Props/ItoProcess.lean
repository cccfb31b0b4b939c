import Verif.Model.ItoProcess
import Verif.Model.Sampling
import Mathlib.Tactic.Ring
import Mathlib.Tactic.Linarith
import Mathlib.Tactic.FinCases
import Mathlib.Algebra.BigOperators.Ring.Finset
import Mathlib.Algebra.BigOperators.Fin
import Mathlib.Algebra.BigOperators.Intervals
import Mathlib.Analysis.Calculus.Deriv.Mul
import Mathlib.MeasureTheory.Integral.Bochner.Basic
import Mathlib.MeasureTheory.Measure.Typeclasses.Probability

/-!
# Joined Ito processes and their equations (C62)
-/

namespace Props
open Model
open scoped BigOperators

theorem joinedDriftLoop_append (t : ℝ) (x : List ℝ) (pre rest : List ItoBlock) (i : Nat) :
    joinedDriftLoop t x (pre ++ rest) i i = joinedDriftLoop t x pre i i ++ joinedDriftLoop t x rest (i + joinedDim pre) (i + joinedDim pre) := by
  induction pre generalizing i with
  | nil => simp [joinedDriftLoop, joinedDim]
  | cons p pre ih =>
    have := ih (i + p.dim)
    simp only [List.cons_append, joinedDriftLoop, List.append_assoc, this, joinedDim, List.map_cons, List.sum_cons, ← Nat.add_assoc]

theorem joinedDriftLoop_length (t : ℝ) (x : List ℝ) (ps : List ItoBlock) (i j : Nat) : (joinedDriftLoop t x ps i j).length = joinedDim ps := by
  induction ps generalizing i j with
  | nil => simp [joinedDriftLoop, joinedDim]
  | cons p ps ih => simp [joinedDriftLoop, ih, joinedDim]

theorem joinedVolLoop_append (t : ℝ) (x : List ℝ) (pre rest : List ItoBlock) (i : Nat) :
    joinedVolLoop t x (pre ++ rest) i i = joinedVolLoop t x pre i i ++ joinedVolLoop t x rest (i + joinedDim pre) (i + joinedDim pre) := by
  induction pre generalizing i with
  | nil => simp [joinedVolLoop, joinedDim]
  | cons p pre ih =>
    have := ih (i + p.dim)
    simp only [List.cons_append, joinedVolLoop, this, joinedDim, List.map_cons, List.sum_cons, ← Nat.add_assoc]

theorem joinedVolLoop_dims (t : ℝ) (x : List ℝ) (ps : List ItoBlock) (i j : Nat) : ((joinedVolLoop t x ps i j).map Prod.fst).sum = joinedDim ps := by
  induction ps generalizing i j with
  | nil => simp [joinedVolLoop, joinedDim]
  | cons p ps ih => simp [joinedVolLoop, ih, joinedDim]

/-- Rows and columns of the blocks after `pre`. -/
theorem blockDense_shift (pre rest : List (Nat × (Nat → Nat → ℝ))) (i j : Nat) :
    blockDense (pre ++ rest) ((pre.map Prod.fst).sum + i) ((pre.map Prod.fst).sum + j) = blockDense rest i j := by
  induction pre with
  | nil => simp
  | cons p pre ih =>
    obtain ⟨n, m⟩ := p
    simp only [List.cons_append, blockDense, List.map_cons, List.sum_cons]
    rw [if_neg (by omega), if_pos (by omega)]
    rw [show n + (pre.map Prod.fst).sum + i - n = (pre.map Prod.fst).sum + i by omega,
      show n + (pre.map Prod.fst).sum + j - n = (pre.map Prod.fst).sum + j by omega, ih]

theorem blockDense_left (pre rest : List (Nat × (Nat → Nat → ℝ))) (i j : Nat) (hj : j < (pre.map Prod.fst).sum) :
    blockDense (pre ++ rest) ((pre.map Prod.fst).sum + i) j = 0 := by
  induction pre generalizing j with
  | nil => simp at hj
  | cons p pre ih =>
    obtain ⟨n, m⟩ := p
    simp only [List.map_cons, List.sum_cons] at hj
    simp only [List.cons_append, blockDense, List.map_cons, List.sum_cons]
    rw [if_neg (by omega)]
    by_cases h : n ≤ j
    · rw [if_pos (by omega), show n + (pre.map Prod.fst).sum + i - n = (pre.map Prod.fst).sum + i by omega]
      exact ih _ (by omega)
    · rw [if_neg (by omega)]

/-- The entries of the dense matrix in the rows of a block. -/
theorem blockDense_row (pre : List (Nat × (Nat → Nat → ℝ))) (n : Nat) (m : Nat → Nat → ℝ) (rest : List (Nat × (Nat → Nat → ℝ))) (i : Nat) (hi : i < n)
    (off : Nat) (hoff : off = (pre.map Prod.fst).sum) :
    (∀ j < n, blockDense (pre ++ (n, m) :: rest) (off + i) (off + j) = m i j) ∧
    ∀ j, j < off ∨ off + n ≤ j → blockDense (pre ++ (n, m) :: rest) (off + i) j = 0 := by
  subst hoff
  refine ⟨fun j hj => ?_, fun j hj => ?_⟩
  · rw [blockDense_shift, blockDense, if_pos ⟨hi, hj⟩]
  · rcases hj with hj | hj
    · exact blockDense_left _ _ _ _ hj
    · obtain ⟨k, rfl⟩ := Nat.exists_eq_add_of_le (show (pre.map Prod.fst).sum ≤ j by omega)
      rw [blockDense_shift, blockDense, if_neg (by omega), if_neg (by omega)]

/-- The same by columns. -/
theorem blockDense_transpose (bs : List (Nat × (Nat → Nat → ℝ))) (i j : Nat) :
    blockDense (bs.map fun b => (b.1, fun i j => b.2 j i)) i j = blockDense bs j i := by
  induction bs generalizing i j with
  | nil => rfl
  | cons b bs ih =>
    obtain ⟨n, m⟩ := b
    simp only [List.map_cons, blockDense, ih]
    by_cases h : i < n ∧ j < n
    · rw [if_pos h, if_pos h.symm]
    · rw [if_neg h, if_neg (show ¬(j < n ∧ i < n) by omega)]
      by_cases h' : n ≤ i ∧ n ≤ j
      · rw [if_pos h', if_pos h'.symm]
      · rw [if_neg h', if_neg (show ¬(n ≤ j ∧ n ≤ i) by omega)]

/-- The product of block matrices with the same sizes. -/
theorem blockDense_mul_transpose {N : Nat} (bs : List (Nat × (Nat → Nat → ℝ))) (L : Nat → (Nat → Nat → ℝ) → Nat → Nat → ℝ)
    (hL : ∀ b ∈ bs, ∀ i < b.1, ∀ j < b.1, ∑ k ∈ Finset.range b.1, L b.1 b.2 i k * L b.1 b.2 j k = b.2 i j) (hN : (bs.map Prod.fst).sum = N) (i j : Nat)
    (hi : i < N) (hj : j < N) :
    ∑ k ∈ Finset.range N, blockDense (bs.map fun m => (m.1, L m.1 m.2)) i k * blockDense (bs.map fun m => (m.1, L m.1 m.2)) j k = blockDense bs i j := by
  induction bs generalizing N i j with
  | nil => simp [← hN] at hi
  | cons b bs ih =>
    obtain ⟨n, m⟩ := b
    simp only [List.map_cons, List.sum_cons] at hN
    subst hN
    simp only [List.map_cons, blockDense]
    rw [Finset.sum_range_add]
    have h1 := hL (n, m) (by simp)
    have ih' := ih (fun b hb => hL b (by simp [hb])) rfl
    have e1 : ∀ k ∈ Finset.range n, (if i < n ∧ k < n then L n m i k else if n ≤ i ∧ n ≤ k then
        blockDense (bs.map fun m => (m.1, L m.1 m.2)) (i - n) (k - n) else 0) * (if j < n ∧ k < n then L n m j k else if n ≤ j ∧ n ≤ k then
        blockDense (bs.map fun m => (m.1, L m.1 m.2)) (j - n) (k - n) else 0) = if i < n ∧ j < n then L n m i k * L n m j k else 0 := by
      intro k hk
      have hk : k < n := Finset.mem_range.1 hk
      by_cases a : i < n <;> by_cases b : j < n <;> simp [a, b, hk, Nat.not_le.2 hk]
    have e2 : ∀ k ∈ Finset.range (bs.map Prod.fst).sum, (if i < n ∧ n + k < n then L n m i (n + k) else if n ≤ i ∧ n ≤ n + k then
        blockDense (bs.map fun m => (m.1, L m.1 m.2)) (i - n) (n + k - n) else 0) * (if j < n ∧ n + k < n then L n m j (n + k) else if n ≤ j ∧ n ≤ n + k then
        blockDense (bs.map fun m => (m.1, L m.1 m.2)) (j - n) (n + k - n) else 0) = if n ≤ i ∧ n ≤ j then
        blockDense (bs.map fun m => (m.1, L m.1 m.2)) (i - n) k * blockDense (bs.map fun m => (m.1, L m.1 m.2)) (j - n) k else 0 := by
      intro k _
      by_cases a : n ≤ i <;> by_cases b : n ≤ j <;> simp [a, b]
    rw [Finset.sum_congr rfl e1, Finset.sum_congr rfl e2]
    by_cases a : i < n ∧ j < n
    · simp only [if_pos a, if_neg (show ¬(n ≤ i ∧ n ≤ j) by omega), Finset.sum_const_zero, add_zero]
      exact h1 i a.1 j a.2
    · by_cases b : n ≤ i ∧ n ≤ j
      · simp only [if_neg a, if_pos b, Finset.sum_const_zero, zero_add]
        exact ih' _ _ (by omega) (by omega)
      · simp only [if_neg a, if_neg b, Finset.sum_const_zero, add_zero]

/-- The contract of `tf.linalg.cholesky` that is used. -/
def CholeskyOk (cholesky : Nat → (Nat → Nat → ℝ) → Nat → Nat → ℝ) (n : Nat) (m : Nat → Nat → ℝ) : Prop :=
  ∀ i < n, ∀ j < n, ∑ k ∈ Finset.range n, cholesky n m i k * cholesky n m j k = m i j

/-- C62: each process keeps its drift, as a function of its own coordinates. -/
theorem C62_drift (pre : List ItoBlock) (p : ItoBlock) (post : List ItoBlock) (t : ℝ) (x : List ℝ) (hx : x.length = joinedDim (pre ++ p :: post)) :
    (joinedDrift (pre ++ p :: post) t x).length = x.length ∧
    ∀ i < p.dim, (joinedDrift (pre ++ p :: post) t x)[joinedDim pre + i]? = some (p.drift t ((x.drop (joinedDim pre)).take p.dim) i) := by
  refine ⟨by rw [joinedDrift, joinedDriftLoop_length, hx], fun i hi => ?_⟩
  rw [joinedDrift, joinedDriftLoop_append, List.getElem?_append_right (by rw [joinedDriftLoop_length]; omega), joinedDriftLoop_length, joinedDriftLoop]
  rw [List.getElem?_append_left (by simp; omega)]
  simp only [zero_add, List.drop_take]
  rw [List.getElem?_map, List.getElem?_range (by omega)]
  simp

/-- The volatility of the processes before the correlations. -/
theorem joined_vol_row (pre : List ItoBlock) (p : ItoBlock) (post : List ItoBlock) (t : ℝ) (x : List ℝ) (i : Nat) (hi : i < p.dim) :
    (∀ k < p.dim, blockDense (joinedVolLoop t x (pre ++ p :: post) 0 0) (joinedDim pre + i) (joinedDim pre + k) =
      p.vol t ((x.drop (joinedDim pre)).take p.dim) i k) ∧
    ∀ k, k < joinedDim pre ∨ joinedDim pre + p.dim ≤ k → blockDense (joinedVolLoop t x (pre ++ p :: post) 0 0) (joinedDim pre + i) k = 0 := by
  rw [joinedVolLoop_append, joinedVolLoop]
  have := blockDense_row (joinedVolLoop t x pre 0 0) p.dim
    (p.vol t ((x.take (0 + joinedDim pre + p.dim)).drop (0 + joinedDim pre))) (joinedVolLoop t x post (0 + joinedDim pre + p.dim) (0 + joinedDim pre + p.dim)) i hi
    (joinedDim pre) (joinedVolLoop_dims _ _ _ _ _).symm
  simpa [List.drop_take] using this

theorem sum_window {N off n : Nat} (h : off + n ≤ N) (f : Nat → ℝ) (h0 : ∀ k, k < off ∨ off + n ≤ k → f k = 0) :
    ∑ k ∈ Finset.range N, f k = ∑ k ∈ Finset.range n, f (off + k) := by
  obtain ⟨r, rfl⟩ := Nat.exists_eq_add_of_le h
  rw [Finset.sum_range_add, Finset.sum_range_add]
  rw [Finset.sum_eq_zero (fun k hk => h0 k (Or.inl (Finset.mem_range.1 hk)))]
  rw [Finset.sum_eq_zero (fun k _ => h0 (off + n + k) (Or.inr (by omega)))]
  simp

/-- C62: the covariance of the joined process. Two processes (the same or different ones) have the covariance of their own volatilities with the
Brownian motions correlated by the block matrix of `corr_structure`. -/
theorem C62_covariance (cholesky : Nat → (Nat → Nat → ℝ) → Nat → Nat → ℝ) (processes : List ItoBlock) (corr : List (Nat × (ℝ → Nat → Nat → ℝ)))
    (hdim : (corr.map Prod.fst).sum = joinedDim processes) (t : ℝ) (hc : ∀ c ∈ corr, CholeskyOk cholesky c.1 (c.2 t)) (x : List ℝ)
    (pre : List ItoBlock) (p : ItoBlock) (post : List ItoBlock) (hp : processes = pre ++ p :: post) (pre' : List ItoBlock) (q : ItoBlock)
    (post' : List ItoBlock) (hq : processes = pre' ++ q :: post') (i j : Nat) (hi : i < p.dim) (hj : j < q.dim) :
    ∑ k ∈ Finset.range (joinedDim processes), joinedVol cholesky processes corr t x (joinedDim pre + i) k *
        joinedVol cholesky processes corr t x (joinedDim pre' + j) k =
      ∑ k ∈ Finset.range p.dim, ∑ l ∈ Finset.range q.dim, p.vol t ((x.drop (joinedDim pre)).take p.dim) i k *
        blockDense (corr.map fun c => (c.1, c.2 t)) (joinedDim pre + k) (joinedDim pre' + l) * q.vol t ((x.drop (joinedDim pre')).take q.dim) j l := by
  set N := joinedDim processes with hN
  set B := blockDense (joinedVolLoop t x processes 0 0) with hB
  set C := blockDense (corr.map fun c => (c.1, c.2 t)) with hC
  set L := blockDense ((corr.map fun c => (c.1, c.2 t)).map fun m => (m.1, cholesky m.1 m.2)) with hL
  have hLL : ∀ a < N, ∀ b < N, ∑ k ∈ Finset.range N, L a k * L b k = C a b := by
    intro a ha b hb
    refine blockDense_mul_transpose (corr.map fun c => (c.1, c.2 t)) cholesky ?_ ?_ a b ha hb
    · intro m hm
      obtain ⟨c, hcm, rfl⟩ := List.mem_map.1 hm
      exact hc c hcm
    · rw [List.map_map, ← hdim]; rfl
  have e : ∀ a b, ∑ k ∈ Finset.range N, joinedVol cholesky processes corr t x a k * joinedVol cholesky processes corr t x b k =
      ∑ m ∈ Finset.range N, ∑ n ∈ Finset.range N, B a m * C m n * B b n := by
    intro a b
    have h : ∀ k, joinedVol cholesky processes corr t x a k * joinedVol cholesky processes corr t x b k =
        ∑ m ∈ Finset.range N, ∑ n ∈ Finset.range N, B a m * B b n * (L m k * L n k) := by
      intro k
      simp only [joinedVol]
      rw [Finset.sum_mul_sum]
      refine Finset.sum_congr rfl fun m _ => Finset.sum_congr rfl fun n _ => ?_
      ring
    simp only [h]
    rw [Finset.sum_comm]
    refine Finset.sum_congr rfl fun m hm => ?_
    rw [Finset.sum_comm]
    refine Finset.sum_congr rfl fun n hn => ?_
    rw [← Finset.mul_sum, hLL m (Finset.mem_range.1 hm) n (Finset.mem_range.1 hn)]
    ring
  rw [e]
  have hNp : joinedDim pre + p.dim ≤ N := by rw [hN, hp]; simp [joinedDim]
  have hNq : joinedDim pre' + q.dim ≤ N := by rw [hN, hq]; simp [joinedDim]
  have rp := joined_vol_row pre p post t x i hi
  rw [← hp] at rp
  have rq := joined_vol_row pre' q post' t x j hj
  rw [← hq] at rq
  rw [sum_window hNp _ (fun m hm => by simp [hB, rp.2 m hm])]
  refine Finset.sum_congr rfl fun m hm => ?_
  rw [sum_window hNq _ (fun n hn => by simp [hB, rq.2 n hn])]
  refine Finset.sum_congr rfl fun n hn => ?_
  rw [hB, rp.1 m (Finset.mem_range.1 hm), rq.1 n (Finset.mem_range.1 hn)]

/-- C62: the correlations of the Brownian motions are those of the matrix of the block, and zero between different blocks. -/
theorem C62_correlation (corr : List (Nat × (ℝ → Nat → Nat → ℝ))) (t : ℝ) (pre : List (Nat × (ℝ → Nat → Nat → ℝ))) (n : Nat) (m : ℝ → Nat → Nat → ℝ)
    (post : List (Nat × (ℝ → Nat → Nat → ℝ))) (h : corr = pre ++ (n, m) :: post) (i : Nat) (hi : i < n) :
    (∀ j < n, blockDense (corr.map fun c => (c.1, c.2 t)) ((pre.map Prod.fst).sum + i) ((pre.map Prod.fst).sum + j) = m t i j) ∧
    ∀ j, j < (pre.map Prod.fst).sum ∨ (pre.map Prod.fst).sum + n ≤ j →
      blockDense (corr.map fun c => (c.1, c.2 t)) ((pre.map Prod.fst).sum + i) j = 0 ∧
      blockDense (corr.map fun c => (c.1, c.2 t)) j ((pre.map Prod.fst).sum + i) = 0 := by
  subst h
  have h1 := blockDense_row (pre.map fun c => (c.1, c.2 t)) n (m t) (post.map fun c => (c.1, c.2 t)) i hi (pre.map Prod.fst).sum
    (by rw [List.map_map]; rfl)
  have h2 := blockDense_row ((pre.map fun c => (c.1, c.2 t)).map fun b => (b.1, fun i j => b.2 j i)) n (fun i j => m t j i)
    ((post.map fun c => (c.1, c.2 t)).map fun b => (b.1, fun i j => b.2 j i)) i hi (pre.map Prod.fst).sum (by rw [List.map_map, List.map_map]; rfl)
  have e : (pre.map fun c => (c.1, c.2 t)).map (fun b => (b.1, fun i j => b.2 j i)) ++ (n, fun i j => m t j i) ::
      (post.map fun c => (c.1, c.2 t)).map (fun b => (b.1, fun i j => b.2 j i)) =
      ((pre ++ (n, m) :: post).map fun c => (c.1, c.2 t)).map (fun b => (b.1, fun i j => b.2 j i)) := by simp
  rw [e] at h2
  simp only [blockDense_transpose] at h2
  rw [List.map_append, List.map_cons] at h2 ⊢
  exact ⟨h1.1, fun j hj => ⟨h1.2 j hj, h2.2 j hj⟩⟩

/-- C62: a process whose own Brownian motions are not correlated with each other keeps its covariance in the joined process. -/
theorem C62_marginal (cholesky : Nat → (Nat → Nat → ℝ) → Nat → Nat → ℝ) (processes : List ItoBlock) (corr : List (Nat × (ℝ → Nat → Nat → ℝ)))
    (hdim : (corr.map Prod.fst).sum = joinedDim processes) (t : ℝ) (hc : ∀ c ∈ corr, CholeskyOk cholesky c.1 (c.2 t)) (x : List ℝ)
    (pre : List ItoBlock) (p : ItoBlock) (post : List ItoBlock) (hp : processes = pre ++ p :: post)
    (hown : ∀ k < p.dim, ∀ l < p.dim, blockDense (corr.map fun c => (c.1, c.2 t)) (joinedDim pre + k) (joinedDim pre + l) = if k = l then 1 else 0)
    (i j : Nat) (hi : i < p.dim) (hj : j < p.dim) :
    ∑ k ∈ Finset.range (joinedDim processes), joinedVol cholesky processes corr t x (joinedDim pre + i) k *
        joinedVol cholesky processes corr t x (joinedDim pre + j) k =
      ∑ k ∈ Finset.range p.dim, p.vol t ((x.drop (joinedDim pre)).take p.dim) i k * p.vol t ((x.drop (joinedDim pre)).take p.dim) j k := by
  rw [C62_covariance cholesky processes corr hdim t hc x pre p post hp pre p post hp i j hi hj]
  refine Finset.sum_congr rfl fun k hk => ?_
  have : ∀ l ∈ Finset.range p.dim, p.vol t ((x.drop (joinedDim pre)).take p.dim) i k *
        blockDense (corr.map fun c => (c.1, c.2 t)) (joinedDim pre + k) (joinedDim pre + l) * p.vol t ((x.drop (joinedDim pre)).take p.dim) j l =
      if k = l then p.vol t ((x.drop (joinedDim pre)).take p.dim) i k * p.vol t ((x.drop (joinedDim pre)).take p.dim) j l else 0 := by
    intro l hl
    rw [hown k (Finset.mem_range.1 hk) l (Finset.mem_range.1 hl)]
    by_cases h : k = l <;> simp [h]
  rw [Finset.sum_congr rfl this, Finset.sum_ite_eq, if_pos hk]

/-- C62: the coefficients of the backward equation are those of the sampled process. For every function with gradient `g` and second derivatives
`H` at the grid point, one Euler step changes its quadratic expansion in the mean by `dt` times the terms of the equation, up to `dt^2`. -/
theorem C62_generator {d : Nat} {Ω : Type} [MeasurableSpace Ω] (P : MeasureTheory.Measure Ω) [MeasureTheory.IsProbabilityMeasure P] (z : Ω → Fin d → ℝ)
    (hz : ∀ i, MeasureTheory.Integrable (fun ω => z ω i) P) (hzz : ∀ i j, MeasureTheory.Integrable (fun ω => z ω i * z ω j) P)
    (mean : ∀ i, ∫ ω, z ω i ∂P = 0) (cov : ∀ i j, ∫ ω, z ω i * z ω j ∂P = if i = j then 1 else 0)
    (drift : ℝ → (Fin d → ℝ) → Fin d → ℝ) (vol : ℝ → (Fin d → ℝ) → Fin d → Fin d → ℝ) (discounting : Option (ℝ → (Fin d → ℝ) → ℝ)) (t dt : ℝ)
    (hdt : 0 ≤ dt) (coordGrid : Fin d → List ℝ) (index : Fin d → Nat) (g : Fin d → ℝ) (H : Fin d → Fin d → ℝ) :
    let x := meshPoint coordGrid index
    let c := backwardPdeCoeffs drift vol discounting t coordGrid index
    let y := fun ω => eulerStep drift (fun t x => Matrix.of (vol t x)) t dt x (z ω)
    ∫ ω, (∑ i, g i * (y ω i - x i) + (∑ i, ∑ j, H i j * ((y ω i - x i) * (y ω j - x j))) / 2) ∂P =
      dt * (∑ i, ∑ j, c.second i j * H i j + ∑ i, c.first i * g i) + dt ^ 2 * (∑ i, ∑ j, H i j * (drift t x i * drift t x j)) / 2 := by
  intro x c y
  set μ := drift t x with hμ
  set σ := vol t x with hσ
  set s := Real.sqrt dt with hs
  have hss : s * s = dt := Real.mul_self_sqrt hdt
  have hy : ∀ ω i, y ω i - x i = dt * μ i + ∑ k, (σ i k * s) * z ω k := by
    intro ω i
    have : (Matrix.of (vol t x)).mulVec (fun j => z ω j * s) i = ∑ k, (σ i k * s) * z ω k := by
      simp only [Matrix.mulVec, dotProduct, Matrix.of_apply]
      exact Finset.sum_congr rfl fun k _ => by rw [hσ]; ring
    simp only [y, eulerStep]
    rw [this]; ring
  have i1 : ∀ i, MeasureTheory.Integrable (fun ω => y ω i - x i) P := by
    intro i
    simp only [hy]
    refine (MeasureTheory.integrable_const _).add (MeasureTheory.integrable_finset_sum _ fun k _ => (hz k).const_mul _)
  have m1 : ∀ i, ∫ ω, (y ω i - x i) ∂P = dt * μ i := by
    intro i
    simp only [hy]
    rw [MeasureTheory.integral_add (MeasureTheory.integrable_const _) (MeasureTheory.integrable_finset_sum _ fun k _ => (hz k).const_mul _),
      MeasureTheory.integral_finset_sum _ (fun k _ => (hz k).const_mul _)]
    simp [MeasureTheory.integral_const_mul, mean]
  have prod : ∀ i j ω, (y ω i - x i) * (y ω j - x j) = dt ^ 2 * (μ i * μ j) + (∑ k, (dt * μ j * (σ i k * s) + dt * μ i * (σ j k * s)) * z ω k) +
      ∑ k, ∑ l, (σ i k * s * (σ j l * s)) * (z ω k * z ω l) := by
    intro i j ω
    rw [hy, hy]
    have a : (∑ k, (dt * μ j * (σ i k * s) + dt * μ i * (σ j k * s)) * z ω k) = dt * μ j * ∑ k, (σ i k * s) * z ω k + dt * μ i * ∑ k, (σ j k * s) * z ω k := by
      rw [Finset.mul_sum, Finset.mul_sum, ← Finset.sum_add_distrib]
      exact Finset.sum_congr rfl fun k _ => by ring
    have b : ∑ k, ∑ l, (σ i k * s * (σ j l * s)) * (z ω k * z ω l) = (∑ k, (σ i k * s) * z ω k) * ∑ k, (σ j k * s) * z ω k := by
      rw [Finset.sum_mul_sum]
      exact Finset.sum_congr rfl fun k _ => Finset.sum_congr rfl fun l _ => by ring
    rw [a, b]; ring
  have J1 : ∀ i j, MeasureTheory.Integrable (fun ω => ∑ k, (dt * μ j * (σ i k * s) + dt * μ i * (σ j k * s)) * z ω k) P :=
    fun i j => MeasureTheory.integrable_finset_sum _ fun k _ => (hz k).const_mul _
  have J2 : ∀ i j, MeasureTheory.Integrable (fun ω => ∑ k, ∑ l, (σ i k * s * (σ j l * s)) * (z ω k * z ω l)) P :=
    fun i j => MeasureTheory.integrable_finset_sum _ fun k _ => MeasureTheory.integrable_finset_sum _ fun l _ => (hzz k l).const_mul _
  have J3 : ∀ i j, MeasureTheory.Integrable (fun ω => dt ^ 2 * (μ i * μ j) + ∑ k, (dt * μ j * (σ i k * s) + dt * μ i * (σ j k * s)) * z ω k) P :=
    fun i j => (MeasureTheory.integrable_const _).add (J1 i j)
  have i2 : ∀ i j, MeasureTheory.Integrable (fun ω => (y ω i - x i) * (y ω j - x j)) P := by
    intro i j
    simp only [prod]
    exact (J3 i j).add (J2 i j)
  have m2 : ∀ i j, ∫ ω, (y ω i - x i) * (y ω j - x j) ∂P = dt ^ 2 * (μ i * μ j) + dt * (2 * c.second i j) := by
    intro i j
    simp only [prod]
    rw [MeasureTheory.integral_add (J3 i j) (J2 i j), MeasureTheory.integral_add (MeasureTheory.integrable_const _) (J1 i j)]
    rw [MeasureTheory.integral_finset_sum _ (fun k _ => (hz k).const_mul _)]
    rw [MeasureTheory.integral_finset_sum _ (fun k _ => MeasureTheory.integrable_finset_sum _ fun l _ => (hzz k l).const_mul _)]
    have : ∀ k, ∫ ω, ∑ l, (σ i k * s * (σ j l * s)) * (z ω k * z ω l) ∂P = dt * (σ i k * σ j k) := by
      intro k
      rw [MeasureTheory.integral_finset_sum _ (fun l _ => (hzz k l).const_mul _)]
      simp only [MeasureTheory.integral_const_mul, cov, mul_ite, mul_one, mul_zero, Finset.sum_ite_eq, Finset.mem_univ, if_true]
      rw [← hss]; ring
    simp only [this, MeasureTheory.integral_const_mul, mean, mul_zero, Finset.sum_const_zero, add_zero, MeasureTheory.integral_const,
      MeasureTheory.probReal_univ, one_smul]
    rw [← Finset.mul_sum]
    simp only [c, backwardPdeCoeffs]
    ring
  have K1 : MeasureTheory.Integrable (fun ω => ∑ i, g i * (y ω i - x i)) P := MeasureTheory.integrable_finset_sum _ fun i _ => (i1 i).const_mul _
  have K2 : MeasureTheory.Integrable (fun ω => ∑ i, ∑ j, H i j * ((y ω i - x i) * (y ω j - x j))) P :=
    MeasureTheory.integrable_finset_sum _ fun i _ => MeasureTheory.integrable_finset_sum _ fun j _ => (i2 i j).const_mul _
  rw [MeasureTheory.integral_add K1 (K2.div_const 2), MeasureTheory.integral_div]
  rw [MeasureTheory.integral_finset_sum _ (fun i _ => (i1 i).const_mul _)]
  rw [MeasureTheory.integral_finset_sum _ (fun i _ => MeasureTheory.integrable_finset_sum _ fun j _ => (i2 i j).const_mul _)]
  have : ∀ i, ∫ ω, ∑ j, H i j * ((y ω i - x i) * (y ω j - x j)) ∂P = ∑ j, (dt ^ 2 * (H i j * (μ i * μ j)) + dt * 2 * (c.second i j * H i j)) := by
    intro i
    rw [MeasureTheory.integral_finset_sum _ (fun j _ => (i2 i j).const_mul _)]
    refine Finset.sum_congr rfl fun j _ => ?_
    rw [MeasureTheory.integral_const_mul, m2]; ring
  simp only [this, MeasureTheory.integral_const_mul, m1, Finset.sum_add_distrib, ← Finset.mul_sum]
  have : ∑ i, g i * (dt * μ i) = dt * ∑ i, c.first i * g i := by
    rw [Finset.mul_sum]
    exact Finset.sum_congr rfl fun i _ => by simp only [c, backwardPdeCoeffs, hμ]; ring
  rw [this]
  ring

/-- C62: the zeroth order term is minus the discount rate, and there is none without discounting. -/
theorem C62_discounting {d : Nat} (drift : ℝ → (Fin d → ℝ) → Fin d → ℝ) (vol : ℝ → (Fin d → ℝ) → Fin d → Fin d → ℝ) (r : ℝ → (Fin d → ℝ) → ℝ) (t : ℝ)
    (coordGrid : Fin d → List ℝ) (index : Fin d → Nat) :
    (backwardPdeCoeffs drift vol (some r) t coordGrid index).zeroth = some (-r t (meshPoint coordGrid index)) ∧
    (backwardPdeCoeffs drift vol none t coordGrid index).zeroth = none ∧ (forwardPdeCoeffs drift vol t coordGrid index).zeroth = none :=
  ⟨rfl, rfl, rfl⟩

/-- C62: the forward equation is the adjoint of the backward one. With one state variable, densities that move by the forward equation
`p_t + (a p)'' + (b p)' = 0` and values that move by the backward equation `v_t + a' v'' + b' v' = 0` (the coefficients as computed) have a product
whose change in time is a derivative in space, so the expectation is constant when the boundary terms vanish. -/
theorem C62_forward_adjoint (drift : ℝ → (Fin 1 → ℝ) → Fin 1 → ℝ) (vol : ℝ → (Fin 1 → ℝ) → Fin 1 → Fin 1 → ℝ) (t : ℝ)
    (a b p v v' v'' ap' ap'' bp' : ℝ → ℝ) (ha : ∀ x, a x = (forwardPdeCoeffs drift vol t (fun _ => [x]) (fun _ => 0)).second 0 0)
    (hb : ∀ x, b x = (forwardPdeCoeffs drift vol t (fun _ => [x]) (fun _ => 0)).first 0)
    (h1 : ∀ x, HasDerivAt v (v' x) x) (h2 : ∀ x, HasDerivAt v' (v'' x) x) (h3 : ∀ x, HasDerivAt (fun x => a x * p x) (ap' x) x)
    (h4 : ∀ x, HasDerivAt ap' (ap'' x) x) (h5 : ∀ x, HasDerivAt (fun x => b x * p x) (bp' x) x) (pt vt : ℝ → ℝ)
    (hp : ∀ x, pt x + ap'' x + bp' x = 0)
    (hv : ∀ x, vt x + (backwardPdeCoeffs drift vol none t (fun _ => [x]) (fun _ => 0)).second 0 0 * v'' x +
      (backwardPdeCoeffs drift vol none t (fun _ => [x]) (fun _ => 0)).first 0 * v' x = 0) (x : ℝ) :
    HasDerivAt (fun x => a x * p x * v' x - v x * ap' x - b x * p x * v x) (pt x * v x + p x * vt x) x := by
  have e1 : (backwardPdeCoeffs drift vol none t (fun _ => [x]) (fun _ => 0)).second 0 0 = -a x := by rw [ha]; simp [forwardPdeCoeffs]
  have e2 : (backwardPdeCoeffs drift vol none t (fun _ => [x]) (fun _ => 0)).first 0 = b x := by rw [hb]; simp [forwardPdeCoeffs]
  have hv := hv x
  rw [e1, e2] at hv
  have hp := hp x
  refine ((((h3 x).mul (h2 x)).sub ((h1 x).mul (h4 x))).sub ((h5 x).mul (h1 x))).congr_deriv ?_
  linear_combination (-p x) * hv - v x * hp

/-- Example: a process with volatility 1 and a two-dimensional one with volatilities 2 and 3, the first two Brownian motions with correlation 0.6. The
covariances are those of the correlated motions, the third coordinate is independent, and the drifts are the own ones. -/
def exampleProcesses : List ItoBlock :=
  [⟨1, fun _ x _ => x.getD 0 0, fun _ _ _ _ => 1⟩, ⟨2, fun _ x i => x.getD i 0 + 1, fun _ _ i k => if i = k then (if i = 0 then 2 else 3) else 0⟩]

noncomputable def exampleCorrelation : List (Nat × (ℝ → Nat → Nat → ℝ)) := [(2, fun _ i j => if i = j then 1 else 0.6), (1, fun _ _ _ => 1)]

noncomputable def exampleCholesky (n : Nat) (_ : Nat → Nat → ℝ) (i k : Nat) : ℝ :=
  if n = 1 then 1 else if i = 0 then (if k = 0 then 1 else 0) else if k = 0 then 0.6 else 0.8

theorem exampleCholesky_ok : ∀ c ∈ exampleCorrelation, CholeskyOk exampleCholesky c.1 (c.2 0) := by
  intro c hc
  simp only [exampleCorrelation, List.mem_cons, List.not_mem_nil, or_false] at hc
  rcases hc with rfl | rfl
  · intro i hi j hj
    simp only at hi hj
    have : i = 0 ∨ i = 1 := by omega
    have : j = 0 ∨ j = 1 := by omega
    rcases ‹i = 0 ∨ i = 1› with rfl | rfl <;> rcases ‹j = 0 ∨ j = 1› with rfl | rfl <;> norm_num [exampleCholesky, Finset.sum_range_succ]
  · intro i hi j hj
    simp [exampleCholesky]

example : joinedDrift exampleProcesses 0 [5, 6, 7] = [5, 7, 8] ∧
    ∑ k ∈ Finset.range 3, joinedVol exampleCholesky exampleProcesses exampleCorrelation 0 [5, 6, 7] 0 k *
      joinedVol exampleCholesky exampleProcesses exampleCorrelation 0 [5, 6, 7] 1 k = 1.2 ∧
    ∑ k ∈ Finset.range 3, joinedVol exampleCholesky exampleProcesses exampleCorrelation 0 [5, 6, 7] 0 k *
      joinedVol exampleCholesky exampleProcesses exampleCorrelation 0 [5, 6, 7] 2 k = 0 ∧
    ∑ k ∈ Finset.range 3, joinedVol exampleCholesky exampleProcesses exampleCorrelation 0 [5, 6, 7] 2 k *
      joinedVol exampleCholesky exampleProcesses exampleCorrelation 0 [5, 6, 7] 2 k = 9 := by
  refine ⟨?_, ?_, ?_, ?_⟩
  · norm_num [joinedDrift, joinedDriftLoop, exampleProcesses, List.range_succ]
  · have := C62_covariance exampleCholesky exampleProcesses exampleCorrelation (by simp [exampleCorrelation, joinedDim, exampleProcesses]) 0
      exampleCholesky_ok [5, 6, 7] [] _ _ rfl [_] _ [] rfl 0 0 (by simp) (by simp)
    simp only [joinedDim, exampleProcesses, List.map_cons, List.map_nil, List.sum_cons, List.sum_nil] at this
    norm_num [Finset.sum_range_succ, exampleCorrelation, blockDense] at this ⊢
    simpa [exampleProcesses, exampleCorrelation] using this
  · have := C62_covariance exampleCholesky exampleProcesses exampleCorrelation (by simp [exampleCorrelation, joinedDim, exampleProcesses]) 0
      exampleCholesky_ok [5, 6, 7] [] _ _ rfl [_] _ [] rfl 0 1 (by simp) (by simp)
    simp only [joinedDim, exampleProcesses, List.map_cons, List.map_nil, List.sum_cons, List.sum_nil] at this
    norm_num [Finset.sum_range_succ, exampleCorrelation, blockDense] at this ⊢
    simpa [exampleProcesses, exampleCorrelation] using this
  · have := C62_covariance exampleCholesky exampleProcesses exampleCorrelation (by simp [exampleCorrelation, joinedDim, exampleProcesses]) 0
      exampleCholesky_ok [5, 6, 7] [_] _ [] rfl [_] _ [] rfl 1 1 (by simp) (by simp)
    simp only [joinedDim, exampleProcesses, List.map_cons, List.map_nil, List.sum_cons, List.sum_nil] at this
    norm_num [Finset.sum_range_succ, exampleCorrelation, blockDense] at this ⊢
    simpa [exampleProcesses, exampleCorrelation] using this

/-- Example: geometric Brownian motion with drift `0.1 x`, volatility `0.3 x` and rate `0.05` at the second point of the grid. -/
example : (backwardPdeCoeffs (d := 1) (fun _ x _ => 0.1 * x 0) (fun _ x _ _ => 0.3 * x 0) (some fun _ _ => 0.05) 0 (fun _ => [50, 100]) (fun _ => 1)).second 0 0 = 450 ∧
    (backwardPdeCoeffs (d := 1) (fun _ x _ => 0.1 * x 0) (fun _ x _ _ => 0.3 * x 0) (some fun _ _ => 0.05) 0 (fun _ => [50, 100]) (fun _ => 1)).first 0 = 10 ∧
    (forwardPdeCoeffs (d := 1) (fun _ x _ => 0.1 * x 0) (fun _ x _ _ => 0.3 * x 0) 0 (fun _ => [50, 100]) (fun _ => 1)).second 0 0 = -450 := by
  norm_num [backwardPdeCoeffs, forwardPdeCoeffs, meshPoint]

end Props
