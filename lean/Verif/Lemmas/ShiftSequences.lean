import Mathlib.Algebra.Polynomial.AlgebraMap
import Mathlib.Algebra.Polynomial.Monic
import Mathlib.Algebra.Polynomial.BigOperators
import Mathlib.RingTheory.Coprime.Lemmas
import Mathlib.Data.ZMod.Basic
import Mathlib.LinearAlgebra.Matrix.Rank
import Mathlib.GroupTheory.Index
import Mathlib.Tactic.LinearCombination

/-! # Sequences with linear recurrences, for the nets of Sobol -/

namespace Lemmas
open Polynomial

section shift
variable {F : Type} [Field F]

/-- The shift of sequences. -/
def seqShift (F : Type) [Field F] : Module.End F (ℕ → F) where
  toFun r := fun k => r (k + 1)
  map_add' _ _ := rfl
  map_smul' _ _ := rfl

theorem seqShift_pow (i : ℕ) (r : ℕ → F) (k : ℕ) : ((seqShift F) ^ i) r k = r (k + i) := by
  induction i generalizing r k with
  | zero => rfl
  | succ i ih =>
    rw [pow_succ, Module.End.mul_apply, ih]
    show r (k + i + 1) = _
    rw [Nat.add_assoc]

theorem aeval_shift (p : F[X]) (r : ℕ → F) (k : ℕ) : aeval (seqShift F) p r k = ∑ i ∈ Finset.range (p.natDegree + 1), p.coeff i * r (k + i) := by
  rw [aeval_eq_sum_range]
  simp only [LinearMap.sum_apply, Finset.sum_apply, LinearMap.smul_apply, Pi.smul_apply, smul_eq_mul, seqShift_pow]

/-- A linear recurrence has one solution for given first values. -/
theorem recurrence_zero (p : F[X]) (hp : p.Monic) (r : ℕ → F) (h : aeval (seqShift F) p r = 0) (h0 : ∀ k, k < p.natDegree → r k = 0) : r = 0 := by
  funext k
  induction k using Nat.strong_induction_on with
  | _ k ih =>
    rcases Nat.lt_or_ge k p.natDegree with hk | hk
    · exact h0 k hk
    · have := congrFun h (k - p.natDegree)
      rw [aeval_shift, Finset.sum_range_succ, hp.coeff_natDegree, one_mul, Nat.sub_add_cancel hk] at this
      rw [Finset.sum_eq_zero (fun i hi => by
        rw [ih (k - p.natDegree + i) (by have := Finset.mem_range.1 hi; omega)]
        simp)] at this
      simpa using this

/-- Solutions of recurrences with coprime polynomials are independent. -/
theorem coprime_independent {ι : Type} [DecidableEq ι] (s : Finset ι) (p : ι → F[X]) (hp : ∀ i ∈ s, ∀ j ∈ s, i ≠ j → IsCoprime (p i) (p j)) (r : ι → ℕ → F)
    (hr : ∀ i ∈ s, aeval (seqShift F) (p i) (r i) = 0) (h : ∑ i ∈ s, r i = 0) : ∀ i ∈ s, r i = 0 := by
  intro i hi
  have hc : IsCoprime (p i) (∏ j ∈ s.erase i, p j) :=
    IsCoprime.prod_right fun j hj => hp i hi j (Finset.mem_of_mem_erase hj) (Finset.ne_of_mem_erase hj).symm
  obtain ⟨u, v, huv⟩ := hc
  have h2 : aeval (seqShift F) (∏ j ∈ s.erase i, p j) (r i) = 0 := by
    have e : r i = -∑ j ∈ s.erase i, r j := by
      rw [← Finset.add_sum_erase s r hi] at h
      exact eq_neg_of_add_eq_zero_left h
    rw [e, map_neg, map_sum, neg_eq_zero]
    refine Finset.sum_eq_zero fun j hj => ?_
    rw [← Finset.mul_prod_erase _ _ hj, mul_comm, map_mul, Module.End.mul_apply, hr j (Finset.mem_of_mem_erase hj), map_zero]
  have h3 : aeval (seqShift F) (u * p i + v * ∏ j ∈ s.erase i, p j) (r i) = 0 := by
    rw [map_add, map_mul, map_mul, LinearMap.add_apply, Module.End.mul_apply, Module.End.mul_apply, hr i hi, h2, map_zero, map_zero, add_zero]
  rwa [huv, map_one, Module.End.one_apply] at h3

/-- The rows of the generating matrices: `row j` for `j < d` solve the recurrence of a power of `p`. -/
theorem rows_killed (p : F[X]) (e : ℕ) (he : 0 < e) (row : ℕ → ℕ → F)
    (hrow : ∀ j, aeval (seqShift F) p (row j) = if e ≤ j then row (j - e) else 0) (q j : ℕ) (hj : j < e * q) :
    aeval (seqShift F) (p ^ q) (row j) = 0 := by
  induction q generalizing j with
  | zero => simp at hj
  | succ q ih =>
    rw [pow_succ, map_mul, Module.End.mul_apply, hrow]
    split
    · exact ih (j - e) (by rw [Nat.mul_succ] at hj; omega)
    · rw [map_zero]

/-- Rows in triangular form are independent. -/
theorem rows_triangular (row : ℕ → ℕ → F) (h1 : ∀ j, row j j = 1) (h0 : ∀ j k, k < j → row j k = 0) (d : ℕ) (w : ℕ → F)
    (h : ∑ j ∈ Finset.range d, w j • row j = 0) : ∀ j, j < d → w j = 0 := by
  intro j
  induction j using Nat.strong_induction_on with
  | _ j ih =>
    intro hj
    have := congrFun h j
    simp only [Finset.sum_apply, Pi.smul_apply, smul_eq_mul, Pi.zero_apply] at this
    rw [Finset.sum_eq_single j] at this
    · rwa [h1, mul_one] at this
    · intro i hi hij
      rcases Nat.lt_or_ge i j with hlt | hge
      · rw [ih i hlt (Finset.mem_range.1 hi), zero_mul]
      · rw [h0 i j (by omega), mul_zero]
    · intro hn; exact absurd (Finset.mem_range.2 hj) hn

/-- The rows of all coordinates are independent already on the first `m` columns. -/
theorem rows_independent (s m : ℕ) (p : ℕ → F[X]) (row : ℕ → ℕ → ℕ → F) (d : ℕ → ℕ) (hmonic : ∀ c, c < s → (p c).Monic)
    (hdeg : ∀ c, c < s → 0 < (p c).natDegree) (hcop : ∀ c, c < s → ∀ c', c' < s → c ≠ c' → IsCoprime (p c) (p c'))
    (hrow : ∀ c, c < s → ∀ j, aeval (seqShift F) (p c) (row c j) = if (p c).natDegree ≤ j then row c (j - (p c).natDegree) else 0)
    (h1 : ∀ c, c < s → ∀ j, row c j j = 1) (h0 : ∀ c, c < s → ∀ j k, k < j → row c j k = 0)
    (hm : ∑ c ∈ Finset.range s, (p c).natDegree * ((d c + (p c).natDegree - 1) / (p c).natDegree) ≤ m) (w : ℕ → ℕ → F)
    (h : ∀ k, k < m → ∑ c ∈ Finset.range s, ∑ j ∈ Finset.range (d c), w c j * row c j k = 0) : ∀ c, c < s → ∀ j, j < d c → w c j = 0 := by
  set q : ℕ → ℕ := fun c => (d c + (p c).natDegree - 1) / (p c).natDegree with hq
  have hkill : ∀ c, c < s → aeval (seqShift F) (p c ^ q c) (∑ j ∈ Finset.range (d c), w c j • row c j) = 0 := by
    intro c hc
    rw [map_sum]
    refine Finset.sum_eq_zero fun j hj => ?_
    rw [map_smul, rows_killed (p c) _ (hdeg c hc) (row c) (hrow c hc) (q c) j, smul_zero]
    have hd := hdeg c hc
    have hj := Finset.mem_range.1 hj
    have hdm := Nat.div_add_mod (d c + (p c).natDegree - 1) (p c).natDegree
    have hlt := Nat.mod_lt (d c + (p c).natDegree - 1) hd
    simp only [hq]
    omega
  have hprod : (∏ c ∈ Finset.range s, p c ^ q c).Monic := monic_prod_of_monic _ _ fun c hc => (hmonic c (Finset.mem_range.1 hc)).pow _
  have hpd : (∏ c ∈ Finset.range s, p c ^ q c).natDegree ≤ m := by
    rw [natDegree_prod_of_monic _ _ fun c hc => (hmonic c (Finset.mem_range.1 hc)).pow _]
    refine le_trans (le_of_eq (Finset.sum_congr rfl fun c hc => ?_)) hm
    rw [(hmonic c (Finset.mem_range.1 hc)).natDegree_pow, mul_comm]
  have htotal : ∑ c ∈ Finset.range s, ∑ j ∈ Finset.range (d c), w c j • row c j = 0 := by
    refine recurrence_zero _ hprod _ ?_ fun k hk => ?_
    · rw [map_sum]
      refine Finset.sum_eq_zero fun c hc => ?_
      rw [← Finset.mul_prod_erase _ _ hc, mul_comm, map_mul, Module.End.mul_apply, hkill c (Finset.mem_range.1 hc), map_zero]
    · have := h k (by omega)
      simpa only [Finset.sum_apply, Pi.smul_apply, smul_eq_mul] using this
  have heach := coprime_independent (Finset.range s) (fun c => p c ^ q c)
    (fun i hi j hj hij => (hcop i (Finset.mem_range.1 hi) j (Finset.mem_range.1 hj) hij).pow)
    (fun c => ∑ j ∈ Finset.range (d c), w c j • row c j) (fun c hc => hkill c (Finset.mem_range.1 hc)) htotal
  intro c hc
  exact rows_triangular (row c) (h1 c hc) (h0 c hc) (d c) (w c) (heach c (Finset.mem_range.2 hc))

end shift

/-- The number of solutions of a system with independent rows. -/
theorem card_solutions {F : Type} [Field F] [Fintype F] [DecidableEq F] {ι : Type} [Fintype ι] [DecidableEq ι] (m : ℕ) (A : Matrix ι (Fin m) F)
    (hA : ∀ w : ι → F, (∀ k, ∑ i, w i * A i k = 0) → w = 0) (y : ι → F) :
    (Finset.univ.filter (fun x : Fin m → F => A.mulVec x = y)).card * Fintype.card F ^ Fintype.card ι = Fintype.card F ^ m := by
  have hli : LinearIndependent F A.row := by
    rw [Fintype.linearIndependent_iff]
    intro g hg
    have := hA g (fun k => by
      have := congrFun hg k
      simpa [Finset.sum_apply, Matrix.row] using this)
    intro i
    rw [this]; rfl
  have hrank := hli.rank_matrix
  have hsurj : Function.Surjective A.mulVecLin := by
    rw [← LinearMap.range_eq_top]
    apply Submodule.eq_top_of_finrank_eq
    rw [← Matrix.rank, hrank]
    simp
  have hall : ∀ y', (Finset.univ.filter (fun x : Fin m → F => A.mulVec x = y')).card = (Finset.univ.filter (fun x : Fin m → F => A.mulVec x = y)).card := by
    intro y'
    exact AddMonoidHom.card_fiber_eq_of_mem_range (A.mulVecLin) (hsurj y') (hsurj y)
  have hsum : ∑ y' : ι → F, (Finset.univ.filter (fun x : Fin m → F => A.mulVec x = y')).card = Fintype.card (Fin m → F) := by
    rw [← Finset.card_univ]
    exact (Finset.card_eq_sum_card_fiberwise (fun x _ => Finset.mem_univ (A.mulVec x))).symm
  simp only [hall] at hsum
  rw [Finset.sum_const, Finset.card_univ, Fintype.card_fun, Fintype.card_fun, Fintype.card_fin, smul_eq_mul] at hsum
  rw [mul_comm]
  exact hsum

end Lemmas
