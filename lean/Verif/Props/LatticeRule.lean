import Verif.Model.LatticeRule
import Mathlib.Algebra.Order.Floor.Ring
import Mathlib.Data.Int.GCD
import Mathlib.Data.ZMod.Basic
import Mathlib.Tactic.FieldSimp
import Mathlib.Tactic.Linarith
import Mathlib.Analysis.SpecialFunctions.Exp
import Mathlib.Analysis.SpecialFunctions.Complex.Log
import Mathlib.Algebra.Field.GeomSum
import Mathlib.RingTheory.RootsOfUnity.Complex

/-! # C41 Lattice rules -/

namespace Lemmas
open Model

variable {K : Type} [Field K] [LinearOrder K] [FloorRing K] [IsStrictOrderedRing K]

omit [IsStrictOrderedRing K] in
theorem floorMod1_eq (x : K) : floorMod1 x = Int.fract x := rfl

theorem fract_mul_fract (n : Int) (a s : K) : Int.fract ((n : K) * Int.fract a + s) = Int.fract ((n : K) * a + s) := by
  rw [Int.fract_eq_fract]
  refine ⟨-(n * ⌊a⌋), ?_⟩
  have := Int.self_sub_floor a
  rw [← this]
  push_cast
  ring

omit [IsStrictOrderedRing K] in
theorem lattice_row (gv : List Int) (dim N : Nat) (idx : Option (List Int)) (shift : Option (List K)) (tent : Bool)
    (hs : ∀ l, shift = some l → dim ≤ l.length) (i j : Nat) (n z : Int)
    (hi : (idx.getD ((List.range N).map (fun (n : Nat) => (n : Int))))[i]? = some n) (hj : j < dim) (hz : gv[j]? = some z) :
    ∃ row, (latticeRuleSample (K := K) gv dim N idx shift tent)[i]? = some row ∧
      row[j]? = some (let p := Int.fract ((n : K) * Int.fract ((z : K) / (N : K)) + (shift.getD []).getD j 0)
        if tent then tentTransform p else p) := by
  unfold latticeRuleSample
  simp only [List.getElem?_map, hi, Option.map_some, Option.some.injEq, exists_eq_left']
  have e0 : ((gv.take dim).map (fun (z : Int) => (z : K) / (N : K)))[j]? = some ((z : K) / (N : K)) := by
    rw [List.getElem?_map, List.getElem?_take, if_pos hj, hz]; rfl
  rcases shift with _ | l
  · simp only [Option.getD_none, List.getD_nil, add_zero]
    cases tent
    · simp only [Bool.false_eq_true, if_false, List.getElem?_map, e0, Option.map_some]
      rfl
    · simp only [if_true, List.getElem?_map, e0, Option.map_some]
      rfl
  · have hl := hs l rfl
    have e1 : (l.take dim)[j]? = some (l.getD j 0) := by
      rw [List.getElem?_take, if_pos hj, List.getD_eq_getElem?_getD, List.getElem?_eq_getElem (by omega)]; rfl
    simp only [Option.getD_some]
    cases tent
    · simp only [Bool.false_eq_true, if_false, List.getElem?_map, List.getElem?_zipWith, e0, e1, Option.map_some]
      rfl
    · simp only [if_true, List.getElem?_map, List.getElem?_zipWith, e0, e1, Option.map_some]
      rfl

end Lemmas

namespace Spec

/-- Entry `(i, j)` of a table of samples is `x`. -/
def EntryIs {K : Type} (samples : List (List K)) (i j : Nat) (x : K) : Prop :=
  ∃ row, samples[i]? = some row ∧ row[j]? = some x

end Spec

namespace Props
open Model Lemmas Spec

variable {K : Type} [Field K] [LinearOrder K] [FloorRing K] [IsStrictOrderedRing K]

/-- C41.  The samples are the lattice points `n z / N`, shifted, modulo 1. -/
theorem C41_point (gv : List Int) (dim N : Nat) (idx : Option (List Int)) (shift : Option (List K))
    (hs : ∀ l, shift = some l → dim ≤ l.length) (i j : Nat) (n z : Int)
    (hi : (idx.getD ((List.range N).map (fun (n : Nat) => (n : Int))))[i]? = some n) (hj : j < dim) (hz : gv[j]? = some z) :
    EntryIs (latticeRuleSample (K := K) gv dim N idx shift false) i j
      (Int.fract ((n : K) * (z : K) / (N : K) + (shift.getD []).getD j 0)) := by
  obtain ⟨row, h1, h2⟩ := lattice_row (K := K) gv dim N idx shift false hs i j n z hi hj hz
  refine ⟨row, h1, ?_⟩
  rw [h2]
  simp only [Bool.false_eq_true, if_false]
  rw [fract_mul_fract, mul_div_assoc]

theorem fract_index (N : Nat) (hN : 0 < N) (a : Int) : Int.fract ((a : K) / (N : K)) = ((a % N : Int) : K) / (N : K) := by
  have hN' : (0 : K) < N := by exact_mod_cast hN
  rw [Int.fract_eq_iff]
  refine ⟨div_nonneg ?_ hN'.le, ?_, a / N, ?_⟩
  · exact_mod_cast Int.emod_nonneg a (by omega)
  · rw [div_lt_one hN']
    exact_mod_cast Int.emod_lt_of_pos a (by omega : (0 : Int) < N)
  · have := Int.emod_add_mul_ediv a N
    have h2 : (a : K) = ((a % N : Int) : K) + (N : K) * ((a / N : Int) : K) := by exact_mod_cast this.symm
    rw [h2]
    field_simp
    ring

/-- C41.  All samples lie in the unit interval; with the tent transform the right end is included. -/
theorem C41_range (gv : List Int) (dim N : Nat) (idx : Option (List Int)) (shift : Option (List K))
    (i j : Nat) (x : K) :
    (EntryIs (latticeRuleSample (K := K) gv dim N idx shift false) i j x → 0 ≤ x ∧ x < 1) ∧
    (EntryIs (latticeRuleSample (K := K) gv dim N idx shift true) i j x → 0 ≤ x ∧ x ≤ 1) := by
  constructor
  · rintro ⟨row, h1, h2⟩
    unfold latticeRuleSample at h1
    simp only [Bool.false_eq_true, if_false, List.getElem?_map] at h1
    obtain ⟨n, _, rfl⟩ := Option.map_eq_some_iff.1 h1
    rw [List.getElem?_map] at h2
    obtain ⟨p, _, rfl⟩ := Option.map_eq_some_iff.1 h2
    exact ⟨Int.fract_nonneg p, Int.fract_lt_one p⟩
  · rintro ⟨row, h1, h2⟩
    unfold latticeRuleSample at h1
    simp only [if_true, List.getElem?_map] at h1
    obtain ⟨n, _, rfl⟩ := Option.map_eq_some_iff.1 h1
    rw [List.getElem?_map, List.getElem?_map] at h2
    obtain ⟨q, hq, rfl⟩ := Option.map_eq_some_iff.1 h2
    obtain ⟨p, _, rfl⟩ := Option.map_eq_some_iff.1 hq
    have h0 := Int.fract_nonneg p
    have h1 := Int.fract_lt_one p
    rw [floorMod1_eq]
    unfold tentTransform
    split
    · constructor <;> linarith
    · constructor <;> linarith

/-- Solutions of a linear congruence. -/
theorem congruence_unique (N : Nat) (hN : 0 < N) (z : Int) (hz : Int.gcd z N = 1) (k : Nat) (hk : k < N) :
    ∃ n : Nat, n < N ∧ ((n : Int) * z) % N = k ∧ ∀ n' : Nat, n' < N → ((n' : Int) * z) % N = k → n' = n := by
  have hco : IsCoprime z (N : Int) := Int.isCoprime_iff_gcd_eq_one.2 hz
  obtain ⟨u, v, huv⟩ := hco
  refine ⟨((k : Int) * u % N).toNat, ?_, ?_, ?_⟩
  · have h1 := Int.emod_nonneg ((k : Int) * u) (by omega : (N : Int) ≠ 0)
    have h2 := Int.emod_lt_of_pos ((k : Int) * u) (by omega : (0 : Int) < N)
    omega
  · rw [Int.toNat_of_nonneg (Int.emod_nonneg _ (by omega)), Int.mul_emod, Int.emod_emod_of_dvd _ dvd_rfl,
      ← Int.mul_emod]
    have : (k : Int) * u * z = k + N * (-(v * k)) := by linear_combination (k : Int) * huv
    rw [this, Int.add_mul_emod_self_left]
    exact Int.emod_eq_of_lt (by omega) (by omega)
  · intro n' hn' h
    have e : (n' : Int) % N = ((k : Int) * u) % N := by
      have h1 : (n' : Int) * z ≡ k [ZMOD N] := by
        rw [Int.ModEq, h, Int.emod_eq_of_lt (by omega) (by omega)]
      have h2 : (n' : Int) * z * u ≡ k * u [ZMOD N] := h1.mul_right u
      have h3 : (n' : Int) * z * u ≡ n' [ZMOD N] := by
        rw [Int.modEq_iff_dvd]
        exact ⟨v * n', by linear_combination (-(n' : Int)) * huv⟩
      exact h3.symm.trans h2
    rw [← e, Int.emod_eq_of_lt (by omega) (by omega)]
    simp


theorem entry_unique (S : List (List K)) (i j : Nat) (x y : K) (hx : EntryIs S i j x) (hy : EntryIs S i j y) : x = y := by
  obtain ⟨r, h1, h2⟩ := hx
  obtain ⟨r', h1', h2'⟩ := hy
  rw [h1] at h1'
  obtain rfl := Option.some.inj h1'
  rw [h2] at h2'
  exact Option.some.inj h2'

/-- A shifted lattice point: which of the `N` equal parts of the unit interval it is in, and where. -/
theorem fract_shifted (N : Nat) (hN : 0 < N) (a : Int) (s : K) :
    Int.fract ((a : K) / (N : K) + s) = (((a + ⌊(N : K) * s⌋) % N : Int) + Int.fract ((N : K) * s)) / (N : K) := by
  have hN' : (0 : K) < N := by exact_mod_cast hN
  have h0 := Int.emod_nonneg (a + ⌊(N : K) * s⌋) (by omega : (N : Int) ≠ 0)
  have h1 := Int.emod_lt_of_pos (a + ⌊(N : K) * s⌋) (by omega : (0 : Int) < N)
  have h0' : (0 : K) ≤ ((a + ⌊(N : K) * s⌋) % N : Int) := by exact_mod_cast h0
  have h1' : (((a + ⌊(N : K) * s⌋) % N : Int) : K) + 1 ≤ N := by exact_mod_cast h1
  have f0 := Int.fract_nonneg ((N : K) * s)
  have f1 := Int.fract_lt_one ((N : K) * s)
  rw [Int.fract_eq_iff]
  refine ⟨div_nonneg (by linarith) hN'.le, ?_, (a + ⌊(N : K) * s⌋) / N, ?_⟩
  · rw [div_lt_one hN']; linarith
  · have e := Int.emod_add_mul_ediv (a + ⌊(N : K) * s⌋) N
    have h2 : (a : K) + (⌊(N : K) * s⌋ : K) =
        (((a + ⌊(N : K) * s⌋) % N : Int) : K) + (N : K) * (((a + ⌊(N : K) * s⌋) / N : Int) : K) := by exact_mod_cast e.symm
    have h3 := Int.floor_add_fract ((N : K) * s)
    field_simp
    linear_combination h2 - h3

/-- C41.  If the component of the generating vector has no common factor with the number of points, every one of the `N` equal
parts of the unit interval contains exactly one point, whatever the shift. -/
theorem C41_stratified (gv : List Int) (dim N : Nat) (hN : 0 < N) (shift : Option (List K))
    (hs : ∀ l, shift = some l → dim ≤ l.length) (j : Nat) (z : Int) (hj : j < dim) (hz : gv[j]? = some z)
    (hg : Int.gcd z N = 1) (k : Nat) (hk : k < N) :
    ∃ n, n < N ∧
      (∃ x, EntryIs (latticeRuleSample (K := K) gv dim N none shift false) n j x ∧ (k : K) / N ≤ x ∧ x < ((k : K) + 1) / N) ∧
      ∀ n' x', n' < N → EntryIs (latticeRuleSample (K := K) gv dim N none shift false) n' j x' → (k : K) / N ≤ x' →
        x' < ((k : K) + 1) / N → n' = n := by
  have hN' : (0 : K) < N := by exact_mod_cast hN
  set s := (shift.getD []).getD j 0 with hsdef
  set q := ⌊(N : K) * s⌋ with hq
  have f0 := Int.fract_nonneg ((N : K) * s)
  have f1 := Int.fract_lt_one ((N : K) * s)
  have point : ∀ n, n < N → EntryIs (latticeRuleSample (K := K) gv dim N none shift false) n j
      (((((n : Int) * z + q) % N : Int) + Int.fract ((N : K) * s)) / (N : K)) := by
    intro n hn
    have := C41_point (K := K) gv dim N none shift hs n j n z (by
      rw [Option.getD_none, List.getElem?_map, List.getElem?_range hn]; rfl) hj hz
    rw [show ((n : Int) : K) * (z : K) = (((n : Int) * z : Int) : K) by push_cast; ring, fract_shifted N hN] at this
    exact this
  have key : ∀ c : Int, ((k : K) / N ≤ ((c : K) + Int.fract ((N : K) * s)) / (N : K) ∧
      ((c : K) + Int.fract ((N : K) * s)) / (N : K) < ((k : K) + 1) / N) ↔ c = k := by
    intro c
    rw [div_le_div_iff_of_pos_right hN', div_lt_div_iff_of_pos_right hN']
    constructor
    · rintro ⟨h1, h2⟩
      have a1 : ((k : Int) : K) < ((c + 1 : Int) : K) := by push_cast; linarith
      have a2 : ((c : Int) : K) < ((k + 1 : Int) : K) := by push_cast; linarith
      have a1 := Int.cast_lt.1 a1
      have a2 := Int.cast_lt.1 a2
      omega
    · rintro rfl
      constructor
      · push_cast; linarith
      · push_cast; linarith
  have shiftk : ∀ a : Int, (a + q) % N = k ↔ a % N = (((k : Int) - q) % N).toNat := by
    intro a
    rw [Int.toNat_of_nonneg (Int.emod_nonneg _ (by omega))]
    have e : ((k : Int)) % N = k := Int.emod_eq_of_lt (by omega) (by omega)
    constructor
    · intro h
      have h1 : a + q ≡ k [ZMOD N] := by rw [Int.ModEq, h, e]
      have h2 := h1.sub_right q
      rwa [add_sub_cancel_right] at h2
    · intro h
      have h1 : a ≡ k - q [ZMOD N] := h
      have h2 := h1.add_right q
      rw [sub_add_cancel, Int.ModEq, e] at h2
      exact h2
  obtain ⟨n, hn, hnk, huniq⟩ := congruence_unique N hN z hg (((k : Int) - q) % N).toNat (by
    have := Int.emod_nonneg ((k : Int) - q) (by omega : (N : Int) ≠ 0)
    have := Int.emod_lt_of_pos ((k : Int) - q) (by omega : (0 : Int) < N)
    omega)
  refine ⟨n, hn, ⟨_, point n hn, (key _).2 ?_⟩, ?_⟩
  · rw [shiftk]; exact hnk
  · intro n' x' hn' hx' h1 h2
    have e := entry_unique _ _ _ _ _ hx' (point n' hn')
    rw [e] at h1 h2
    have := (key _).1 ⟨h1, h2⟩
    rw [shiftk] at this
    exact huniq n' hn' this

/-- C41.  Without a shift the points are the multiples of `1 / N`, each exactly once. -/
theorem C41_multiples (gv : List Int) (dim N : Nat) (hN : 0 < N) (j : Nat) (z : Int) (hj : j < dim) (hz : gv[j]? = some z)
    (hg : Int.gcd z N = 1) (k : Nat) (hk : k < N) :
    ∃ n, n < N ∧ EntryIs (latticeRuleSample (K := K) gv dim N none none false) n j ((k : K) / N) ∧
      ∀ n', n' < N → EntryIs (latticeRuleSample (K := K) gv dim N none none false) n' j ((k : K) / N) → n' = n := by
  have hN' : (0 : K) < N := by exact_mod_cast hN
  have point : ∀ n, n < N → EntryIs (latticeRuleSample (K := K) gv dim N none none false) n j
      (((((n : Int) * z) % N : Int) : K) / (N : K)) := by
    intro n hn
    have := C41_point (K := K) gv dim N none none (by simp) n j n z (by
      rw [Option.getD_none, List.getElem?_map, List.getElem?_range hn]; rfl) hj hz
    rw [show ((n : Int) : K) * (z : K) = (((n : Int) * z : Int) : K) by push_cast; ring] at this
    simp only [Option.getD_none, List.getD_nil, add_zero] at this
    rwa [fract_index N hN] at this
  obtain ⟨n, hn, hnk, huniq⟩ := congruence_unique N hN z hg k hk
  refine ⟨n, hn, ?_, ?_⟩
  · have := point n hn
    rw [hnk, Int.cast_natCast] at this
    exact this
  · intro n' hn' h
    have e := entry_unique _ _ _ _ _ h (point n' hn')
    have e2 : (((k : Int) : K)) = (((n' : Int) * z % N : Int) : K) := by
      have := (div_left_inj' hN'.ne').1 e
      exact_mod_cast this
    exact huniq n' hn' (Int.cast_injective e2).symm

/-- Sum of products modulo 1. -/
theorem zip_sum_fract (h gv : List Int) (n : Int) (N : Nat) :
    ∃ m : Int, (List.zipWith (fun (a : Int) (x : ℝ) => (a : ℝ) * x) h
      (gv.map (fun (z : Int) => Int.fract ((n : ℝ) * Int.fract ((z : ℝ) / (N : ℝ)))))).sum =
        (n : ℝ) * ((List.zipWith (fun (a z : Int) => a * z) h gv).sum : Int) / (N : ℝ) + (m : ℝ) := by
  induction h generalizing gv with
  | nil => exact ⟨0, by simp⟩
  | cons a h ih =>
    rcases gv with _ | ⟨z, gv⟩
    · exact ⟨0, by simp⟩
    · obtain ⟨m, hm⟩ := ih gv
      simp only [List.map_cons, List.zipWith_cons_cons, List.sum_cons]
      rw [hm]
      have e := fract_mul_fract n ((z : ℝ) / (N : ℝ)) 0
      rw [add_zero, add_zero] at e
      rw [e]
      refine ⟨m - a * ⌊(n : ℝ) * ((z : ℝ) / (N : ℝ))⌋, ?_⟩
      rw [← Int.self_sub_floor]
      push_cast
      ring

/-- C41.  The lattice rule integrates trigonometric polynomials: the average of a wave over the points is 1 if its frequency is
orthogonal to the generating vector modulo `N`, otherwise 0, as it should be for all but the constant. -/
theorem C41_waves (gv h : List Int) (dim N : Nat) (hN : 0 < N) :
    ((latticeRuleSample (K := ℝ) gv dim N none none false).map (fun row =>
      Complex.exp (2 * Real.pi * Complex.I *
        ((List.zipWith (fun (a : Int) (x : ℝ) => (a : ℝ) * x) h row).sum : ℝ)))).sum / (N : ℂ) =
      if (N : Int) ∣ (List.zipWith (fun (a z : Int) => a * z) h (gv.take dim)).sum then 1 else 0 := by
  set H := (List.zipWith (fun (a z : Int) => a * z) h (gv.take dim)).sum with hH
  have hN0 : (N : ℂ) ≠ 0 := by exact_mod_cast hN.ne'
  set ζ := Complex.exp (2 * Real.pi * Complex.I * ((H : ℂ) / (N : ℂ))) with hζ
  have erow : (latticeRuleSample (K := ℝ) gv dim N none none false).map (fun row =>
      Complex.exp (2 * Real.pi * Complex.I *
        ((List.zipWith (fun (a : Int) (x : ℝ) => (a : ℝ) * x) h row).sum : ℝ))) =
      (List.range N).map (fun (n : Nat) => ζ ^ n) := by
    unfold latticeRuleSample
    simp only [Bool.false_eq_true, if_false, Option.getD_none, List.map_map]
    apply List.map_congr_left
    intro n _
    simp only [Function.comp_def]
    obtain ⟨m, hm⟩ := zip_sum_fract h (gv.take dim) n N
    rw [← hH] at hm
    have e : (fun (x : Int) => floorMod1 (((n : Int) : ℝ) * floorMod1 ((x : ℝ) / (N : ℝ)))) =
        fun (z : Int) => Int.fract (((n : Int) : ℝ) * Int.fract ((z : ℝ) / (N : ℝ))) := rfl
    rw [e, hm, hζ, ← Complex.exp_nat_mul]
    rw [Complex.exp_eq_exp_iff_exists_int]
    refine ⟨m, ?_⟩
    push_cast
    ring
  rw [erow]
  have esum : ((List.range N).map (fun (n : Nat) => ζ ^ n)).sum = ∑ n ∈ Finset.range N, ζ ^ n := by
    rw [Finset.sum_range, ← List.sum_ofFn]
    congr 1
    apply List.ext_getElem?
    intro i
    simp only [List.getElem?_map, List.getElem?_ofFn]
    by_cases hi : i < N
    · simp [hi]
    · simp [hi]
  rw [esum]
  by_cases hd : (N : Int) ∣ H
  · rw [if_pos hd]
    obtain ⟨c, hc⟩ := hd
    have h1 : ζ = 1 := by
      rw [hζ, Complex.exp_eq_one_iff]
      refine ⟨c, ?_⟩
      rw [hc]
      push_cast
      field_simp
    rw [h1]
    simp [hN0]
  · rw [if_neg hd]
    have h1 : ζ ≠ 1 := by
      intro h
      rw [hζ, Complex.exp_eq_one_iff] at h
      obtain ⟨c, hc⟩ := h
      apply hd
      have hpi : (2 * Real.pi * Complex.I : ℂ) ≠ 0 := Complex.two_pi_I_ne_zero
      have h2 : (H : ℂ) / (N : ℂ) = c := by
        apply mul_left_cancel₀ hpi
        rw [hc]; ring
      rw [div_eq_iff hN0] at h2
      exact ⟨c, by rw [mul_comm]; exact_mod_cast h2⟩
    rw [geom_sum_eq h1]
    have h2 : ζ ^ N = 1 := by
      rw [hζ, ← Complex.exp_nat_mul, Complex.exp_eq_one_iff]
      exact ⟨H, by field_simp⟩
    rw [h2]
    simp

example : (latticeRuleSample (K := ℚ) [1, 3] 2 5 none none false) =
    [[0, 0], [1 / 5, 3 / 5], [2 / 5, 1 / 5], [3 / 5, 4 / 5], [4 / 5, 2 / 5]] := by decide +kernel

example : (latticeRuleSample (K := ℚ) [1, 3] 2 5 (some [2]) (some [1 / 2, 9 / 10]) true) = [[1 / 5, 1 / 5]] := by
  decide +kernel

example : Int.gcd 3 5 = 1 ∧ ¬ (5 : Int) ∣ (List.zipWith (fun (a z : Int) => a * z) [1, 1] [1, 3]).sum := by decide

end Props
