import Verif.Props.LsmLimit
import Mathlib.Algebra.Polynomial.Coeff
import Mathlib.Algebra.Polynomial.Eval.Degree
import Mathlib.Algebra.Polynomial.Degree.Lemmas
import Mathlib.Algebra.BigOperators.Group.List.Basic

/-! # C138: the centred polynomial basis -/

namespace Lemmas
open Model Spec Polynomial
open scoped BigOperators

/-- Coefficients of a centred monomial in monomials. -/
noncomputable def shiftCoef : List ℝ → List ℕ → List ℕ → ℝ
  | a :: m, k :: p, l :: q => ((X + C a) ^ k : ℝ[X]).coeff l * shiftCoef m p q
  | _, _, _ => 1

/-- A monomial. -/
noncomputable def monomialValue (u : List ℝ) (p : List ℕ) : ℝ := (List.zipWith (fun u k => u ^ k) u p).prod

theorem monomialValue_cons (a : ℝ) (u : List ℝ) (k : ℕ) (p : List ℕ) : monomialValue (a :: u) (k :: p) = a ^ k * monomialValue u p := by
  simp [monomialValue]

theorem shift_degree (a : ℝ) (k degree : ℕ) (hk : k ≤ degree) : ((X + C a) ^ k : ℝ[X]).natDegree < degree + 1 := by
  rw [natDegree_pow, natDegree_X_add_C]
  omega

theorem flatMap_sum {α γ : Type} (l : List α) (f : α → List γ) (g : γ → ℝ) : ((l.flatMap f).map g).sum = (l.map fun k => ((f k).map g).sum).sum := by
  induction l with
  | nil => rfl
  | cons a l ih => simp only [List.flatMap_cons, List.map_append, List.sum_append, List.map_cons, List.sum_cons, ih]

theorem range_list_sum (n : ℕ) (g : ℕ → ℝ) : ((List.range n).map g).sum = ∑ k ∈ Finset.range n, g k := by
  induction n with
  | zero => rfl
  | succ n ih => simp only [List.range_succ, List.map_append, List.sum_append, List.map_cons, List.map_nil, List.sum_cons, List.sum_nil, add_zero, ih, Finset.sum_range_succ]

theorem powers_sum (degree dim : ℕ) (f : List ℕ → ℝ) :
    ((powersIj degree (dim + 1)).map f).sum = ∑ k ∈ Finset.range (degree + 1), ((powersIj degree dim).map fun p => f (k :: p)).sum := by
  rw [powersIj, flatMap_sum, range_list_sum]
  refine Finset.sum_congr rfl fun k _ => ?_
  rw [List.map_map]
  rfl

/-- A centred monomial in monomials. -/
theorem shift_expand (degree dim : ℕ) (u m : List ℝ) (p : List ℕ) (hu : u.length = dim) (hm : m.length = dim) (hp : p.length = dim) (hk : ∀ k ∈ p, k ≤ degree) :
    monomialValue (List.zipWith (fun u v => u - v) u m) p = ((powersIj degree dim).map fun q => shiftCoef (m.map (fun a => -a)) p q * monomialValue u q).sum := by
  induction dim generalizing u m p with
  | zero =>
    rw [List.length_eq_zero_iff] at hu hm hp
    subst hu hm hp
    simp [powersIj, monomialValue, shiftCoef]
  | succ dim ih =>
    obtain ⟨u0, u, rfl⟩ := List.exists_cons_of_length_eq_add_one hu
    obtain ⟨m0, m, rfl⟩ := List.exists_cons_of_length_eq_add_one hm
    obtain ⟨k0, p, rfl⟩ := List.exists_cons_of_length_eq_add_one hp
    have hk0 := hk k0 List.mem_cons_self
    simp only [List.length_cons, add_left_inj] at hu hm hp
    rw [powers_sum, List.zipWith_cons_cons, monomialValue_cons, ih u m p hu hm hp fun k h => hk k (List.mem_cons_of_mem _ h)]
    have h1 : (u0 - m0) ^ k0 = ∑ l ∈ Finset.range (degree + 1), ((X + C (-m0)) ^ k0 : ℝ[X]).coeff l * u0 ^ l := by
      have h := eval_eq_sum_range' (shift_degree (-m0) k0 degree hk0) u0
      rw [← h, eval_pow, eval_add, eval_X, eval_C, sub_eq_add_neg]
    rw [h1, Finset.sum_mul]
    refine Finset.sum_congr rfl fun l _ => ?_
    rw [← List.sum_map_mul_left]
    refine congrArg List.sum (List.map_congr_left fun q _ => ?_)
    rw [List.map_cons, shiftCoef, monomialValue_cons]
    ring

/-- Shifting back. -/
theorem shift_inverse (degree dim : ℕ) (m : List ℝ) (p q : List ℕ) (hm : m.length = dim) (hp : p.length = dim) (hq : q.length = dim) (hk : ∀ k ∈ p, k ≤ degree) :
    ((powersIj degree dim).map fun r => shiftCoef (m.map (fun a => -a)) p r * shiftCoef m r q).sum = if p = q then 1 else 0 := by
  induction dim generalizing m p q with
  | zero =>
    rw [List.length_eq_zero_iff] at hq hm hp
    subst hq hm hp
    simp [powersIj, shiftCoef]
  | succ dim ih =>
    obtain ⟨m0, m, rfl⟩ := List.exists_cons_of_length_eq_add_one hm
    obtain ⟨k0, p, rfl⟩ := List.exists_cons_of_length_eq_add_one hp
    obtain ⟨l0, q, rfl⟩ := List.exists_cons_of_length_eq_add_one hq
    have hk0 := hk k0 List.mem_cons_self
    simp only [List.length_cons, add_left_inj] at hm hp hq
    rw [powers_sum]
    have h1 : ∀ k ∈ Finset.range (degree + 1), ((powersIj degree dim).map fun r => shiftCoef ((m0 :: m).map (fun a => -a)) (k0 :: p) (k :: r) * shiftCoef (m0 :: m) (k :: r) (l0 :: q)).sum =
        (((X + C (-m0)) ^ k0 : ℝ[X]).coeff k * ((X + C m0) ^ k : ℝ[X]).coeff l0) * if p = q then 1 else 0 := by
      intro k _
      rw [← ih m p q hm hp hq fun k h => hk k (List.mem_cons_of_mem _ h), ← List.sum_map_mul_left]
      refine congrArg List.sum (List.map_congr_left fun r _ => ?_)
      rw [List.map_cons, shiftCoef, shiftCoef]
      ring
    rw [Finset.sum_congr rfl h1, ← Finset.sum_mul]
    have h2 : ∑ k ∈ Finset.range (degree + 1), ((X + C (-m0)) ^ k0 : ℝ[X]).coeff k * ((X + C m0) ^ k : ℝ[X]).coeff l0 = if k0 = l0 then 1 else 0 := by
      have h := eval₂_eq_sum_range' (C : ℝ →+* ℝ[X]) (shift_degree (-m0) k0 degree hk0) (X + C m0)
      have e : eval₂ (C : ℝ →+* ℝ[X]) (X + C m0) ((X + C (-m0)) ^ k0) = X ^ k0 := by
        rw [eval₂_pow, eval₂_add, eval₂_X, eval₂_C, C_neg]
        ring
      rw [e] at h
      have h3 := congrArg (fun f : ℝ[X] => f.coeff l0) h
      simp only [finset_sum_coeff, coeff_C_mul, coeff_X_pow] at h3
      rw [← h3]
      simp only [eq_comm]
    rw [h2]
    by_cases h3 : k0 = l0 <;> by_cases h4 : p = q <;> simp [h3, h4]

theorem basisPowers_perm (degree dim : ℕ) : (basisPowers degree dim).Perm (powersIj degree dim) := by
  obtain ⟨h1, h2⟩ := Props.powersIj_spec degree dim
  obtain ⟨h3, h4⟩ := Props.C57_basis_powers degree dim
  exact (List.perm_ext_iff_of_nodup h3 h1).2 fun p => by rw [h2, h4]

theorem basisPowers_sum (degree dim : ℕ) (f : List ℕ → ℝ) : ∑ l : Fin (basisPowers degree dim).length, f ((basisPowers degree dim)[l.val]) = ((powersIj degree dim).map f).sum := by
  rw [← ((basisPowers_perm degree dim).map f).sum_eq]
  have h := Fin.sum_univ_getElem ((basisPowers degree dim).map f)
  rw [← h]
  refine (Fintype.sum_equiv (finCongr (by simp)) _ _ fun l => ?_)
  simp

/-- The matrix of the centring. -/
noncomputable def shiftMatrix (degree dim : ℕ) (m : List ℝ) : Matrix (Fin (basisPowers degree dim).length) (Fin (basisPowers degree dim).length) ℝ :=
  fun k l => shiftCoef (m.map (fun a => -a)) ((basisPowers degree dim)[k.val]) ((basisPowers degree dim)[l.val])

theorem shiftMatrix_det (degree dim : ℕ) (m : List ℝ) (hm : m.length = dim) : (shiftMatrix degree dim m).det ≠ 0 := by
  have h : shiftMatrix degree dim m * shiftMatrix degree dim (m.map (fun a => -a)) = 1 := by
    ext k l
    have hk := ((Props.C57_basis_powers degree dim).2 _).1 (List.getElem_mem k.2)
    have hl := ((Props.C57_basis_powers degree dim).2 _).1 (List.getElem_mem l.2)
    rw [Matrix.mul_apply]
    simp only [shiftMatrix]
    rw [basisPowers_sum degree dim (fun r => shiftCoef (m.map (fun a => -a)) ((basisPowers degree dim)[k.val]) r *
      shiftCoef ((m.map (fun a => -a)).map (fun a => -a)) r ((basisPowers degree dim)[l.val]))]
    have e : (m.map (fun a => -a)).map (fun a => -a) = m := by
      rw [List.map_map]
      have : ((fun a : ℝ => -a) ∘ fun a => -a) = id := by
        funext a
        simp
      rw [this, List.map_id]
    rw [e, shift_inverse degree dim m _ _ hm hk.1 hl.1 hk.2, Matrix.one_apply]
    refine if_congr ?_ rfl rfl
    rw [(Props.C57_basis_powers degree dim).1.getElem_inj_iff, Fin.ext_iff]
  intro h0
  have := congrArg Matrix.det h
  rw [Matrix.det_mul, h0, zero_mul, Matrix.det_one] at this
  exact zero_ne_one this

end Lemmas

namespace Spec
open Model Lemmas
variable {E : Type}

/-- Monomials of the states up to a degree in every coordinate as regressors. -/
noncomputable def monomialContract (degree dim : ℕ) (times : List ℕ) (payoffFn : ℕ → E → ℝ) (state : ℕ → E → List ℝ) (discounts : List (E → ℝ)) (pathTimes : ℕ) :
    PathContract E (basisPowers degree dim).length :=
  ⟨times, payoffFn, fun i k x => (List.zipWith (fun u e => u ^ e) (state i x) ((basisPowers degree dim)[k.val])).prod, discounts, pathTimes⟩

/-- The arguments of the code with `make_polynomial_basis(degree)` for the first `n` paths. -/
noncomputable def polynomialInput (degree dim : ℕ) (times : List ℕ) (payoffFn : ℕ → E → ℝ) (state : ℕ → E → List ℝ) (discounts : List (E → ℝ)) (pathTimes : ℕ)
    (pinv : Matrix (Fin (basisPowers degree dim).length) (Fin (basisPowers degree dim).length) ℝ → Matrix (Fin (basisPowers degree dim).length) (Fin (basisPowers degree dim).length) ℝ)
    (calibration : Option ℕ) (n : ℕ) (x : ℕ → E) : LsmInput n (basisPowers degree dim).length :=
  ⟨times, fun i s => payoffFn i (x s), fun i k s => ((polynomialBasis degree dim (List.ofFn fun s : Fin n => state i (x s))).getD k []).getD s 0,
    discounts.map (fun f s => f (x s)), calibration, pathTimes, pinv⟩

end Spec

namespace Lemmas
open Model Spec

variable {E : Type}

/-- The mean state of the first paths. -/
noncomputable def meanState (dim : ℕ) (samples : List (List ℝ)) : List ℝ := (List.range dim).map (fun d => (samples.map (fun x => x.getD d 0)).sum / (samples.length : ℝ))

theorem polynomial_input_eq (degree dim : ℕ) (times : List ℕ) (payoffFn : ℕ → E → ℝ) (state : ℕ → E → List ℝ) (hstate : ∀ i x, (state i x).length = dim)
    (discounts : List (E → ℝ)) (pathTimes : ℕ)
    (pinv : Matrix (Fin (basisPowers degree dim).length) (Fin (basisPowers degree dim).length) ℝ → Matrix (Fin (basisPowers degree dim).length) (Fin (basisPowers degree dim).length) ℝ)
    (calibration : Option ℕ) (n : ℕ) (x : ℕ → E) :
    polynomialInput degree dim times payoffFn state discounts pathTimes pinv calibration n x =
      (monomialContract degree dim times payoffFn state discounts pathTimes).input pinv calibration
        (fun i => shiftMatrix degree dim (meanState dim (List.ofFn fun s : Fin n => state i (x s)))) n x := by
  unfold polynomialInput PathContract.input monomialContract
  congr 1
  funext i k s
  have hk := ((Props.C57_basis_powers degree dim).2 _).1 (List.getElem_mem k.2)
  have hm : (meanState dim (List.ofFn fun s : Fin n => state i (x s))).length = dim := by simp [meanState]
  have h := shift_expand degree dim (state i (x s)) (meanState dim (List.ofFn fun s : Fin n => state i (x s))) ((basisPowers degree dim)[k.val]) (hstate i _) hm hk.1 hk.2
  rw [← basisPowers_sum degree dim] at h
  have e : ((polynomialBasis degree dim (List.ofFn fun s : Fin n => state i (x s))).getD k []).getD s 0 =
      monomialValue (List.zipWith (fun u v => u - v) (state i (x s)) (meanState dim (List.ofFn fun s : Fin n => state i (x s)))) ((basisPowers degree dim)[k.val]) := by
    unfold polynomialBasis monomialValue meanState
    simp only [List.getD_eq_getElem?_getD, List.getElem?_map, List.getElem?_eq_getElem k.2, Option.map_some, Option.getD_some]
    rw [List.getElem?_eq_getElem (by simp)]
    simp
  rw [e, h]
  rfl

end Lemmas

namespace Props
open Model Spec Lemmas MeasureTheory ProbabilityTheory Filter Topology

/-- C138: with `make_polynomial_basis` the prices converge to the value of the exercise rule from the regressions on monomials. -/
theorem C138_polynomial {E Ω : Type} [MeasurableSpace E] [MeasurableSpace Ω] (P : Measure Ω) (ν : Measure E) (D : ℕ → Ω → E) (degree dim : ℕ) (times : List ℕ)
    (payoffFn : ℕ → E → ℝ) (state : ℕ → E → List ℝ) (hstate : ∀ i x, (state i x).length = dim) (discounts : List (E → ℝ)) (pathTimes : ℕ)
    (pinv : Matrix (Fin (basisPowers degree dim).length) (Fin (basisPowers degree dim).length) ℝ → Matrix (Fin (basisPowers degree dim).length) (Fin (basisPowers degree dim).length) ℝ)
    (β : ℕ → Fin (basisPowers degree dim).length → ℝ) (hq : (monomialContract degree dim times payoffFn state discounts pathTimes).Admissible)
    (hp : ∀ A, A * pinv A * A = A) (hD : PathDraws P ν D) (hr : (monomialContract degree dim times payoffFn state discounts pathTimes).problem.Regular ν β)
    (hβ : (monomialContract degree dim times payoffFn state discounts pathTimes).problem.IsLimitRule ν β) :
    ∀ᵐ ω ∂P, Tendsto (fun n => (polynomialInput degree dim times payoffFn state discounts pathTimes pinv none n (fun s => D s ω)).leastSquareMc) atTop
      (𝓝 (∫ x, (monomialContract degree dim times payoffFn state discounts pathTimes).problem.value β (times.length - 1) x ∂ν)) := by
  have h := C138_price (monomialContract degree dim times payoffFn state discounts pathTimes) pinv P ν D β hq hp hD hr hβ
    (fun n ω i => shiftMatrix degree dim (meanState dim (List.ofFn fun s : Fin n => state i (D s ω)))) (fun n ω i => shiftMatrix_det degree dim _ (by simp [meanState]))
  filter_upwards [h] with ω hω
  refine hω.congr fun n => ?_
  rw [polynomial_input_eq degree dim times payoffFn state hstate discounts pathTimes pinv none n (fun s => D s ω)]

/-- Three samples centred at 3: second powers. -/
example : ((polynomialBasis 2 1 [[(1 : ℚ)], [3], [5]]).getD 2 []) = [4, 0, 4] := by decide +kernel

end Props
