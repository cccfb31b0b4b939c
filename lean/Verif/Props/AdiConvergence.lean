import Verif.Lemmas.GridDifferences
import Verif.Props.Adi
import Verif.Props.FdConvergence
import Mathlib.Analysis.SpecialFunctions.Trigonometric.Deriv
import Mathlib.Analysis.SpecialFunctions.ExpDeriv

/-! # C123 Stability and convergence of the Douglas scheme in several dimensions -/

namespace Spec
open Model Set
open scoped BigOperators

/-- The problem `V_t + sum_d a_d V_dd = 0` with constant `a_d`, and the value `phi t q` prescribed at the boundary points `q`. -/
structure HeatProblem {n : ℕ} (g : AdiGrid n ℝ) (c : ℝ → AdiCoeffs n ℝ) (a : Fin n → ℝ) (phi : ℝ → GridIndex n → ℝ) : Prop where
  lower : ∀ d, ∃ f, g.lower d = some f ∧ ∀ t q, ∃ alpha : ℝ, alpha ≠ 0 ∧ conditionAt (f t) q = (some alpha, none, alpha * phi t q)
  upper : ∀ d, ∃ f, g.upper d = some f ∧ ∀ t q, ∃ alpha : ℝ, alpha ≠ 0 ∧ conditionAt (f t) q = (some alpha, none, alpha * phi t q)
  nonneg : ∀ d, 0 ≤ a d
  second : ∀ t d, (c t).second d d = some (fun _ => a d)
  mixed : ∀ t i j, i < j → (c t).second i j = none
  first : ∀ t d, (c t).first d = none
  zeroth : ∀ t, (c t).zeroth = none
  innerSecond : ∀ t i j, (c t).innerSecond i j = none
  innerFirst : ∀ t d, (c t).innerFirst d = none

/-- Root of the mean square of a function over the inner points of the grid. -/
noncomputable def rms {n : ℕ} (size : Fin n → ℕ) (f : GridIndex n → ℝ) : ℝ := √((∑ p ∈ innerPoints size, f p ^ 2) / (innerPoints size).card)

/-- `D j k t x` is the derivative of order `j` in time and of order `k d` in the coordinate `d` of a solution of `V_t + sum_d a_d V_dd = 0` on
`[e, s]` times the box from `lo` to `hi`, up to the total order `m`; all are bounded by `M`. -/
structure SmoothHeat {n : ℕ} (D : ℕ → (Fin n → ℕ) → ℝ → (Fin n → ℝ) → ℝ) (a : Fin n → ℝ) (e s : ℝ) (lo hi : Fin n → ℝ) (M : ℝ) (m : ℕ) : Prop where
  space : ∀ j k d, j + ∑ i, k i < m → ∀ t ∈ Icc e s, ∀ x ∈ Icc lo hi,
    HasDerivWithinAt (fun y => D j k t (Function.update x d y)) (D j (Function.update k d (k d + 1)) t x) (Icc (lo d) (hi d)) (x d)
  time : ∀ j k, j + ∑ i, k i < m → ∀ t ∈ Icc e s, ∀ x ∈ Icc lo hi, HasDerivWithinAt (fun t => D j k t x) (D (j + 1) k t x) (Icc e s) t
  bound : ∀ j k, j + ∑ i, k i ≤ m → ∀ t ∈ Icc e s, ∀ x ∈ Icc lo hi, |D j k t x| ≤ M
  pde : ∀ t ∈ Icc e s, ∀ x ∈ Icc lo hi, D 1 0 t x + ∑ d, a d * D 0 (Function.update 0 d 2) t x = 0

/-- The values of a function at the points of the grid that begins at `lo`. -/
def onGridPoints {n : ℕ} (g : AdiGrid n ℝ) (lo : Fin n → ℝ) (u : (Fin n → ℝ) → ℝ) : GridIndex n → ℝ := fun q => u (fun d => lo d + q d * g.delta d)

/-- The grid fills the box from `lo` to `hi`, and the prescribed boundary values are those of the function. -/
structure FillsBox {n : ℕ} (g : AdiGrid n ℝ) (phi : ℝ → GridIndex n → ℝ) (u : ℝ → (Fin n → ℝ) → ℝ) (e s : ℝ) (lo hi : Fin n → ℝ) : Prop where
  proper : ProperGrid g
  last : ∀ d, lo d + ((g.size d - 1 : ℕ) : ℝ) * g.delta d = hi d
  values : ∀ t ∈ Icc e s, ∀ q, (∀ d, q d < g.size d) → (∃ d, q d = 0 ∨ q d = g.size d - 1) → phi t q = onGridPoints g lo (u t) q

/-- The values of the function on the boundary of the box do not change. -/
def StationaryBoundary {n : ℕ} (u : ℝ → (Fin n → ℝ) → ℝ) (e s : ℝ) (lo hi : Fin n → ℝ) : Prop :=
  ∀ t ∈ Icc e s, ∀ t' ∈ Icc e s, ∀ x ∈ Icc lo hi, (∃ d, x d = lo d ∨ x d = hi d) → u t x = u t' x

/-- Truncation errors of the scheme: in general, and for boundary values that do not change. -/
noncomputable def adiTruncation {n : ℕ} (a delta : Fin n → ℝ) (M theta dt : ℝ) : ℝ :=
  M * (dt / 2 + theta * dt * ∑ d, a d + ∑ d, a d * delta d ^ 2 / 12)
noncomputable def adiTruncationStationary {n : ℕ} (a delta : Fin n → ℝ) (M theta dt : ℝ) : ℝ :=
  M * ((theta - 1 / 2) * dt + dt ^ 2 / 6 + ∑ d, a d * delta d ^ 2 / 12 + (theta * dt * ∑ d, a d) ^ 2 * Real.exp (theta * dt * ∑ d, a d))

end Spec

namespace Lemmas
open Model Spec Set
open scoped BigOperators InnerProductSpace

variable {n : ℕ} {g : AdiGrid n ℝ} {c : ℝ → AdiCoeffs n ℝ} {a : Fin n → ℝ} {phi : ℝ → GridIndex n → ℝ}

theorem heat_proper (hP : HeatProblem g c a phi) (t : ℝ) : ProperConditions g t := by
  constructor
  · intro d f q hf
    obtain ⟨f', hf', h⟩ := hP.lower d
    rw [hf] at hf'
    obtain rfl := Option.some.inj hf'
    obtain ⟨alpha, h0, h1⟩ := h t q
    rw [h1]; exact h0
  · intro d f q hf
    obtain ⟨f', hf', h⟩ := hP.upper d
    rw [hf] at hf'
    obtain rfl := Option.some.inj hf'
    obtain ⟨alpha, h0, h1⟩ := h t q
    rw [h1]; exact h0

theorem heat_solvable (hP : HeatProblem g c a phi) (hg : ProperGrid g) (theta t1 t2 : ℝ) (h0 : 0 ≤ theta) (ht : t2 ≤ t1) : LinesSolvable g c theta t1 t2 := by
  refine Props.C64_heat_solvable g c theta t1 t2 hg h0 ht (hP.first t2) (hP.innerFirst t2) (hP.zeroth t2) (fun d => hP.innerSecond t2 d d) ?_ ?_ ?_
  · intro d p; rw [hP.second]; exact hP.nonneg d
  · intro d f hf
    obtain ⟨f', hf', h⟩ := hP.lower d
    rw [hf] at hf'
    obtain rfl := Option.some.inj hf'
    obtain ⟨alpha, _, h1⟩ := h t2 (fun _ => 0)
    have := congrArg (fun z => z.2.1) h1
    simpa [conditionAt] using this
  · intro d f hf
    obtain ⟨f', hf', h⟩ := hP.upper d
    rw [hf] at hf'
    obtain rfl := Option.some.inj hf'
    obtain ⟨alpha, _, h1⟩ := h t2 (fun _ => 0)
    have := congrArg (fun z => z.2.1) h1
    simpa [conditionAt] using this

theorem heat_lower_ne (hP : HeatProblem g c a phi) (d : Fin n) : g.lower d ≠ none := by
  obtain ⟨f, hf, _⟩ := hP.lower d; rw [hf]; exact Option.some_ne_none f

theorem heat_upper_ne (hP : HeatProblem g c a phi) (d : Fin n) : g.upper d ≠ none := by
  obtain ⟨f, hf, _⟩ := hP.upper d; rw [hf]; exact Option.some_ne_none f

theorem heat_inner_iff (hP : HeatProblem g c a phi) (p : GridIndex n) : Inner g p ↔ p ∈ innerPoints g.size := by
  rw [mem_innerPoints]
  refine forall_congr' (fun d => ?_)
  unfold InnerIn
  constructor
  · rintro ⟨h1, h2, h3⟩
    have := h2 (heat_lower_ne hP d)
    have := h3 (heat_upper_ne hP d)
    omega
  · rintro ⟨h1, h2⟩
    exact ⟨by omega, fun _ => by omega, fun _ => by omega⟩

theorem heat_part (hP : HeatProblem g c a phi) (t : ℝ) (d : Fin n) (v : GridIndex n → ℝ) (p : GridIndex n) :
    partAt g (c t) d v p = a d * centralSecond (g.delta d) v d p := by
  unfold partAt
  simp only [heat_lower_ne hP d, heat_upper_ne hP d, false_and, if_false, hP.first, hP.innerFirst, hP.zeroth, hP.innerSecond, hP.second, outerCoeff,
    innerCoeff, Option.elim_none, one_mul, zero_mul, zero_div, add_zero]

theorem heat_space (hP : HeatProblem g c a phi) (t : ℝ) (v : GridIndex n → ℝ) (p : GridIndex n) :
    spaceAt g (c t) v p = ∑ d, a d * centralSecond (g.delta d) v d p := by
  unfold spaceAt
  have h0 : ∑ i, ∑ j, (if i < j then mixedAt g (c t) i j v p else 0) = 0 := by
    refine Finset.sum_eq_zero (fun i _ => Finset.sum_eq_zero (fun j _ => ?_))
    split_ifs with hij
    · unfold mixedAt
      simp [hP.mixed t i j hij, hP.innerSecond, outerCoeff]
    · rfl
  rw [h0, add_zero]
  exact Finset.sum_congr rfl (fun d _ => heat_part hP t d v p)

/-- The prescribed values next to an inner point. -/
theorem heat_face (hP : HeatProblem g c a phi) (hg : ProperGrid g) (t : ℝ) (v w : GridIndex n → ℝ) (hw : Extends g t v w) (p : GridIndex n)
    (hp : p ∈ innerPoints g.size) (d : Fin n) :
    w (Function.update p d 0) = phi t (Function.update p d 0) ∧ w (Function.update p d (g.size d - 1)) = phi t (Function.update p d (g.size d - 1)) := by
  have hin := (heat_inner_iff hP p).2 hp
  have hv := (lineBc_iff t d w p hg (heat_proper hP t)).1 (hw.bc d p (fun d' _ => (hin d').1) (fun d' _ => hin d'))
  obtain ⟨fl, hfl, hl⟩ := hP.lower d
  obtain ⟨fu, hfu, hu⟩ := hP.upper d
  constructor
  · have h1 := hv.lower (heat_lower_ne hP d)
    obtain ⟨alpha, h0, h2⟩ := hl t (Function.update p d 0)
    have hx : g.lowerXi d t p = (0, 0, phi t (Function.update p d 0)) := by
      unfold AdiGrid.lowerXi
      rw [hfl]
      show g.discretized d (fl t) (Function.update p d 0) = _
      unfold AdiGrid.discretized
      have : AdiGrid.bcAt (fl t) (Function.update p d 0) = conditionAt (fl t) (Function.update p d 0) := rfl
      rw [this, h2]
      simp only [discretizeBoundary, Option.getD_some]
      rw [mul_div_cancel_left₀ _ h0]
    rw [hx] at h1
    simpa using h1
  · have h1 := hv.upper (heat_upper_ne hP d)
    obtain ⟨alpha, h0, h2⟩ := hu t (Function.update p d (g.size d - 1))
    have hx : g.upperXi d t p = (0, 0, phi t (Function.update p d (g.size d - 1))) := by
      unfold AdiGrid.upperXi
      rw [hfu]
      show g.discretized d (fu t) (Function.update p d (g.size d - 1)) = _
      unfold AdiGrid.discretized
      have : AdiGrid.bcAt (fu t) (Function.update p d (g.size d - 1)) = conditionAt (fu t) (Function.update p d (g.size d - 1)) := rfl
      rw [this, h2]
      simp only [discretizeBoundary, Option.getD_some]
      rw [mul_div_cancel_left₀ _ h0]
    rw [hx] at h1
    simpa using h1

/-- A second difference of a function that vanishes on the boundary. -/
theorem second_vanishing (size : Fin n → ℕ) (a h : ℝ) (d : Fin n) (f : GridIndex n → ℝ) (p : {p : GridIndex n // p ∈ innerPoints size})
    (h0 : f (Function.update p.1 d 0) = 0) (h1 : f (Function.update p.1 d (size d - 1)) = 0) :
    innerSecondOp size a h d (restrictInner size f) p = a * centralSecond h f d p.1 := by
  have hp := (mem_innerPoints p.1).1 p.2
  have key : ∀ k, k ≤ size d - 1 → extendZero (restrictInner size f) (Function.update p.1 d k) = f (Function.update p.1 d k) := by
    intro k hk
    by_cases hm : Function.update p.1 d k ∈ innerPoints size
    · exact extendZero_in (restrictInner size f) ⟨_, hm⟩
    · rw [extendZero_out _ _ hm]
      by_cases hk0 : k = 0
      · rw [hk0, h0]
      · by_cases hk1 : k = size d - 1
        · rw [hk1, h1]
        · exfalso
          refine hm ((mem_innerPoints _).2 (fun e => ?_))
          by_cases he : e = d
          · subst he; rw [Function.update_self]; omega
          · rw [Function.update_of_ne he]; exact hp e
  have hpd := hp d
  have hself : extendZero (restrictInner size f) p.1 = f p.1 := extendZero_in (restrictInner size f) p
  rw [innerSecondOp_apply]
  unfold centralSecond
  rw [key _ (by omega), key _ (by omega), hself]

theorem norm_restrict_sq (size : Fin n → ℕ) (f : GridIndex n → ℝ) : ‖restrictInner size f‖ ^ 2 = ∑ p ∈ innerPoints size, f p ^ 2 := by
  rw [EuclideanSpace.norm_sq_eq, ← Finset.sum_coe_sort (innerPoints size)]
  refine Finset.sum_congr rfl (fun p _ => ?_)
  simp [restrictInner]

theorem rms_eq (size : Fin n → ℕ) (f : GridIndex n → ℝ) : rms size f = ‖restrictInner size f‖ / √((innerPoints size).card) := by
  unfold rms
  rw [← norm_restrict_sq, Real.sqrt_div (by positivity), Real.sqrt_sq (norm_nonneg _)]

theorem norm_restrict_le (size : Fin n → ℕ) (f : GridIndex n → ℝ) (b : ℝ) (hb : 0 ≤ b) (hf : ∀ p ∈ innerPoints size, |f p| ≤ b) :
    ‖restrictInner size f‖ ≤ √((innerPoints size).card) * b := by
  refine le_of_sq_le_sq ?_ (by positivity)
  rw [norm_restrict_sq, mul_pow, Real.sq_sqrt (by positivity)]
  calc ∑ p ∈ innerPoints size, f p ^ 2 ≤ ∑ p ∈ innerPoints size, b ^ 2 := Finset.sum_le_sum (fun p hp => by
        have := hf p hp
        rw [← sq_abs]
        exact pow_le_pow_left₀ (abs_nonneg _) this 2)
    _ = (innerPoints size).card * b ^ 2 := by rw [Finset.sum_const, nsmul_eq_mul]

/-- The error of a step of the scheme against functions that satisfy its equations up to residuals. -/
theorem heat_step_error (hP : HeatProblem g c a phi) (hg : ProperGrid g) (theta t1 t2 : ℝ) (h0 : 1 / 2 ≤ theta) (ht : t2 ≤ t1)
    (values result : GridIndex n → ℝ) (h : g.step c theta t1 t2 values = some result) (U : GridIndex n → ℝ) (z r : ℕ → GridIndex n → ℝ) (rho : ℕ → ℝ)
    (hU : ∀ p ∈ innerPoints g.size, ∀ d, U (Function.update p d 0) = phi t1 (Function.update p d 0) ∧
      U (Function.update p d (g.size d - 1)) = phi t1 (Function.update p d (g.size d - 1)))
    (hz : ∀ k, k < n → ∀ p ∈ innerPoints g.size, ∀ d, z (k + 1) (Function.update p d 0) = phi t2 (Function.update p d 0) ∧
      z (k + 1) (Function.update p d (g.size d - 1)) = phi t2 (Function.update p d (g.size d - 1)))
    (hr0 : ∀ p ∈ innerPoints g.size, z 0 p + r 0 p = U p + (t1 - t2) * ∑ d, a d * centralSecond (g.delta d) U d p)
    (hr : ∀ (d : Fin n), ∀ p ∈ innerPoints g.size, z (d + 1) p + r (d + 1) p = z d p +
      theta * (t1 - t2) * (a d * centralSecond (g.delta d) (z (d + 1)) d p - a d * centralSecond (g.delta d) U d p))
    (hrho : ∀ k, k ≤ n → 0 ≤ rho k ∧ ∀ p ∈ innerPoints g.size, |r k p| ≤ rho k) :
    rms g.size (fun p => result p - z n p) ≤ rms g.size (fun p => values p - U p) + ∑ k ∈ Finset.range (n + 1), rho k := by
  obtain ⟨u0, y, e, hu0, he, hy0, hy, hres⟩ := Props.C64_scheme g c theta t1 t2 values result hg (heat_proper hP t1) (heat_proper hP t2)
    (heat_solvable hP hg theta t1 t2 (by linarith) ht) h
  have hI := heat_inner_iff hP
  have hop : ∀ (d : Fin n) (p : {p : GridIndex n // p ∈ innerPoints g.size}), innerSecondOp g.size (a d) (g.delta d) d
      (restrictInner g.size (fun p => values p - U p)) p = a d * centralSecond (g.delta d) (fun p => u0 p - U p) d p.1 := by
    intro d p
    rw [← second_vanishing g.size (a d) (g.delta d) d (fun p => u0 p - U p) p]
    · have : restrictInner g.size (fun p => values p - U p) = restrictInner g.size (fun p => u0 p - U p) := by
        ext q
        simp only [restrictInner, hu0.inner q.1 ((hI _).2 q.2)]
      rw [this]
    · rw [(heat_face hP hg t1 _ _ hu0 p.1 p.2 d).1, (hU p.1 p.2 d).1, sub_self]
    · rw [(heat_face hP hg t1 _ _ hu0 p.1 p.2 d).2, (hU p.1 p.2 d).2, sub_self]
  have hop2 : ∀ (d : Fin n) (p : {p : GridIndex n // p ∈ innerPoints g.size}), innerSecondOp g.size (a d) (g.delta d) d
      (restrictInner g.size (fun p => y (d + 1) p - z (d + 1) p)) p = a d * centralSecond (g.delta d) (fun p => e (d + 1) p - z (d + 1) p) d p.1 := by
    intro d p
    rw [← second_vanishing g.size (a d) (g.delta d) d (fun p => e (d + 1) p - z (d + 1) p) p]
    · have : restrictInner g.size (fun p => y (d + 1) p - z (d + 1) p) = restrictInner g.size (fun p => e (d + 1) p - z (d + 1) p) := by
        ext q
        simp only [restrictInner, (he (d + 1)).inner q.1 ((hI _).2 q.2)]
      rw [this]
    · rw [(heat_face hP hg t2 _ _ (he (d + 1)) p.1 p.2 d).1, (hz d d.2 p.1 p.2 d).1, sub_self]
    · rw [(heat_face hP hg t2 _ _ (he (d + 1)) p.1 p.2 d).2, (hz d d.2 p.1 p.2 d).2, sub_self]
  have hsub : ∀ (f k : GridIndex n → ℝ) (d : Fin n) (p : GridIndex n), centralSecond (g.delta d) (fun p => f p - k p) d p =
      centralSecond (g.delta d) f d p - centralSecond (g.delta d) k d p := by
    intro f k d p; unfold centralSecond; ring
  have main := splitting_residual_le n (fun d => innerSecondOp g.size (a d) (g.delta d) d) (fun d => innerSecondOp_symmetric _ _ d)
    (fun d d' hd => innerSecondOp_comm _ _ _ _ d d' hd) (fun d x => innerSecondOp_nonpos _ _ (hP.nonneg d) d x) theta (t1 - t2) h0 (sub_nonneg.2 ht)
    (restrictInner g.size (fun p => values p - U p)) (fun k => restrictInner g.size (fun p => y k p - z k p)) (fun k => restrictInner g.size (r k))
    (by
      ext p
      have h1 := hy0 p.1 ((hI _).2 p.2)
      rw [heat_space hP] at h1
      have h2 := hr0 p.1 p.2
      have h3 : (∑ d, innerSecondOp g.size (a d) (g.delta d) d (restrictInner g.size (fun p => values p - U p))) p =
          ∑ d, (a d * centralSecond (g.delta d) u0 d p.1 - a d * centralSecond (g.delta d) U d p.1) := by
        rw [WithLp.ofLp_sum, Finset.sum_apply]
        refine Finset.sum_congr rfl (fun d _ => ?_)
        rw [hop, hsub]; ring
      rw [Finset.sum_sub_distrib] at h3
      simp only [PiLp.add_apply, PiLp.smul_apply, smul_eq_mul, h3]
      simp only [restrictInner]
      linear_combination h1 - h2)
    (by
      intro d
      ext p
      have h1 := hy d p.1 ((hI _).2 p.2)
      rw [heat_part hP, heat_part hP] at h1
      have h2 := hr d p.1 p.2
      simp only [PiLp.add_apply, PiLp.smul_apply, PiLp.sub_apply, smul_eq_mul, hop, hop2, hsub]
      simp only [restrictInner]
      linear_combination h1 - h2)
  have hn : restrictInner g.size (fun p => result p - z n p) = restrictInner g.size (fun p => y n p - z n p) := by
    ext q
    simp only [restrictInner, hres, (he n).inner q.1 ((hI _).2 q.2)]
  rw [rms_eq, rms_eq, hn]
  have hsum : ∑ k ∈ Finset.range (n + 1), ‖restrictInner g.size (r k)‖ ≤ √((innerPoints g.size).card) * ∑ k ∈ Finset.range (n + 1), rho k := by
    rw [Finset.mul_sum]
    refine Finset.sum_le_sum (fun k hk => ?_)
    have := hrho k (by rw [Finset.mem_range] at hk; omega)
    exact norm_restrict_le _ _ _ this.1 this.2
  have hcard : 0 < (innerPoints g.size).card := by
    rw [Finset.card_pos]
    refine ⟨fun _ => 1, (mem_innerPoints _).2 (fun d => ?_)⟩
    have := (hg d).1
    omega
  have hs : 0 < √((innerPoints g.size).card : ℝ) := Real.sqrt_pos.2 (by exact_mod_cast hcard)
  rw [div_le_iff₀ hs, add_mul, div_mul_cancel₀ _ hs.ne']
  calc _ ≤ _ := main
    _ ≤ _ := by
      have := hsum
      linarith [mul_comm (√((innerPoints g.size).card : ℝ)) (∑ k ∈ Finset.range (n + 1), rho k)]

theorem rms_congr (size : Fin n → ℕ) (f k : GridIndex n → ℝ) (h : ∀ p ∈ innerPoints size, f p = k p) : rms size f = rms size k := by
  unfold rms
  rw [Finset.sum_congr rfl (fun p hp => by rw [h p hp])]

section smooth
variable {D : ℕ → (Fin n → ℕ) → ℝ → (Fin n → ℝ) → ℝ} {e s M : ℝ} {lo hi : Fin n → ℝ} {m : ℕ}

theorem sum_update_order (k : Fin n → ℕ) (d : Fin n) (y : ℕ) : ∑ i, Function.update k d y i + k d = ∑ i, k i + y := by
  rw [Finset.sum_update_of_mem (Finset.mem_univ d), ← Finset.add_sum_erase Finset.univ k (Finset.mem_univ d), Finset.sdiff_singleton_eq_erase]
  omega

theorem gridPoint_mem (phi : ℝ → GridIndex n → ℝ) (u : ℝ → (Fin n → ℝ) → ℝ) (hB : FillsBox g phi u e s lo hi) (q : GridIndex n) (hq : ∀ d, q d < g.size d) :
    gridPoint lo g.delta q ∈ Icc lo hi := by
  constructor
  · intro d
    have := (hB.proper d).2
    have : 0 ≤ (q d : ℝ) * g.delta d := by positivity
    show lo d ≤ lo d + q d * g.delta d
    linarith
  · intro d
    have h1 := (hB.proper d).2
    have h2 : (q d : ℝ) ≤ ((g.size d - 1 : ℕ) : ℝ) := by
      have := hq d
      exact_mod_cast (show q d ≤ g.size d - 1 by omega)
    show lo d + q d * g.delta d ≤ hi d
    rw [← hB.last d]
    have := mul_le_mul_of_nonneg_right h2 h1.le
    linarith

theorem gridPoint_room (phi : ℝ → GridIndex n → ℝ) (u : ℝ → (Fin n → ℝ) → ℝ) (hB : FillsBox g phi u e s lo hi) (p : GridIndex n) (hp : p ∈ innerPoints g.size)
    (L : List (Fin n)) : RoomIn g.delta lo hi L (gridPoint lo g.delta p) := by
  intro d _
  have hp := (mem_innerPoints p).1 hp d
  have h1 := (hB.proper d).2
  have h2 : (1 : ℝ) ≤ p d := by exact_mod_cast hp.1
  have h3 : (p d : ℝ) + 1 ≤ ((g.size d - 1 : ℕ) : ℝ) := by exact_mod_cast (show p d + 1 ≤ g.size d - 1 by omega)
  unfold gridPoint
  rw [← hB.last d]
  constructor
  · nlinarith
  · nlinarith

theorem inner_lt (size : Fin n → ℕ) (p : GridIndex n) (hp : p ∈ innerPoints size) (d : Fin n) : p d < size d := by
  have := (mem_innerPoints p).1 hp d
  omega

/-- Second differences of the solution at the grid points. -/
theorem heat_second_error (hS : SmoothHeat D a e s lo hi M m) (hm : 4 ≤ m) (phi : ℝ → GridIndex n → ℝ) (u : ℝ → (Fin n → ℝ) → ℝ)
    (hB : FillsBox g phi u e s lo hi) (t : ℝ) (ht : t ∈ Icc e s) (p : GridIndex n) (hp : p ∈ innerPoints g.size) (d : Fin n) :
    |centralSecond (g.delta d) (onGridPoints g lo (D 0 0 t)) d p - D 0 (Function.update 0 d 2) t (gridPoint lo g.delta p)| ≤ M * g.delta d ^ 2 / 12 := by
  have hx := gridPoint_mem phi u hB p (inner_lt _ p hp)
  have hr := gridPoint_room phi u hB p hp [d] d List.mem_cons_self
  have hone : 1 ≤ p d := ((mem_innerPoints p).1 hp d).1
  have e1 := gridSeconds_eq lo g.delta (D 0 0 t) [d] (by simp) p (by simpa using hone)
  have e2 : gridSeconds g.delta [d] (fun q => D 0 0 t (gridPoint lo g.delta q)) p = centralSecond (g.delta d) (onGridPoints g lo (D 0 0 t)) d p := rfl
  rw [← e2, e1]
  show |smoothSecond g.delta d (D 0 0 t) _ - _| ≤ _
  unfold smoothSecond
  set x := gridPoint lo g.delta p with hxd
  have hord : ∀ k, ∑ i, Function.update (0 : Fin n → ℕ) d k i = k := by
    intro k
    have := sum_update_order (0 : Fin n → ℕ) d k
    simpa using this
  have := second_difference_error (lo d) (hi d) M (g.delta d) (fun k y => D 0 (Function.update 0 d k) t (Function.update x d y)) (by
      intro k hk y hy
      have h1 := hS.space 0 (Function.update 0 d k) d (by rw [hord]; omega) t ht (Function.update x d y) (update_mem_box hx d y hy)
      simpa only [Function.update_idem, Function.update_self] using h1)
    (fun y hy => hS.bound 0 _ (by rw [hord]; omega) t ht _ (update_mem_box hx d y hy)) (hB.proper d).2 (x d) hr.1 hr.2
  simp only [Function.update_eq_self] at this
  have e0 : Function.update (0 : Fin n → ℕ) d 0 = 0 := by
    funext i
    by_cases hi : i = d
    · subst hi; simp
    · simp [Function.update_of_ne hi]
  rw [e0] at this
  exact this

/-- Differences in time of derivatives. -/
theorem heat_time_le (hS : SmoothHeat D a e s lo hi M m) (k : Fin n → ℕ) (hk : ∑ i, k i < m) (t1 t2 : ℝ) (h1 : t1 ∈ Icc e s) (h2 : t2 ∈ Icc e s) (x : Fin n → ℝ)
    (hx : x ∈ Icc lo hi) : |D 0 k t2 x - D 0 k t1 x| ≤ M * |t2 - t1| := by
  have := taylor_bound e s M 1 (fun j t => D j k t x) (fun j hj t ht => hS.time j k (by omega) t ht x hx) (fun t ht => hS.bound 1 k (by omega) t ht x hx) t1 t2 h1 h2
  simpa using this

theorem heat_bound_nonneg (hS : SmoothHeat D a e s lo hi M m) (t : ℝ) (ht : t ∈ Icc e s) (x : Fin n → ℝ) (hx : x ∈ Icc lo hi) : 0 ≤ M :=
  (abs_nonneg _).trans (hS.bound 0 0 (by simp) t ht x hx)

/-- Order of derivatives that are zero or two in every variable. -/
def twoIn (S : Finset (Fin n)) : Fin n → ℕ := fun d => if d ∈ S then 2 else 0

theorem twoIn_sum (S : Finset (Fin n)) : ∑ d, twoIn S d = 2 * S.card := by
  unfold twoIn
  rw [Finset.sum_ite_mem, Finset.univ_inter, Finset.sum_const, smul_eq_mul, mul_comm]

theorem twoIn_insert (S : Finset (Fin n)) (d : Fin n) : Function.update (twoIn S) d 2 = twoIn (insert d S) := by
  funext i
  unfold twoIn
  by_cases hi : i = d
  · subst hi; simp
  · simp [Function.update_of_ne hi, hi]

/-- Repeated differences of the change of the solution in a step. -/
theorem heat_seconds_le (hS : SmoothHeat D a e s lo hi M m) (hm : 2 * n + 1 ≤ m) (phi : ℝ → GridIndex n → ℝ) (u : ℝ → (Fin n → ℝ) → ℝ)
    (hB : FillsBox g phi u e s lo hi) (t1 t2 : ℝ) (h1 : t1 ∈ Icc e s) (h2 : t2 ∈ Icc e s) (L : List (Fin n)) (hL : L.Nodup) (p : GridIndex n)
    (hp : p ∈ innerPoints g.size) :
    |gridSeconds g.delta L (fun q => onGridPoints g lo (D 0 0 t2) q - onGridPoints g lo (D 0 0 t1) q) p| ≤ M * |t2 - t1| := by
  have e1 := gridSeconds_eq lo g.delta (fun x => D 0 (twoIn ∅) t2 x - D 0 (twoIn ∅) t1 x) L hL p (fun d _ => ((mem_innerPoints p).1 hp d).1)
  have ez : twoIn (∅ : Finset (Fin n)) = 0 := by funext i; simp [twoIn]
  have e2 : gridSeconds g.delta L (fun q => onGridPoints g lo (D 0 0 t2) q - onGridPoints g lo (D 0 0 t1) q) p =
      gridSeconds g.delta L (fun q => D 0 (twoIn ∅) t2 (gridPoint lo g.delta q) - D 0 (twoIn ∅) t1 (gridPoint lo g.delta q)) p := by
    rw [ez]; rfl
  rw [e2, e1]
  have card_lt : ∀ (S : Finset (Fin n)) (d : Fin n), d ∉ S → 2 * S.card + 2 ≤ 2 * n := by
    intro S d hd
    have := Finset.card_lt_univ_of_notMem hd
    rw [Fintype.card_fin] at this
    omega
  have card_le : ∀ (S : Finset (Fin n)), 2 * S.card ≤ 2 * n := by
    intro S
    have := Finset.card_le_univ S
    rw [Fintype.card_fin] at this
    omega
  have ord1 : ∀ (S : Finset (Fin n)) (d : Fin n), d ∉ S → ∑ i, Function.update (twoIn S) d 1 i = 2 * S.card + 1 := by
    intro S d hd
    have := sum_update_order (twoIn S) d 1
    rw [twoIn_sum] at this
    have h0 : twoIn S d = 0 := by simp [twoIn, hd]
    omega
  refine smoothSeconds_le g.delta lo hi (fun d => (hB.proper d).2) (M * |t2 - t1|) (fun S x => D 0 (twoIn S) t2 x - D 0 (twoIn S) t1 x)
    (fun S d x => D 0 (Function.update (twoIn S) d 1) t2 x - D 0 (Function.update (twoIn S) d 1) t1 x) ?_ ?_ ?_ L hL ∅ (by simp) _
    (gridPoint_mem phi u hB p (inner_lt _ p hp)) (gridPoint_room phi u hB p hp L)
  · intro S d hd x hx
    have h0 : twoIn S d = 0 := by simp [twoIn, hd]
    have hc := card_lt S d hd
    have a1 := hS.space 0 (twoIn S) d (by rw [twoIn_sum]; omega) t2 h2 x hx
    have a2 := hS.space 0 (twoIn S) d (by rw [twoIn_sum]; omega) t1 h1 x hx
    rw [h0] at a1 a2
    exact a1.sub a2
  · intro S d hd x hx
    have hc := card_lt S d hd
    have a1 := hS.space 0 (Function.update (twoIn S) d 1) d (by rw [ord1 S d hd]; omega) t2 h2 x hx
    have a2 := hS.space 0 (Function.update (twoIn S) d 1) d (by rw [ord1 S d hd]; omega) t1 h1 x hx
    rw [Function.update_self, Function.update_idem, twoIn_insert] at a1 a2
    exact a1.sub a2
  · intro S x hx
    have := card_le S
    exact heat_time_le hS (twoIn S) (by rw [twoIn_sum]; omega) t1 t2 h1 h2 x hx

/-- Second differences of the change of the solution in a step. -/
theorem heat_change_le (hS : SmoothHeat D a e s lo hi M m) (hm : 4 ≤ m) (phi : ℝ → GridIndex n → ℝ) (u : ℝ → (Fin n → ℝ) → ℝ)
    (hB : FillsBox g phi u e s lo hi) (t1 t2 : ℝ) (h1 : t1 ∈ Icc e s) (h2 : t2 ∈ Icc e s) (p : GridIndex n) (hp : p ∈ innerPoints g.size) (d : Fin n) :
    |centralSecond (g.delta d) (onGridPoints g lo (D 0 0 t2)) d p - centralSecond (g.delta d) (onGridPoints g lo (D 0 0 t1)) d p| ≤ M * |t2 - t1| := by
  have hx := gridPoint_mem phi u hB p (inner_lt _ p hp)
  have hr := gridPoint_room phi u hB p hp [d] d List.mem_cons_self
  have hone : 1 ≤ p d := ((mem_innerPoints p).1 hp d).1
  have e1 : ∀ t, centralSecond (g.delta d) (onGridPoints g lo (D 0 0 t)) d p = smoothSecond g.delta d (D 0 0 t) (gridPoint lo g.delta p) := fun t =>
    gridSeconds_eq lo g.delta (D 0 0 t) [d] (by simp) p (by simpa using hone)
  rw [e1, e1]
  unfold smoothSecond
  set x := gridPoint lo g.delta p with hxd
  have hord : ∀ k, ∑ i, Function.update (0 : Fin n → ℕ) d k i = k := by
    intro k
    have := sum_update_order (0 : Fin n → ℕ) d k
    simpa using this
  have := second_difference_le (lo d) (hi d) (M * |t2 - t1|) (g.delta d)
    (fun k y => D 0 (Function.update 0 d k) t2 (Function.update x d y) - D 0 (Function.update 0 d k) t1 (Function.update x d y)) (by
      intro k hk y hy
      have h3 := hS.space 0 (Function.update 0 d k) d (by rw [hord]; omega) t2 h2 (Function.update x d y) (update_mem_box hx d y hy)
      have h4 := hS.space 0 (Function.update 0 d k) d (by rw [hord]; omega) t1 h1 (Function.update x d y) (update_mem_box hx d y hy)
      simp only [Function.update_idem, Function.update_self] at h3 h4
      exact h3.sub h4)
    (fun y hy => heat_time_le hS _ (by rw [hord]; omega) t1 t2 h1 h2 _ (update_mem_box hx d y hy)) (hB.proper d).2 (x d) hr.1 hr.2
  simp only [Function.update_eq_self] at this
  have e0 : Function.update (0 : Fin n → ℕ) d 0 = 0 := by
    funext i
    by_cases hi : i = d
    · subst hi; simp
    · simp [Function.update_of_ne hi]
  rw [e0] at this
  refine le_of_eq_of_le ?_ this
  congr 1
  ring

/-- The boundary values of the solution. -/
theorem heat_faces (phi : ℝ → GridIndex n → ℝ) (u : ℝ → (Fin n → ℝ) → ℝ) (hB : FillsBox g phi u e s lo hi) (t : ℝ) (ht : t ∈ Icc e s) (p : GridIndex n)
    (hp : p ∈ innerPoints g.size) (d : Fin n) : onGridPoints g lo (u t) (Function.update p d 0) = phi t (Function.update p d 0) ∧
      onGridPoints g lo (u t) (Function.update p d (g.size d - 1)) = phi t (Function.update p d (g.size d - 1)) := by
  have hs := (hB.proper d).1
  have hlt : ∀ k, k < g.size d → ∀ i, Function.update p d k i < g.size i := by
    intro k hk i
    by_cases hi : i = d
    · subst hi; simpa using hk
    · rw [Function.update_of_ne hi]; exact inner_lt _ p hp i
  constructor
  · exact (hB.values t ht _ (hlt 0 (by omega)) ⟨d, Or.inl (by simp)⟩).symm
  · exact (hB.values t ht _ (hlt _ (by omega)) ⟨d, Or.inr (by simp)⟩).symm

end smooth

/-! The stages of the scheme for the change of the solution in a step. -/

theorem ops_sub (size : Fin n → ℕ) (a h : Fin n → ℝ) (mu : ℝ) (L : List (Fin n)) (x y : InnerSpaceOn size) :
    innerSecondOps size a h L (x - mu • y) = innerSecondOps size a h L x - mu • innerSecondOps size a h L y := by
  induction L with
  | nil => rfl
  | cons d L ih => simp only [innerSecondOps, ih, map_sub, map_smul]

theorem ops_append (size : Fin n → ℕ) (a h : Fin n → ℝ) (d : Fin n) (L : List (Fin n)) (x : InnerSpaceOn size) :
    innerSecondOps size a h L (innerSecondOp size (a d) (h d) d x) = innerSecondOps size a h (L ++ [d]) x := by
  induction L with
  | nil => rfl
  | cons e L ih => simp only [innerSecondOps, List.cons_append, ih]

/-- The coefficient and the operator of the dimension that is treated last but `j`. -/
noncomputable def lastCoeff (a : Fin n → ℝ) (j : ℕ) : ℝ := if hj : n - 1 - j < n then a ⟨n - 1 - j, hj⟩ else 0
noncomputable def lastOp (size : Fin n → ℕ) (a h : Fin n → ℝ) (j : ℕ) : InnerSpaceOn size →ₗ[ℝ] InnerSpaceOn size :=
  if hj : n - 1 - j < n then innerSecondOp size (a ⟨n - 1 - j, hj⟩) (h ⟨n - 1 - j, hj⟩) ⟨n - 1 - j, hj⟩ else 0

theorem lastCoeff_nonneg (a : Fin n → ℝ) (ha : ∀ d, 0 ≤ a d) (j : ℕ) : 0 ≤ lastCoeff a j := by
  unfold lastCoeff; split_ifs
  · exact ha _
  · exact le_rfl

theorem sum_lastCoeff (a : Fin n → ℝ) : ∑ j ∈ Finset.range n, lastCoeff a j = ∑ d, a d := by
  have h := Finset.sum_range_reflect (fun j => if hj : j < n then a ⟨j, hj⟩ else 0) n
  unfold lastCoeff
  rw [h, Finset.sum_range]
  exact Finset.sum_congr rfl (fun d _ => by simp)

theorem sum_lastOp (size : Fin n → ℕ) (a h : Fin n → ℝ) (x : InnerSpaceOn size) :
    ∑ j ∈ Finset.range n, lastOp size a h j x = ∑ d, innerSecondOp size (a d) (h d) d x := by
  have h := Finset.sum_range_reflect (fun j => (if hj : j < n then innerSecondOp size (a ⟨j, hj⟩) (h ⟨j, hj⟩) ⟨j, hj⟩ else 0) x) n
  unfold lastOp
  rw [h, Finset.sum_range]
  exact Finset.sum_congr rfl (fun d _ => by simp)

theorem stage_bound (size : Fin n → ℕ) (a h : Fin n → ℝ) (ha : ∀ d, 0 ≤ a d) (mu B : ℝ) (hmu : 0 ≤ mu) (hB : 0 ≤ B) (X : ℕ → InnerSpaceOn size)
    (hX : ∀ j, j < n → X (j + 1) = X j - mu • lastOp size a h j (X j))
    (hbase : ∀ L : List (Fin n), L.Nodup → ∀ p, |innerSecondOps size a h L (X 0) p| ≤ (L.map a).prod * B) (j : ℕ) (hj : j ≤ n) (L : List (Fin n))
    (hL : L.Nodup) (hLj : ∀ d ∈ L, (d : ℕ) + j < n) (p : {p : GridIndex n // p ∈ innerPoints size}) :
    |innerSecondOps size a h L (X j) p| ≤ (L.map a).prod * (Real.exp (mu * ∑ i ∈ Finset.range j, lastCoeff a i) * B) := by
  induction j generalizing L with
  | zero => simpa using hbase L hL p
  | succ j ih =>
    have hjn : n - 1 - j < n := by omega
    have hprod : 0 ≤ (L.map a).prod := List.prod_nonneg (fun y hy => by
      obtain ⟨d, _, rfl⟩ := List.mem_map.1 hy
      exact ha d)
    have hd : (⟨n - 1 - j, hjn⟩ : Fin n) ∉ L := by
      intro hc
      have := hLj _ hc
      simp only at this
      omega
    have i1 := ih (by omega) L hL (fun d hd => by have := hLj d hd; omega)
    have i2 := ih (by omega) (L ++ [⟨n - 1 - j, hjn⟩]) (by
        rw [List.nodup_append]
        refine ⟨hL, by simp, fun x hx y hy => ?_⟩
        rw [List.mem_singleton] at hy
        rintro rfl
        exact hd (hy ▸ hx))
      (fun d hd => by
        rw [List.mem_append, List.mem_singleton] at hd
        rcases hd with hd | hd
        · have := hLj d hd; omega
        · rw [hd]; simp only; omega)
    have hop : lastOp size a h j = innerSecondOp size (a ⟨n - 1 - j, hjn⟩) (h ⟨n - 1 - j, hjn⟩) ⟨n - 1 - j, hjn⟩ := by unfold lastOp; rw [dif_pos hjn]
    have hco : lastCoeff a j = a ⟨n - 1 - j, hjn⟩ := by unfold lastCoeff; rw [dif_pos hjn]
    rw [hX j (by omega), ops_sub, hop, ops_append, Finset.sum_range_succ, hco, mul_add, Real.exp_add]
    rw [List.map_append, List.prod_append] at i2
    simp only [List.map_cons, List.map_nil, List.prod_cons, List.prod_nil, mul_one] at i2
    rw [PiLp.sub_apply, PiLp.smul_apply, smul_eq_mul]
    have hexp := Real.add_one_le_exp (mu * a ⟨n - 1 - j, hjn⟩)
    set Ej := Real.exp (mu * ∑ i ∈ Finset.range j, lastCoeff a i) with hEj
    have hEp : 0 < Ej := Real.exp_pos _
    refine (abs_sub _ _).trans ?_
    rw [abs_mul, abs_of_nonneg hmu]
    have k1 := mul_le_mul_of_nonneg_left i2 hmu
    have k2 := mul_le_mul_of_nonneg_left hexp (mul_nonneg hprod (mul_nonneg hEp.le hB))
    linarith

theorem stage_remainder (size : Fin n → ℕ) (a h : Fin n → ℝ) (ha : ∀ d, 0 ≤ a d) (mu B : ℝ) (hmu : 0 ≤ mu) (hB : 0 ≤ B) (X : ℕ → InnerSpaceOn size)
    (hX : ∀ j, j < n → X (j + 1) = X j - mu • lastOp size a h j (X j))
    (hbase : ∀ L : List (Fin n), L.Nodup → ∀ p, |innerSecondOps size a h L (X 0) p| ≤ (L.map a).prod * B)
    (p : {p : GridIndex n // p ∈ innerPoints size}) :
    |(X n - X 0 + mu • ∑ d, innerSecondOp size (a d) (h d) d (X 0)) p| ≤ (mu * ∑ d, a d) ^ 2 * (Real.exp (mu * ∑ d, a d) * B) := by
  have hlast : ∀ j, 0 ≤ lastCoeff a j := lastCoeff_nonneg a ha
  have hdiff : ∀ j, j ≤ n → X j - X 0 = -(mu • ∑ i ∈ Finset.range j, lastOp size a h i (X i)) := by
    intro j
    induction j with
    | zero => intro _; simp
    | succ j ih =>
      intro hj
      rw [Finset.sum_range_succ, hX j (by omega), smul_add, sub_right_comm, ih (by omega)]
      abel
  set E := Real.exp (mu * ∑ d, a d) with hE
  have hpair : ∀ i j, i < j → j < n → ∀ p, |lastOp size a h j (lastOp size a h i (X i)) p| ≤ lastCoeff a j * (lastCoeff a i * (E * B)) := by
    intro i j hij hj p
    have h1 : n - 1 - j < n := by omega
    have h2 : n - 1 - i < n := by omega
    have := stage_bound size a h ha mu B hmu hB X hX hbase i (by omega) [⟨n - 1 - j, h1⟩, ⟨n - 1 - i, h2⟩] (by
        simp only [List.nodup_cons, List.mem_singleton, Fin.mk.injEq, List.not_mem_nil, not_false_eq_true, List.nodup_nil, and_true]
        omega)
      (fun d hd => by
        simp only [List.mem_cons, List.not_mem_nil, or_false] at hd
        rcases hd with rfl | rfl <;> simp only <;> omega) p
    simp only [List.map_cons, List.map_nil, List.prod_cons, List.prod_nil, mul_one] at this
    have o1 : lastOp size a h j = innerSecondOp size (a ⟨n - 1 - j, h1⟩) (h ⟨n - 1 - j, h1⟩) ⟨n - 1 - j, h1⟩ := by unfold lastOp; rw [dif_pos h1]
    have o2 : lastOp size a h i = innerSecondOp size (a ⟨n - 1 - i, h2⟩) (h ⟨n - 1 - i, h2⟩) ⟨n - 1 - i, h2⟩ := by unfold lastOp; rw [dif_pos h2]
    have c1 : lastCoeff a j = a ⟨n - 1 - j, h1⟩ := by unfold lastCoeff; rw [dif_pos h1]
    have c2 : lastCoeff a i = a ⟨n - 1 - i, h2⟩ := by unfold lastCoeff; rw [dif_pos h2]
    rw [o1, o2, c1, c2]
    have hexp : Real.exp (mu * ∑ i ∈ Finset.range i, lastCoeff a i) ≤ E := by
      rw [hE, ← sum_lastCoeff a]
      refine Real.exp_le_exp.2 (mul_le_mul_of_nonneg_left ?_ hmu)
      exact Finset.sum_le_sum_of_subset_of_nonneg (Finset.range_mono (by omega)) (fun k _ _ => hlast k)
    refine (show _ ≤ _ from this).trans ?_
    rw [mul_assoc]
    exact mul_le_mul_of_nonneg_left (mul_le_mul_of_nonneg_left (mul_le_mul_of_nonneg_right hexp hB) (ha _)) (ha _)
  have hEB : 0 ≤ E * B := mul_nonneg (Real.exp_pos _).le hB
  have hrem : ∀ j, j ≤ n → |(X j - X 0 + mu • ∑ i ∈ Finset.range j, lastOp size a h i (X 0)) p| ≤ (mu * ∑ i ∈ Finset.range j, lastCoeff a i) ^ 2 * (E * B) := by
    intro j
    induction j with
    | zero => intro _; simp
    | succ j ih =>
      intro hj
      have i1 := ih (by omega)
      have e1 : X (j + 1) - X 0 + mu • ∑ i ∈ Finset.range (j + 1), lastOp size a h i (X 0) =
          (X j - X 0 + mu • ∑ i ∈ Finset.range j, lastOp size a h i (X 0)) + (mu * mu) • ∑ i ∈ Finset.range j, lastOp size a h j (lastOp size a h i (X i)) := by
        have h2 : (mu * mu) • ∑ i ∈ Finset.range j, lastOp size a h j (lastOp size a h i (X i)) = -(mu • lastOp size a h j (X j - X 0)) := by
          rw [hdiff j (by omega), map_neg, map_smul, map_sum, smul_neg, neg_neg, smul_smul]
        rw [h2, Finset.sum_range_succ, hX j (by omega), map_sub, smul_add, smul_sub]
        abel
      rw [e1, PiLp.add_apply, PiLp.smul_apply, smul_eq_mul, WithLp.ofLp_sum, Finset.sum_apply]
      have i2 : |∑ i ∈ Finset.range j, lastOp size a h j (lastOp size a h i (X i)) p| ≤ lastCoeff a j * ((∑ i ∈ Finset.range j, lastCoeff a i) * (E * B)) := by
        rw [Finset.sum_mul, Finset.mul_sum]
        refine (Finset.abs_sum_le_sum_abs _ _).trans (Finset.sum_le_sum (fun i hi => ?_))
        exact hpair i j (Finset.mem_range.1 hi) (by omega) p
      refine (abs_add_le _ _).trans ?_
      rw [abs_mul, abs_of_nonneg (mul_nonneg hmu hmu), Finset.sum_range_succ]
      have i3 := mul_le_mul_of_nonneg_left i2 (mul_nonneg hmu hmu)
      have hs : 0 ≤ ∑ i ∈ Finset.range j, lastCoeff a i := Finset.sum_nonneg (fun i _ => hlast i)
      have hl := hlast j
      generalize ∑ i ∈ Finset.range j, lastCoeff a i = S at *
      generalize lastCoeff a j = l at *
      have k1 : 0 ≤ mu * mu * (S * l + l * l) * (E * B) := by positivity
      nlinarith
  have := hrem n le_rfl
  rw [sum_lastCoeff, sum_lastOp] at this
  exact this

/-! The loop over time steps. -/

/-- Times of the loop: from `s` down to `e` in steps of at most `dt`. -/
structure TimeGrid (times : ℕ → ℝ) (N : ℕ) (e s dt : ℝ) : Prop where
  first : times 0 = s
  last : times N = e
  mem : ∀ i, i ≤ N → times i ∈ Icc e s
  down : ∀ i, i < N → times (i + 1) ≤ times i
  size : ∀ i, i < N → times i - times (i + 1) ≤ dt

theorem timeGrid_equal (e s : ℝ) (hes : e < s) (n : ℕ) (hn : 0 < n) : TimeGrid (fun i => if i < n then s - i * ((s - e) / n) else e) n e s ((s - e) / n) := by
  have hn' : (0 : ℝ) < n := by exact_mod_cast hn
  have hdt : 0 < (s - e) / n := div_pos (by linarith) hn'
  have hend : s - n * ((s - e) / n) = e := by field_simp; ring
  have htime : ∀ i : ℕ, i ≤ n → (if i < n then s - i * ((s - e) / n) else e) = s - i * ((s - e) / n) := by
    intro i hi
    split
    · rfl
    · next hc => rw [show i = n by omega, hend]
  have hcast : ∀ i : ℕ, i ≤ n → (i : ℝ) * ((s - e) / n) ≤ s - e := by
    intro i hi
    have : (i : ℝ) ≤ n := by exact_mod_cast hi
    have := mul_le_mul_of_nonneg_right this hdt.le
    linarith
  refine ⟨by simp [hn], by simp, fun i hi => ?_, fun i hi => ?_, fun i hi => ?_⟩
  · simp only [htime i hi]
    have := hcast i hi
    have : 0 ≤ (i : ℝ) * ((s - e) / n) := by positivity
    exact ⟨by linarith, by linarith⟩
  · simp only [htime i hi.le, htime (i + 1) hi]; push_cast; linarith
  · simp only [htime i hi.le, htime (i + 1) hi]; push_cast; linarith

theorem timeGrid_dt (e s dt : ℝ) (hes : e < s) (hdt : 0 < dt) :
    TimeGrid (fun i => if i < ⌈(s - e) / dt⌉.toNat then s - i * dt else e) ⌈(s - e) / dt⌉.toNat e s dt := by
  have hpos : 0 < (s - e) / dt := div_pos (by linarith) hdt
  have hc0 : 0 < ⌈(s - e) / dt⌉ := Int.ceil_pos.2 hpos
  have hcast : ((⌈(s - e) / dt⌉.toNat : ℕ) : ℝ) = ((⌈(s - e) / dt⌉ : ℤ) : ℝ) := by
    have : ((⌈(s - e) / dt⌉.toNat : ℕ) : ℤ) = ⌈(s - e) / dt⌉ := Int.toNat_of_nonneg hc0.le
    exact_mod_cast this
  have hge : s - e ≤ ((⌈(s - e) / dt⌉.toNat : ℕ) : ℝ) * dt := by
    rw [hcast, ← div_le_iff₀ hdt]; exact Int.le_ceil _
  have hlt' : ((⌈(s - e) / dt⌉.toNat : ℕ) : ℝ) * dt < s - e + dt := by
    have := Int.ceil_lt_add_one ((s - e) / dt)
    rw [← hcast] at this
    have h2 := mul_lt_mul_of_pos_right this hdt
    rw [add_mul, div_mul_cancel₀ _ hdt.ne', one_mul] at h2
    exact h2
  have hL : 0 < ⌈(s - e) / dt⌉.toNat := by omega
  generalize ⌈(s - e) / dt⌉.toNat = L at *
  have inside : ∀ i : ℕ, i < L → (i : ℝ) * dt < s - e := by
    intro i hi
    have : (i : ℝ) + 1 ≤ L := by exact_mod_cast hi
    have := mul_le_mul_of_nonneg_right this hdt.le
    linarith
  refine ⟨by simp [hL], by simp, fun i hi => ?_, fun i hi => ?_, fun i hi => ?_⟩
  · beta_reduce
    split
    · next hc =>
      have := inside i hc
      have : 0 ≤ (i : ℝ) * dt := by positivity
      exact ⟨by linarith, by linarith⟩
    · exact ⟨le_rfl, hes.le⟩
  · simp only [if_pos hi]
    split
    · push_cast; linarith
    · linarith [inside i hi]
  · simp only [if_pos hi]
    split
    · push_cast; linarith
    · next hc =>
      have : (i : ℝ) + 1 = L := by exact_mod_cast (show i + 1 = L by omega)
      rw [← this] at hge
      linarith

/-- A quantity of the values that grows by at most `(t1 - t2) * T` in each step. -/
theorem march_growth {G : Type} (step : ℝ → ℝ → ℕ → G → Option G) (err : ℝ → G → ℝ) (e s dt T : ℝ)
    (hstep : ∀ t1 t2 k v, t1 ∈ Icc e s → t2 ∈ Icc e s → t2 ≤ t1 → t1 - t2 ≤ dt → ∃ r, step t1 t2 k v = some r ∧ err t2 r ≤ err t1 v + (t1 - t2) * T)
    (times : ℕ → ℝ) (N k0 : ℕ) (hT : TimeGrid times N e s dt) (j i : ℕ) (hij : i + j = N) (v : G) :
    ∃ w, march step none times k0 i j v = some w ∧ err e w ≤ err (times i) v + (times i - e) * T := by
  induction j generalizing i v with
  | zero =>
    refine ⟨v, rfl, ?_⟩
    rw [show i = N by omega, hT.last]; linarith
  | succ j ih =>
    obtain ⟨r, hr, hre⟩ := hstep (times i) (times (i + 1)) (k0 + i) v (hT.mem i (by omega)) (hT.mem (i + 1) (by omega)) (hT.down i (by omega)) (hT.size i (by omega))
    obtain ⟨w, hw, hwe⟩ := ih (i + 1) (by omega) r
    refine ⟨w, ?_, by linarith⟩
    unfold march
    rw [hr]
    exact hw

/-- A quantity of the values of two runs that does not grow. -/
theorem march_two {G : Type} (step : ℝ → ℝ → ℕ → G → Option G) (err : G → G → ℝ) (e s dt : ℝ)
    (hstep : ∀ t1 t2 k v v' r r', t2 ≤ t1 → step t1 t2 k v = some r → step t1 t2 k v' = some r' → err r r' ≤ err v v')
    (times : ℕ → ℝ) (N k0 : ℕ) (hT : TimeGrid times N e s dt) (j i : ℕ) (hij : i + j = N) (v v' w w' : G)
    (h : march step none times k0 i j v = some w) (h' : march step none times k0 i j v' = some w') : err w w' ≤ err v v' := by
  induction j generalizing i v v' with
  | zero => cases h; cases h'; exact le_rfl
  | succ j ih =>
    unfold march at h h'
    obtain ⟨r, hr, hw⟩ := Option.bind_eq_some_iff.1 h
    obtain ⟨r', hr', hw'⟩ := Option.bind_eq_some_iff.1 h'
    exact (ih (i + 1) (by omega) r r' hw hw').trans (hstep _ _ _ v v' r r' (hT.down i (by omega)) hr hr')

end Lemmas

namespace Props
open Model Spec Lemmas Set
open scoped BigOperators

variable {n : ℕ} {g : AdiGrid n ℝ} {c : ℝ → AdiCoeffs n ℝ} {a : Fin n → ℝ} {phi : ℝ → GridIndex n → ℝ}

/-- C123, stability of a step: with an implicit weight of at least one half the mean square of the difference of two results is at most that of the values from
which they are computed, for all time steps and all grids, in any number of dimensions. -/
theorem C123_stable_step (hP : HeatProblem g c a phi) (hg : ProperGrid g) (theta t1 t2 : ℝ) (h0 : 1 / 2 ≤ theta) (ht : t2 ≤ t1)
    (values values' result result' : GridIndex n → ℝ) (h : g.step c theta t1 t2 values = some result) (h' : g.step c theta t1 t2 values' = some result') :
    rms g.size (fun p => result p - result' p) ≤ rms g.size (fun p => values p - values' p) := by
  obtain ⟨u0, y, e, hu0, he, hy0, hy, hres⟩ := C64_scheme g c theta t1 t2 values' result' hg (heat_proper hP t1) (heat_proper hP t2)
    (heat_solvable hP hg theta t1 t2 (by linarith) ht) h'
  have hI := heat_inner_iff hP
  have key := heat_step_error hP hg theta t1 t2 h0 ht values result h u0 e (fun _ _ => 0) (fun _ => 0)
    (fun p hp d => heat_face hP hg t1 _ _ hu0 p hp d) (fun k _ p hp d => heat_face hP hg t2 _ _ (he (k + 1)) p hp d)
    (fun p hp => by
      rw [(he 0).inner p ((hI p).2 hp), hy0 p ((hI p).2 hp), heat_space hP, hu0.inner p ((hI p).2 hp)]
      ring)
    (fun d p hp => by
      rw [(he (d + 1)).inner p ((hI p).2 hp), (he d).inner p ((hI p).2 hp), hy d p ((hI p).2 hp), heat_part hP, heat_part hP]
      ring)
    (fun k _ => ⟨le_rfl, fun p _ => by simp⟩)
  rw [Finset.sum_const_zero, add_zero] at key
  rw [hres]
  refine key.trans (le_of_eq (rms_congr _ _ _ (fun p hp => ?_)))
  rw [hu0.inner p ((hI p).2 hp)]

/-- The step function for `solve_backward`. -/
noncomputable def adiStep (g : AdiGrid n ℝ) (c : ℝ → AdiCoeffs n ℝ) (theta t1 t2 : ℝ) (_ : Nat) (values : GridIndex n → ℝ) : Option (GridIndex n → ℝ) :=
  g.step c theta t1 t2 values

/-- C123, stability of `solve_backward` with the Douglas scheme: with an implicit weight of at least one half the mean square of the difference of two solutions is
never larger than that of their values at the start, for any number of dimensions, any grid and any number of steps. -/
theorem C123_stable (hP : HeatProblem g c a phi) (hg : ProperGrid g) (theta e s : ℝ) (h0 : 1 / 2 ≤ theta) (he : 0 ≤ e) (hes : e < s) (N k0 : ℕ) (hN : 0 < N)
    (values values' : GridIndex n → ℝ) (r r' : (GridIndex n → ℝ) × ℝ × ℕ) (h : solveBackward s e values (some N) k0 none (adiStep g c theta) none = some r)
    (h' : solveBackward s e values' (some N) k0 none (adiStep g c theta) none = some r') :
    rms g.size (fun p => r.1 p - r'.1 p) ≤ rms g.size (fun p => values p - values' p) := by
  rw [C47_backward_steps s e he hes N hN] at h h'
  obtain ⟨w, hw, rfl⟩ := Option.map_eq_some_iff.1 h
  obtain ⟨w', hw', rfl⟩ := Option.map_eq_some_iff.1 h'
  exact march_two (adiStep g c theta) (fun v v' => rms g.size (fun p => v p - v' p)) e s _
    (fun t1 t2 k v v' r r' ht hr hr' => C123_stable_step hP hg theta t1 t2 h0 ht v v' r r' hr hr') _ N k0 (timeGrid_equal e s hes N hN) N 0 (by omega) values values' w w' hw hw'

/-- C123 with a given time step. -/
theorem C123_stable_dt (hP : HeatProblem g c a phi) (hg : ProperGrid g) (theta e s dt : ℝ) (h0 : 1 / 2 ≤ theta) (he : 0 ≤ e) (hes : e < s) (hdt : 0 < dt) (k0 : ℕ)
    (values values' : GridIndex n → ℝ) (r r' : (GridIndex n → ℝ) × ℝ × ℕ)
    (h : solveBackward s e values none k0 (some (.const dt)) (adiStep g c theta) none = some r)
    (h' : solveBackward s e values' none k0 (some (.const dt)) (adiStep g c theta) none = some r') :
    rms g.size (fun p => r.1 p - r'.1 p) ≤ rms g.size (fun p => values p - values' p) := by
  rw [C47_backward_dt s e dt he hes.le hdt] at h h'
  obtain ⟨w, hw, rfl⟩ := Option.map_eq_some_iff.1 h
  obtain ⟨w', hw', rfl⟩ := Option.map_eq_some_iff.1 h'
  exact march_two (adiStep g c theta) (fun v v' => rms g.size (fun p => v p - v' p)) e s _
    (fun t1 t2 k v v' r r' ht hr hr' => C123_stable_step hP hg theta t1 t2 h0 ht v v' r r' hr hr') _ _ k0 (timeGrid_dt e s dt hes hdt) _ 0 (by omega) values values' w w' hw hw'

section smooth
variable {D : ℕ → (Fin n → ℕ) → ℝ → (Fin n → ℝ) → ℝ} {e s M : ℝ} {lo hi : Fin n → ℝ} {m : ℕ}

/-- C123, one step: the error grows by at most the length of the step times the truncation error. -/
theorem C123_step (hP : HeatProblem g c a phi) (hS : SmoothHeat D a e s lo hi M m) (hm : 4 ≤ m) (hB : FillsBox g phi (D 0 0) e s lo hi)
    (theta dt t1 t2 : ℝ) (h0 : 1 / 2 ≤ theta) (ht : t2 ≤ t1) (m1 : t1 ∈ Icc e s) (m2 : t2 ∈ Icc e s) (hdt : t1 - t2 ≤ dt)
    (values result : GridIndex n → ℝ) (h : g.step c theta t1 t2 values = some result) :
    rms g.size (fun p => result p - onGridPoints g lo (D 0 0 t2) p) ≤ rms g.size (fun p => values p - onGridPoints g lo (D 0 0 t1) p) +
      (t1 - t2) * adiTruncation a g.delta M theta dt := by
  have hd : 0 ≤ t1 - t2 := sub_nonneg.2 ht
  have hM : 0 ≤ M := heat_bound_nonneg hS t1 m1 (gridPoint lo g.delta (fun _ => 0)) (gridPoint_mem phi _ hB _ (fun d => by have := (hB.proper d).1; omega))
  have hsumd : ∀ d, 0 ≤ a d * g.delta d ^ 2 / 12 := fun d => by have := hP.nonneg d; positivity
  set U := fun t => onGridPoints g lo (D 0 0 t) with hU
  have habs : |t2 - t1| = t1 - t2 := by rw [abs_sub_comm, abs_of_nonneg hd]
  have key := heat_step_error hP hB.proper theta t1 t2 h0 ht values result h (U t1) (fun _ => U t2)
    (fun k p => match k with
      | 0 => U t1 p + (t1 - t2) * ∑ d, a d * centralSecond (g.delta d) (U t1) d p - U t2 p
      | k + 1 => if hk : k < n then theta * (t1 - t2) * (a ⟨k, hk⟩ * centralSecond (g.delta ⟨k, hk⟩) (U t2) ⟨k, hk⟩ p -
          a ⟨k, hk⟩ * centralSecond (g.delta ⟨k, hk⟩) (U t1) ⟨k, hk⟩ p) else 0)
    (fun k => match k with
      | 0 => (t1 - t2) * (M * ((t1 - t2) / 2 + ∑ d, a d * g.delta d ^ 2 / 12))
      | k + 1 => if hk : k < n then theta * (t1 - t2) * (a ⟨k, hk⟩ * (M * (t1 - t2))) else 0)
    (fun p hp d => heat_faces phi _ hB t1 m1 p hp d) (fun k _ p hp d => heat_faces phi _ hB t2 m2 p hp d)
    (fun p hp => by ring)
    (fun d p hp => by simp only [d.2, dif_pos]) (by
      intro k hk
      rcases k with _ | k
      · refine ⟨mul_nonneg hd (mul_nonneg hM (add_nonneg (by linarith) (Finset.sum_nonneg (fun d _ => hsumd d)))), fun p hp => ?_⟩
        have hx := gridPoint_mem phi _ hB p (inner_lt _ p hp)
        have pde := hS.pde t1 m1 _ hx
        have tay := taylor_bound e s M 2 (fun j t => D j 0 t (gridPoint lo g.delta p)) (fun j hj t ht => hS.time j 0 (by simp; omega) t ht _ hx)
          (fun t ht => hS.bound 2 0 (by simp; omega) t ht _ hx) t1 t2 m1 m2
        simp only [Finset.sum_range_succ, Finset.sum_range_zero, zero_add, pow_zero, mul_one, Nat.factorial, Nat.cast_one, div_one, pow_one, habs] at tay
        norm_num at tay
        have hsp : |∑ d, a d * centralSecond (g.delta d) (U t1) d p - ∑ d, a d * D 0 (Function.update 0 d 2) t1 (gridPoint lo g.delta p)| ≤
            M * ∑ d, a d * g.delta d ^ 2 / 12 := by
          rw [← Finset.sum_sub_distrib, Finset.mul_sum]
          refine (Finset.abs_sum_le_sum_abs _ _).trans (Finset.sum_le_sum (fun d _ => ?_))
          rw [← mul_sub, abs_mul, abs_of_nonneg (hP.nonneg d)]
          refine (mul_le_mul_of_nonneg_left (heat_second_error hS hm phi _ hB t1 m1 p hp d) (hP.nonneg d)).trans (le_of_eq ?_)
          ring
        have e1 : U t1 p = D 0 0 t1 (gridPoint lo g.delta p) := rfl
        have e2 : U t2 p = D 0 0 t2 (gridPoint lo g.delta p) := rfl
        rw [e1, e2]
        generalize ∑ d, a d * centralSecond (g.delta d) (U t1) d p = X at *
        generalize ∑ d, a d * D 0 (Function.update 0 d 2) t1 (gridPoint lo g.delta p) = Y at *
        have id : D 0 0 t1 (gridPoint lo g.delta p) + (t1 - t2) * X - D 0 0 t2 (gridPoint lo g.delta p) =
            -(D 0 0 t2 (gridPoint lo g.delta p) - (D 0 0 t1 (gridPoint lo g.delta p) + D 1 0 t1 (gridPoint lo g.delta p) * (t2 - t1))) + (t1 - t2) * (X - Y) := by
          linear_combination (t1 - t2) * pde
        rw [id]
        refine (abs_add_le _ _).trans ?_
        rw [abs_neg, abs_mul, abs_of_nonneg hd]
        have := mul_le_mul_of_nonneg_left hsp hd
        linarith
      · have hk' : k < n := by omega
        simp only [hk', dif_pos]
        have ha := hP.nonneg ⟨k, hk'⟩
        have hth : 0 ≤ theta * (t1 - t2) := mul_nonneg (by linarith) hd
        refine ⟨by positivity, fun p hp => ?_⟩
        rw [← mul_sub, abs_mul, abs_of_nonneg hth, abs_mul, abs_of_nonneg ha]
        have := heat_change_le hS hm phi _ hB t1 t2 m1 m2 p hp ⟨k, hk'⟩
        rw [habs] at this
        exact mul_le_mul_of_nonneg_left (mul_le_mul_of_nonneg_left this ha) hth)
  refine key.trans (add_le_add_right ?_ _)
  rw [Finset.sum_range_succ', Finset.sum_range]
  simp only [Fin.is_lt, dif_pos, Fin.eta]
  have e3 : ∑ d : Fin n, theta * (t1 - t2) * (a d * (M * (t1 - t2))) = (t1 - t2) * (M * (theta * (t1 - t2) * ∑ d, a d)) := by
    rw [Finset.mul_sum, Finset.mul_sum, Finset.mul_sum]
    exact Finset.sum_congr rfl (fun d _ => by ring)
  rw [e3, ← mul_add, ← mul_add]
  unfold adiTruncation
  have hA : 0 ≤ ∑ d, a d := Finset.sum_nonneg (fun d _ => hP.nonneg d)
  refine mul_le_mul_of_nonneg_left (mul_le_mul_of_nonneg_left ?_ hM) hd
  have : theta * (t1 - t2) * ∑ d, a d ≤ theta * dt * ∑ d, a d := mul_le_mul_of_nonneg_right (mul_le_mul_of_nonneg_left hdt (by linarith)) hA
  linarith

/-- C123, one step with boundary values that do not change. -/
theorem C123_step_stationary (hP : HeatProblem g c a phi) (hS : SmoothHeat D a e s lo hi M m) (hm : 4 ≤ m) (hmn : 2 * n + 1 ≤ m)
    (hB : FillsBox g phi (D 0 0) e s lo hi) (hst : StationaryBoundary (D 0 0) e s lo hi)
    (theta dt t1 t2 : ℝ) (h0 : 1 / 2 ≤ theta) (hth1 : theta ≤ 1) (ht : t2 ≤ t1) (m1 : t1 ∈ Icc e s) (m2 : t2 ∈ Icc e s) (hdt : t1 - t2 ≤ dt)
    (values result : GridIndex n → ℝ) (h : g.step c theta t1 t2 values = some result) :
    rms g.size (fun p => result p - onGridPoints g lo (D 0 0 t2) p) ≤ rms g.size (fun p => values p - onGridPoints g lo (D 0 0 t1) p) +
      (t1 - t2) * adiTruncationStationary a g.delta M theta dt := by
  have hd : 0 ≤ t1 - t2 := sub_nonneg.2 ht
  have hM : 0 ≤ M := heat_bound_nonneg hS t1 m1 (gridPoint lo g.delta (fun _ => 0)) (gridPoint_mem phi _ hB _ (fun d => by have := (hB.proper d).1; omega))
  have habs : |t2 - t1| = t1 - t2 := by rw [abs_sub_comm, abs_of_nonneg hd]
  have hmu : 0 ≤ theta * (t1 - t2) := mul_nonneg (by linarith) hd
  set U := fun t => onGridPoints g lo (D 0 0 t) with hU
  set dU : GridIndex n → ℝ := fun q => U t2 q - U t1 q with hdU
  -- the change vanishes on the boundary
  have hzero : ∀ q, (∀ d, q d < g.size d) → q ∉ innerPoints g.size → dU q = 0 := by
    intro q hq hn
    rw [mem_innerPoints] at hn
    push Not at hn
    obtain ⟨d, hd⟩ := hn
    have hx := gridPoint_mem phi _ hB q hq
    have hbd : ∃ d, gridPoint lo g.delta q d = lo d ∨ gridPoint lo g.delta q d = hi d := by
      refine ⟨d, ?_⟩
      by_cases hz : q d = 0
      · left; unfold gridPoint; rw [hz]; simp
      · right
        have h1 := hd (by omega)
        have h2 := hq d
        unfold gridPoint
        rw [← hB.last d, show q d = g.size d - 1 by omega]
    have := hst t2 m2 t1 m1 _ hx hbd
    show D 0 0 t2 (gridPoint lo g.delta q) - D 0 0 t1 (gridPoint lo g.delta q) = 0
    rw [this, sub_self]
  have hzero_face : ∀ p ∈ innerPoints g.size, ∀ d, dU (Function.update p d 0) = 0 ∧ dU (Function.update p d (g.size d - 1)) = 0 := by
    intro p hp d
    have hs := (hB.proper d).1
    have hlt : ∀ k, k < g.size d → ∀ i, Function.update p d k i < g.size i := by
      intro k hk i
      by_cases hi : i = d
      · subst hi; simpa using hk
      · rw [Function.update_of_ne hi]; exact inner_lt _ p hp i
    constructor
    · refine hzero _ (hlt 0 (by omega)) (fun hc => ?_)
      have := ((mem_innerPoints _).1 hc d).1
      simp at this
    · refine hzero _ (hlt _ (by omega)) (fun hc => ?_)
      have := ((mem_innerPoints _).1 hc d).2
      simp only [Function.update_self] at this
      omega
  -- the stages of the change
  let X : ℕ → InnerSpaceOn g.size := fun j => Nat.rec (restrictInner g.size dU) (fun j x => x - (theta * (t1 - t2)) • lastOp g.size a g.delta j x) j
  have hX0 : X 0 = restrictInner g.size dU := rfl
  have hX : ∀ j, X (j + 1) = X j - (theta * (t1 - t2)) • lastOp g.size a g.delta j (X j) := fun j => rfl
  have hbase : ∀ L : List (Fin n), L.Nodup → ∀ p, |innerSecondOps g.size a g.delta L (X 0) p| ≤ (L.map a).prod * (M * (t1 - t2)) := by
    intro L hL p
    have h1 := innerSecondOps_eq g.size a g.delta (X 0) L hL p.1 (fun d _ => (mem_innerPoints p.1).1 p.2 d)
    rw [extendZero_in] at h1
    have h2 : gridSeconds g.delta L (extendZero (X 0)) p.1 = gridSeconds g.delta L dU p.1 := by
      refine gridSeconds_congr g.delta g.size _ _ (fun q hq => ?_) L p.1 hL (fun d _ => ((mem_innerPoints p.1).1 p.2 d).2) (inner_lt _ p.1 p.2)
      by_cases hm : q ∈ innerPoints g.size
      · exact extendZero_in (X 0) ⟨q, hm⟩
      · rw [extendZero_out _ _ hm, hzero q hq hm]
    rw [h1, h2, abs_mul, abs_of_nonneg (List.prod_nonneg (fun y hy => by
      obtain ⟨d, _, rfl⟩ := List.mem_map.1 hy
      exact hP.nonneg d))]
    refine mul_le_mul_of_nonneg_left ?_ (List.prod_nonneg (fun y hy => by
      obtain ⟨d, _, rfl⟩ := List.mem_map.1 hy
      exact hP.nonneg d))
    have := heat_seconds_le hS hmn phi _ hB t1 t2 m1 m2 L hL p.1 p.2
    rw [habs] at this
    exact this
  have hrem := stage_remainder g.size a g.delta hP.nonneg (theta * (t1 - t2)) (M * (t1 - t2)) hmu (mul_nonneg hM hd) X (fun j _ => hX j) hbase
  have hA : 0 ≤ ∑ d, a d := Finset.sum_nonneg (fun d _ => hP.nonneg d)
  have hH : 0 ≤ ∑ d, a d * g.delta d ^ 2 / 12 := Finset.sum_nonneg (fun d _ => by have := hP.nonneg d; positivity)
  have hadd : ∀ (f k : GridIndex n → ℝ) (d : Fin n) (p : GridIndex n), centralSecond (g.delta d) (fun p => f p + k p) d p =
      centralSecond (g.delta d) f d p + centralSecond (g.delta d) k d p := by
    intro f k d p; unfold centralSecond; ring
  have hsub : ∀ (f k : GridIndex n → ℝ) (d : Fin n) (p : GridIndex n), centralSecond (g.delta d) (fun p => f p - k p) d p =
      centralSecond (g.delta d) f d p - centralSecond (g.delta d) k d p := by
    intro f k d p; unfold centralSecond; ring
  have hout : ∀ p ∈ innerPoints g.size, ∀ d, Function.update p d 0 ∉ innerPoints g.size ∧ Function.update p d (g.size d - 1) ∉ innerPoints g.size := by
    intro p _ d
    constructor
    · intro hc
      have := ((mem_innerPoints _).1 hc d).1
      simp at this
    · intro hc
      have := (mem_innerPoints _).1 hc d
      simp only [Function.update_self] at this
      omega
  have hphi : ∀ p ∈ innerPoints g.size, ∀ d, U t1 (Function.update p d 0) = phi t2 (Function.update p d 0) ∧
      U t1 (Function.update p d (g.size d - 1)) = phi t2 (Function.update p d (g.size d - 1)) := by
    intro p hp d
    have h1 := heat_faces phi _ hB t2 m2 p hp d
    have h2 := hzero_face p hp d
    exact ⟨by rw [← h1.1]; exact (sub_eq_zero.1 h2.1).symm, by rw [← h1.2]; exact (sub_eq_zero.1 h2.2).symm⟩
  have key := heat_step_error hP hB.proper theta t1 t2 h0 ht values result h (U t1) (fun k q => U t1 q + extendZero (X (n - k)) q)
    (fun k p => match k with
      | 0 => (t1 - t2) * ∑ d, a d * centralSecond (g.delta d) (U t1) d p - extendZero (X n) p
      | _ + 1 => 0)
    (fun k => match k with
      | 0 => (t1 - t2) * adiTruncationStationary a g.delta M theta dt
      | _ + 1 => 0)
    (fun p hp d => heat_faces phi _ hB t1 m1 p hp d)
    (fun k _ p hp d => by
      rw [extendZero_out _ _ (hout p hp d).1, extendZero_out _ _ (hout p hp d).2, add_zero, add_zero]
      exact hphi p hp d)
    (fun p hp => by simp only [Nat.sub_zero]; ring)
    (fun d p hp => by
      have hdn := d.2
      have h1 := hX (n - (d + 1))
      rw [show n - ((d : ℕ) + 1) + 1 = n - d by omega] at h1
      have hi : n - 1 - (n - ((d : ℕ) + 1)) < n := by omega
      have hop : lastOp g.size a g.delta (n - (d + 1)) = innerSecondOp g.size (a d) (g.delta d) d := by
        unfold lastOp
        rw [dif_pos hi]
        have : (⟨n - 1 - (n - ((d : ℕ) + 1)), hi⟩ : Fin n) = d := by ext; simp only; omega
        rw [this]
      have h2 : extendZero (X (n - d)) p = extendZero (X (n - (d + 1))) p - theta * (t1 - t2) * (a d * centralSecond (g.delta d) (extendZero (X (n - (d + 1)))) d p) := by
        have e1 := extendZero_in (X (n - d)) ⟨p, hp⟩
        have e2 := extendZero_in (X (n - (d + 1))) ⟨p, hp⟩
        simp only at e1 e2
        rw [e1, e2, h1, hop, PiLp.sub_apply, PiLp.smul_apply, smul_eq_mul, innerSecondOp_apply]
      simp only [hadd]
      rw [h2]
      ring)
    (by
      intro k hk
      rcases k with _ | k
      · have hnn : 0 ≤ adiTruncationStationary a g.delta M theta dt := by
          unfold adiTruncationStationary
          refine mul_nonneg hM ?_
          have : 0 ≤ (theta - 1 / 2) * dt := mul_nonneg (by linarith) (by linarith)
          have : 0 ≤ (theta * dt * ∑ d, a d) ^ 2 * Real.exp (theta * dt * ∑ d, a d) := by positivity
          have : 0 ≤ dt ^ 2 / 6 := by positivity
          linarith
        refine ⟨mul_nonneg hd hnn, fun p hp => ?_⟩
        have hx := gridPoint_mem phi _ hB p (inner_lt _ p hp)
        have r1 := hrem ⟨p, hp⟩
        have e1 := extendZero_in (X n) ⟨p, hp⟩
        simp only at e1
        have e2 : (∑ d, innerSecondOp g.size (a d) (g.delta d) d (X 0)) ⟨p, hp⟩ =
            ∑ d, a d * centralSecond (g.delta d) (U t2) d p - ∑ d, a d * centralSecond (g.delta d) (U t1) d p := by
          rw [WithLp.ofLp_sum, Finset.sum_apply, ← Finset.sum_sub_distrib]
          refine Finset.sum_congr rfl (fun d _ => ?_)
          rw [hX0, second_vanishing g.size (a d) (g.delta d) d dU ⟨p, hp⟩ (hzero_face p hp d).1 (hzero_face p hp d).2, hdU, hsub]
          ring
        have e3 : X 0 ⟨p, hp⟩ = U t2 p - U t1 p := rfl
        rw [PiLp.add_apply, PiLp.sub_apply, PiLp.smul_apply, smul_eq_mul, e2, e3, ← e1] at r1
        have hsp : ∀ t ∈ Icc e s, |∑ d, a d * centralSecond (g.delta d) (U t) d p - ∑ d, a d * D 0 (Function.update 0 d 2) t (gridPoint lo g.delta p)| ≤
            M * ∑ d, a d * g.delta d ^ 2 / 12 := by
          intro t mt
          rw [← Finset.sum_sub_distrib, Finset.mul_sum]
          refine (Finset.abs_sum_le_sum_abs _ _).trans (Finset.sum_le_sum (fun d _ => ?_))
          rw [← mul_sub, abs_mul, abs_of_nonneg (hP.nonneg d)]
          refine (mul_le_mul_of_nonneg_left (heat_second_error hS hm phi _ hB t mt p hp d) (hP.nonneg d)).trans (le_of_eq ?_)
          ring
        have s1 := hsp t1 m1
        have s2 := hsp t2 m2
        have pde1 := hS.pde t1 m1 _ hx
        have pde2 := hS.pde t2 m2 _ hx
        have av := average_error e s M M (1 - theta) dt t1 t2 (fun j t => D (j + 1) 0 t (gridPoint lo g.delta p))
          (fun j hj t ht => hS.time (j + 1) 0 (by simp; omega) t ht _ hx) (fun t ht => hS.bound 2 0 (by simp; omega) t ht _ hx)
          (fun t ht => hS.bound 3 0 (by simp; omega) t ht _ hx) (by linarith) (by linarith) m1 m2 ht hdt
        have ce := central_error e s M t1 t2 (fun j t => D j 0 t (gridPoint lo g.delta p)) (fun j hj t ht => hS.time j 0 (by simp; omega) t ht _ hx)
          (fun t ht => hS.bound 3 0 (by simp; omega) t ht _ hx) m1 m2 ht
        have u1 : U t1 p = D 0 0 t1 (gridPoint lo g.delta p) := rfl
        have u2 : U t2 p = D 0 0 t2 (gridPoint lo g.delta p) := rfl
        simp only [zero_add] at av ce
        simp only
        generalize ∑ d, a d * centralSecond (g.delta d) (U t1) d p = X1 at *
        generalize ∑ d, a d * centralSecond (g.delta d) (U t2) d p = X2 at *
        generalize ∑ d, a d * D 0 (Function.update 0 d 2) t1 (gridPoint lo g.delta p) = Y1 at *
        generalize ∑ d, a d * D 0 (Function.update 0 d 2) t2 (gridPoint lo g.delta p) = Y2 at *
        rw [u1, u2] at r1
        generalize extendZero (X n) p = Xn at *
        generalize D 0 0 t1 (gridPoint lo g.delta p) = v1 at *
        generalize D 0 0 t2 (gridPoint lo g.delta p) = v2 at *
        generalize D 1 0 t1 (gridPoint lo g.delta p) = w1 at *
        generalize D 1 0 t2 (gridPoint lo g.delta p) = w2 at *
        generalize D 1 0 ((t1 + t2) / 2) (gridPoint lo g.delta p) = wm at *
        have id : (t1 - t2) * X1 - Xn = (v1 - v2 - (t1 - t2) * wm) - (t1 - t2) * ((1 - theta) * w1 + (1 - (1 - theta)) * w2 - wm) +
            (t1 - t2) * ((1 - theta) * (X1 - Y1) + theta * (X2 - Y2)) - (Xn - (v2 - v1) + theta * (t1 - t2) * (X2 - X1)) := by
          linear_combination (t1 - t2) * (1 - theta) * pde1 + (t1 - t2) * theta * pde2
        rw [id]
        have b3 : |(t1 - t2) * ((1 - theta) * (X1 - Y1) + theta * (X2 - Y2))| ≤ (t1 - t2) * (M * ∑ d, a d * g.delta d ^ 2 / 12) := by
          rw [abs_mul, abs_of_nonneg hd]
          refine mul_le_mul_of_nonneg_left ((abs_add_le _ _).trans ?_) hd
          rw [abs_mul, abs_mul, abs_of_nonneg (show 0 ≤ 1 - theta by linarith), abs_of_nonneg (show 0 ≤ theta by linarith)]
          have k1 := mul_le_mul_of_nonneg_left s1 (show 0 ≤ 1 - theta by linarith)
          have k2 := mul_le_mul_of_nonneg_left s2 (show 0 ≤ theta by linarith)
          linarith
        have b2 : |(t1 - t2) * ((1 - theta) * w1 + (1 - (1 - theta)) * w2 - wm)| ≤ (t1 - t2) * (M * ((theta - 1 / 2) * dt + dt ^ 2 / 8)) := by
          rw [abs_mul, abs_of_nonneg hd]
          refine mul_le_mul_of_nonneg_left (av.trans (le_of_eq ?_)) hd
          unfold averageError
          rw [abs_of_nonpos (by linarith)]
          ring
        have b1 : |v1 - v2 - (t1 - t2) * wm| ≤ (t1 - t2) * (M * (dt ^ 2 / 24)) := by
          refine ce.trans (mul_le_mul_of_nonneg_left ?_ hd)
          have : (t1 - t2) ^ 2 ≤ dt ^ 2 := pow_le_pow_left₀ hd hdt 2
          have := mul_le_mul_of_nonneg_left this hM
          linarith
        have b4 : |Xn - (v2 - v1) + theta * (t1 - t2) * (X2 - X1)| ≤
            (t1 - t2) * (M * ((theta * dt * ∑ d, a d) ^ 2 * Real.exp (theta * dt * ∑ d, a d))) := by
          have hle : theta * (t1 - t2) * ∑ d, a d ≤ theta * dt * ∑ d, a d := mul_le_mul_of_nonneg_right (mul_le_mul_of_nonneg_left hdt (by linarith)) hA
          have hle2 : (theta * (t1 - t2) * ∑ d, a d) ^ 2 * Real.exp (theta * (t1 - t2) * ∑ d, a d) ≤
              (theta * dt * ∑ d, a d) ^ 2 * Real.exp (theta * dt * ∑ d, a d) :=
            mul_le_mul (pow_le_pow_left₀ (mul_nonneg hmu hA) hle 2) (Real.exp_le_exp.2 hle) (Real.exp_pos _).le (by positivity)
          refine r1.trans ?_
          have := mul_le_mul_of_nonneg_left hle2 (mul_nonneg hM hd)
          linarith
        unfold adiTruncationStationary
        have t1' := abs_sub ((v1 - v2 - (t1 - t2) * wm) - (t1 - t2) * ((1 - theta) * w1 + (1 - (1 - theta)) * w2 - wm) +
            (t1 - t2) * ((1 - theta) * (X1 - Y1) + theta * (X2 - Y2))) (Xn - (v2 - v1) + theta * (t1 - t2) * (X2 - X1))
        have t2' := abs_add_le ((v1 - v2 - (t1 - t2) * wm) - (t1 - t2) * ((1 - theta) * w1 + (1 - (1 - theta)) * w2 - wm))
            ((t1 - t2) * ((1 - theta) * (X1 - Y1) + theta * (X2 - Y2)))
        have t3' := abs_sub (v1 - v2 - (t1 - t2) * wm) ((t1 - t2) * ((1 - theta) * w1 + (1 - (1 - theta)) * w2 - wm))
        linarith
      · exact ⟨le_rfl, fun p _ => by simp⟩)
  have hlast : ∑ k ∈ Finset.range (n + 1), (match k with
      | 0 => (t1 - t2) * adiTruncationStationary a g.delta M theta dt
      | _ + 1 => 0) = (t1 - t2) * adiTruncationStationary a g.delta M theta dt := by
    rw [Finset.sum_range_succ']
    simp
  rw [hlast] at key
  refine le_of_eq_of_le (rms_congr _ _ _ (fun p hp => ?_)) key
  have e1 := extendZero_in (X 0) ⟨p, hp⟩
  simp only at e1
  rw [Nat.sub_self, e1]
  show result p - U t2 p = result p - (U t1 p + (U t2 p - U t1 p))
  ring

/-- C123, error of `solve_backward` with the Douglas scheme: the mean square error at the end is at most that of the values at the start plus the
truncation error, which is of the first order in the time step and of the second order in the grid. -/
theorem C123_error (hP : HeatProblem g c a phi) (hS : SmoothHeat D a e s lo hi M m) (hm : 4 ≤ m) (hB : FillsBox g phi (D 0 0) e s lo hi)
    (he : 0 ≤ e) (hes : e < s) (theta : ℝ) (h0 : 1 / 2 ≤ theta) (h1 : theta ≤ 1) (N k0 : ℕ) (hN : 0 < N) (values : GridIndex n → ℝ) :
    ∃ w, solveBackward s e values (some N) k0 none (adiStep g c theta) none = some (w, e, k0 + N) ∧
      rms g.size (fun p => w p - onGridPoints g lo (D 0 0 e) p) ≤ rms g.size (fun p => values p - onGridPoints g lo (D 0 0 s) p) +
        (s - e) * adiTruncation a g.delta M theta ((s - e) / N) := by
  have hT := timeGrid_equal e s hes N hN
  obtain ⟨w, hw, hwe⟩ := march_growth (adiStep g c theta) (fun t v => rms g.size (fun p => v p - onGridPoints g lo (D 0 0 t) p)) e s _ _
    (fun t1 t2 k v m1 m2 ht hdt => by
      obtain ⟨r, hr⟩ := Option.isSome_iff_exists.1 ((C64_theta g c theta t1 t2 v).2 ⟨by linarith, h1⟩)
      exact ⟨r, hr, C123_step hP hS hm hB theta _ t1 t2 h0 ht m1 m2 hdt v r hr⟩) _ N k0 hT N 0 (by omega) values
  rw [hT.first] at hwe
  exact ⟨w, by rw [C47_backward_steps s e he hes N hN, hw]; rfl, hwe⟩

theorem C123_error_dt (hP : HeatProblem g c a phi) (hS : SmoothHeat D a e s lo hi M m) (hm : 4 ≤ m) (hB : FillsBox g phi (D 0 0) e s lo hi)
    (he : 0 ≤ e) (hes : e < s) (theta dt : ℝ) (h0 : 1 / 2 ≤ theta) (h1 : theta ≤ 1) (hdt : 0 < dt) (k0 : ℕ) (values : GridIndex n → ℝ) :
    ∃ w, solveBackward s e values none k0 (some (.const dt)) (adiStep g c theta) none = some (w, e, k0 + ⌈(s - e) / dt⌉.toNat) ∧
      rms g.size (fun p => w p - onGridPoints g lo (D 0 0 e) p) ≤ rms g.size (fun p => values p - onGridPoints g lo (D 0 0 s) p) +
        (s - e) * adiTruncation a g.delta M theta dt := by
  have hT := timeGrid_dt e s dt hes hdt
  obtain ⟨w, hw, hwe⟩ := march_growth (adiStep g c theta) (fun t v => rms g.size (fun p => v p - onGridPoints g lo (D 0 0 t) p)) e s _ _
    (fun t1 t2 k v m1 m2 ht hdt => by
      obtain ⟨r, hr⟩ := Option.isSome_iff_exists.1 ((C64_theta g c theta t1 t2 v).2 ⟨by linarith, h1⟩)
      exact ⟨r, hr, C123_step hP hS hm hB theta _ t1 t2 h0 ht m1 m2 hdt v r hr⟩) _ _ k0 hT _ 0 (zero_add _) values
  rw [hT.first] at hwe
  exact ⟨w, by rw [C47_backward_dt s e dt he hes.le hdt, hw]; rfl, hwe⟩

/-- C123 with boundary values that do not change: for the weight one half of the default scheme the error is of the second order in the time step as well. -/
theorem C123_error_stationary (hP : HeatProblem g c a phi) (hS : SmoothHeat D a e s lo hi M m) (hm : 4 ≤ m) (hmn : 2 * n + 1 ≤ m)
    (hB : FillsBox g phi (D 0 0) e s lo hi) (hst : StationaryBoundary (D 0 0) e s lo hi) (he : 0 ≤ e) (hes : e < s) (theta : ℝ) (h0 : 1 / 2 ≤ theta) (h1 : theta ≤ 1)
    (N k0 : ℕ) (hN : 0 < N) (values : GridIndex n → ℝ) :
    ∃ w, solveBackward s e values (some N) k0 none (adiStep g c theta) none = some (w, e, k0 + N) ∧
      rms g.size (fun p => w p - onGridPoints g lo (D 0 0 e) p) ≤ rms g.size (fun p => values p - onGridPoints g lo (D 0 0 s) p) +
        (s - e) * adiTruncationStationary a g.delta M theta ((s - e) / N) := by
  have hT := timeGrid_equal e s hes N hN
  obtain ⟨w, hw, hwe⟩ := march_growth (adiStep g c theta) (fun t v => rms g.size (fun p => v p - onGridPoints g lo (D 0 0 t) p)) e s _ _
    (fun t1 t2 k v m1 m2 ht hdt => by
      obtain ⟨r, hr⟩ := Option.isSome_iff_exists.1 ((C64_theta g c theta t1 t2 v).2 ⟨by linarith, h1⟩)
      exact ⟨r, hr, C123_step_stationary hP hS hm hmn hB hst theta _ t1 t2 h0 h1 ht m1 m2 hdt v r hr⟩) _ N k0 hT N 0 (by omega) values
  rw [hT.first] at hwe
  exact ⟨w, by rw [C47_backward_steps s e he hes N hN, hw]; rfl, hwe⟩

theorem C123_error_stationary_dt (hP : HeatProblem g c a phi) (hS : SmoothHeat D a e s lo hi M m) (hm : 4 ≤ m) (hmn : 2 * n + 1 ≤ m)
    (hB : FillsBox g phi (D 0 0) e s lo hi) (hst : StationaryBoundary (D 0 0) e s lo hi) (he : 0 ≤ e) (hes : e < s) (theta dt : ℝ) (h0 : 1 / 2 ≤ theta) (h1 : theta ≤ 1)
    (hdt : 0 < dt) (k0 : ℕ) (values : GridIndex n → ℝ) :
    ∃ w, solveBackward s e values none k0 (some (.const dt)) (adiStep g c theta) none = some (w, e, k0 + ⌈(s - e) / dt⌉.toNat) ∧
      rms g.size (fun p => w p - onGridPoints g lo (D 0 0 e) p) ≤ rms g.size (fun p => values p - onGridPoints g lo (D 0 0 s) p) +
        (s - e) * adiTruncationStationary a g.delta M theta dt := by
  have hT := timeGrid_dt e s dt hes hdt
  obtain ⟨w, hw, hwe⟩ := march_growth (adiStep g c theta) (fun t v => rms g.size (fun p => v p - onGridPoints g lo (D 0 0 t) p)) e s _ _
    (fun t1 t2 k v m1 m2 ht hdt => by
      obtain ⟨r, hr⟩ := Option.isSome_iff_exists.1 ((C64_theta g c theta t1 t2 v).2 ⟨by linarith, h1⟩)
      exact ⟨r, hr, C123_step_stationary hP hS hm hmn hB hst theta _ t1 t2 h0 h1 ht m1 m2 hdt v r hr⟩) _ _ k0 hT _ 0 (zero_add _) values
  rw [hT.first] at hwe
  exact ⟨w, by rw [C47_backward_dt s e dt he hes.le hdt, hw]; rfl, hwe⟩

end smooth

/-! An example in any number of dimensions: the product of sines. -/

/-- Derivatives of `exp (A t) * prod_d sin (x_d)`, with `A` the sum of the coefficients. -/
noncomputable def sineHeat (a : Fin n → ℝ) (j : ℕ) (k : Fin n → ℕ) (t : ℝ) (x : Fin n → ℝ) : ℝ :=
  (∑ d, a d) ^ j * Real.exp ((∑ d, a d) * t) * ∏ d, Real.sin (x d + k d * (Real.pi / 2))

theorem sineHeat_smooth (a : Fin n → ℝ) (ha : ∀ d, 0 ≤ a d) (e s : ℝ) (lo hi : Fin n → ℝ) (m : ℕ) :
    SmoothHeat (sineHeat a) a e s lo hi ((1 + ∑ d, a d) ^ m * Real.exp ((∑ d, a d) * s)) m := by
  have hA : 0 ≤ ∑ d, a d := Finset.sum_nonneg (fun d _ => ha d)
  refine ⟨?_, ?_, ?_, ?_⟩
  · intro j k d _ t _ x _
    have h1 : ∀ (k : Fin n → ℕ) (y : ℝ), sineHeat a j k t (Function.update x d y) = (∑ d, a d) ^ j * Real.exp ((∑ d, a d) * t) *
        (Real.sin (y + k d * (Real.pi / 2)) * ∏ i ∈ Finset.univ.erase d, Real.sin (x i + k i * (Real.pi / 2))) := by
      intro k y
      unfold sineHeat
      rw [← Finset.mul_prod_erase Finset.univ _ (Finset.mem_univ d), Function.update_self]
      congr 2
      exact Finset.prod_congr rfl (fun i hi => by rw [Function.update_of_ne (Finset.ne_of_mem_erase hi)])
    have h2 : sineHeat a j (Function.update k d (k d + 1)) t x = (∑ d, a d) ^ j * Real.exp ((∑ d, a d) * t) *
        (Real.cos (x d + k d * (Real.pi / 2)) * ∏ i ∈ Finset.univ.erase d, Real.sin (x i + k i * (Real.pi / 2))) := by
      have := h1 (Function.update k d (k d + 1)) (x d)
      rw [Function.update_eq_self] at this
      rw [this, Function.update_self]
      congr 2
      · rw [← Real.sin_add_pi_div_two]
        push_cast
        ring_nf
      · exact Finset.prod_congr rfl (fun i hi => by rw [Function.update_of_ne (Finset.ne_of_mem_erase hi)])
    rw [h2]
    have h3 := ((HasDerivAt.sin ((hasDerivAt_id (x d)).add_const ((k d : ℝ) * (Real.pi / 2)))).mul_const
      (∏ i ∈ Finset.univ.erase d, Real.sin (x i + k i * (Real.pi / 2)))).const_mul ((∑ d, a d) ^ j * Real.exp ((∑ d, a d) * t))
    simp only [id, mul_one] at h3
    refine h3.hasDerivWithinAt.congr (fun y _ => h1 k y) ?_
    exact h1 k (x d)
  · intro j k _ t _ x _
    have h3 := (((HasDerivAt.exp ((hasDerivAt_id t).const_mul (∑ d, a d))).const_mul ((∑ d, a d) ^ j)).mul_const (∏ d, Real.sin (x d + k d * (Real.pi / 2))))
    simp only [id, mul_one] at h3
    have h4 : sineHeat a (j + 1) k t x = (∑ d, a d) ^ j * (Real.exp ((∑ d, a d) * t) * ∑ d, a d) * ∏ d, Real.sin (x d + k d * (Real.pi / 2)) := by
      unfold sineHeat; rw [pow_succ]; ring
    rw [h4]
    exact h3.hasDerivWithinAt
  · intro j k hjk t ht x _
    unfold sineHeat
    have hprod : |∏ d, Real.sin (x d + k d * (Real.pi / 2))| ≤ 1 := by
      rw [Finset.abs_prod]
      exact Finset.prod_le_one (fun d _ => abs_nonneg _) (fun d _ => Real.abs_sin_le_one _)
    rw [abs_mul, abs_of_nonneg (mul_nonneg (pow_nonneg hA j) (Real.exp_pos _).le)]
    have h1 : (∑ d, a d) ^ j ≤ (1 + ∑ d, a d) ^ m :=
      (pow_le_pow_left₀ hA (by linarith) j).trans (pow_le_pow_right₀ (by linarith) (by omega))
    have h2 : Real.exp ((∑ d, a d) * t) ≤ Real.exp ((∑ d, a d) * s) := Real.exp_le_exp.2 (mul_le_mul_of_nonneg_left ht.2 hA)
    calc _ ≤ (∑ d, a d) ^ j * Real.exp ((∑ d, a d) * t) * 1 := mul_le_mul_of_nonneg_left hprod (mul_nonneg (pow_nonneg hA j) (Real.exp_pos _).le)
      _ ≤ _ := by rw [mul_one]; exact mul_le_mul h1 h2 (Real.exp_pos _).le (by positivity)
  · intro t _ x _
    have h1 : ∀ d, sineHeat a 0 (Function.update 0 d 2) t x = -sineHeat a 0 0 t x := by
      intro d
      unfold sineHeat
      rw [← Finset.mul_prod_erase Finset.univ _ (Finset.mem_univ d), ← Finset.mul_prod_erase Finset.univ _ (Finset.mem_univ d), Function.update_self]
      have h2 : ∏ i ∈ Finset.univ.erase d, Real.sin (x i + ((Function.update (0 : Fin n → ℕ) d 2 i : ℕ) : ℝ) * (Real.pi / 2)) =
          ∏ i ∈ Finset.univ.erase d, Real.sin (x i + (((0 : Fin n → ℕ) i : ℕ) : ℝ) * (Real.pi / 2)) :=
        Finset.prod_congr rfl (fun i hi => by rw [Function.update_of_ne (Finset.ne_of_mem_erase hi)])
      rw [h2]
      have h3 : Real.sin (x d + ((2 : ℕ) : ℝ) * (Real.pi / 2)) = -Real.sin (x d + (((0 : Fin n → ℕ) d : ℕ) : ℝ) * (Real.pi / 2)) := by
        rw [show x d + ((2 : ℕ) : ℝ) * (Real.pi / 2) = x d + Real.pi by push_cast; ring, Real.sin_add_pi]
        simp
      rw [h3]
      ring
    simp only [h1]
    rw [← Finset.sum_mul]
    unfold sineHeat
    simp only [pow_one, pow_zero]
    ring

/-- The grid on the cube of side `pi` with `k + 4` points in each dimension and the value zero on the boundary. -/
noncomputable def sineGrid (n k : ℕ) : AdiGrid n ℝ where
  size := fun _ => k + 4
  delta := fun _ => Real.pi / (k + 3)
  lower := fun _ => some (fun _ => ⟨some (fun _ => 1), none, fun _ => 0⟩)
  upper := fun _ => some (fun _ => ⟨some (fun _ => 1), none, fun _ => 0⟩)

/-- Constant coefficients of the pure second derivatives. -/
def sineCoeffs (a : Fin n → ℝ) : ℝ → AdiCoeffs n ℝ := fun _ =>
  ⟨fun i j => if i = j then some (fun _ => a i) else none, fun _ => none, none, fun _ _ => none, fun _ => none⟩

theorem sine_problem (a : Fin n → ℝ) (ha : ∀ d, 0 ≤ a d) (k : ℕ) : HeatProblem (sineGrid n k) (sineCoeffs a) a (fun _ _ => 0) where
  lower := fun d => ⟨_, rfl, fun t q => ⟨1, one_ne_zero, by simp [conditionAt]⟩⟩
  upper := fun d => ⟨_, rfl, fun t q => ⟨1, one_ne_zero, by simp [conditionAt]⟩⟩
  nonneg := ha
  second := fun t d => by simp [sineCoeffs]
  mixed := fun t i j h => by simp [sineCoeffs, ne_of_lt h]
  first := fun t d => rfl
  zeroth := fun t => rfl
  innerSecond := fun t i j => rfl
  innerFirst := fun t d => rfl

theorem sine_boundary (a : Fin n → ℝ) (t : ℝ) (x : Fin n → ℝ) (h : ∃ d, x d = 0 ∨ x d = Real.pi) : sineHeat a 0 0 t x = 0 := by
  obtain ⟨d, hd⟩ := h
  unfold sineHeat
  rw [Finset.prod_eq_zero (Finset.mem_univ d), mul_zero]
  rcases hd with hd | hd <;> rw [hd] <;> simp

theorem sine_fills (a : Fin n → ℝ) (k : ℕ) (e s : ℝ) : FillsBox (sineGrid n k) (fun _ _ => 0) (sineHeat a 0 0) e s (fun _ => 0) (fun _ => Real.pi) where
  proper := fun d => ⟨by simp [sineGrid], by
    have := Real.pi_pos
    simp only [sineGrid]
    positivity⟩
  last := fun d => by
    simp only [sineGrid]
    rw [show k + 4 - 1 = k + 3 by omega]
    push_cast
    field_simp
    ring
  values := fun t _ q _ hq => by
    unfold onGridPoints
    refine (sine_boundary a t _ ?_).symm
    obtain ⟨d, hd⟩ := hq
    refine ⟨d, ?_⟩
    simp only [sineGrid] at hd ⊢
    rcases hd with hd | hd
    · left; rw [hd]; simp
    · right
      rw [hd, show k + 4 - 1 = k + 3 by omega]
      push_cast
      field_simp
      ring

/-- For the product of sines in three dimensions the solver with default weight converges to the solution, with the second order in both steps. -/
example (k N : ℕ) (hN : 0 < N) : ∃ w, solveBackward 1 0 (onGridPoints (sineGrid 3 k) (fun _ => 0) (sineHeat (fun _ => 1 / 2) 0 0 1)) (some N) 0 none
    (adiStep (sineGrid 3 k) (sineCoeffs (fun _ => 1 / 2)) (1 / 2)) none = some (w, 0, 0 + N) ∧
    rms (sineGrid 3 k).size (fun p => w p - onGridPoints (sineGrid 3 k) (fun _ => 0) (sineHeat (fun _ => 1 / 2) 0 0 0) p) ≤
      (5 / 2) ^ 7 * Real.exp (3 / 2) * ((1 / N) ^ 2 / 6 + (Real.pi / (k + 3)) ^ 2 / 8 + (3 / 4 * (1 / N)) ^ 2 * Real.exp (3 / 4 * (1 / N))) := by
  have ha : ∀ d : Fin 3, (0 : ℝ) ≤ (fun _ => 1 / 2 : Fin 3 → ℝ) d := fun d => by norm_num
  obtain ⟨w, hw, hwe⟩ := C123_error_stationary (sine_problem _ ha k) (sineHeat_smooth _ ha 0 1 (fun _ => 0) (fun _ => Real.pi) 7) (by norm_num) (by norm_num)
    (sine_fills _ k 0 1) (fun t _ t' _ x _ hx => by rw [sine_boundary _ t x hx, sine_boundary _ t' x hx]) le_rfl one_pos (1 / 2) le_rfl (by norm_num) N 0 hN
    (onGridPoints (sineGrid 3 k) (fun _ => 0) (sineHeat (fun _ => 1 / 2) 0 0 1))
  refine ⟨w, hw, hwe.trans (le_of_eq ?_)⟩
  have h0 : rms (sineGrid 3 k).size (fun p => onGridPoints (sineGrid 3 k) (fun _ => 0) (sineHeat (fun _ => 1 / 2) 0 0 1) p -
      onGridPoints (sineGrid 3 k) (fun _ => 0) (sineHeat (fun _ => 1 / 2) 0 0 1) p) = 0 := by simp [rms]
  rw [h0]
  unfold adiTruncationStationary
  simp only [Fin.sum_univ_three, sineGrid]
  ring_nf

end Props
