import Verif.Model.RateCalibration
import Verif.Props.SabrCalibration
import Mathlib.LinearAlgebra.Matrix.PosDef
import Mathlib.Analysis.Matrix.Order
import Mathlib.Analysis.SpecialFunctions.Trigonometric.Inverse
import Mathlib.Analysis.SpecialFunctions.Complex.Arg

/-! C96: calibration of the Hull-White and Heath-Jarrow-Morton models. -/

namespace Props
open Model

/-- A unit vector by its angles. -/
noncomputable def sphere : List ℝ → List ℝ
  | [] => [1]
  | θ :: θs => Real.cos θ :: (sphere θs).map (fun c => Real.sin θ * c)

theorem sphere_length (θs : List ℝ) : (sphere θs).length = θs.length + 1 := by
  induction θs with
  | nil => rfl
  | cons a l ih => simp [sphere, ih]

theorem zip_cumprod (θs : List ℝ) (acc : ℝ) :
    (List.zip (θs.map Real.cos ++ [1]) (acc :: cumprodFrom acc (θs.map Real.sin))).map (fun e => e.1 * e.2) =
      (sphere θs).map (fun c => acc * c) := by
  induction θs generalizing acc with
  | nil => simp [sphere, cumprodFrom]
  | cons a l ih =>
    have := ih (acc * Real.sin a)
    simp only [List.map_cons, List.cons_append, cumprodFrom, List.zip_cons_cons, sphere, List.map_map] at this ⊢
    rw [this, mul_comm]
    congr 1
    apply List.map_congr_left
    intro c _
    simp only [Function.comp]
    ring

theorem cumprodFrom_length (acc : ℝ) (l : List ℝ) : (cumprodFrom acc l).length = l.length := by
  induction l generalizing acc with
  | nil => rfl
  | cons a l ih => simp [cumprodFrom, ih]

theorem hyperRow_eq (n : Nat) (θs : List ℝ) (h : θs.length + 1 = n) : hyperRow n θs = sphere θs := by
  have key : hyperRow n θs =
      (List.zip (θs.map Real.cos ++ [1]) (1 :: cumprodFrom 1 (θs.map Real.sin))).map (fun e => e.1 * e.2) := by
    unfold hyperRow
    apply List.ext_getElem
    · simp
    · intro j h1 h2
      simp only [List.getElem_map, List.getElem_zipIdx, List.getElem_zip, zero_add]
      split
      · rfl
      · rename_i hj
        simp only [List.length_map, List.length_zip, List.length_append, List.length_cons, cumprodFrom_length] at h2
        have hj' : j = θs.length := by simp at h2; omega
        subst hj'
        rw [List.getElem_append_right (by simp)]
        simp
  rw [key, zip_cumprod]
  simp

theorem sphere_unit (θs : List ℝ) : ((sphere θs).map (fun c => c ^ 2)).sum = 1 := by
  have scale : ∀ (a : ℝ) (l : List ℝ), ((l.map (fun c => a * c)).map (fun c => c ^ 2)).sum = a ^ 2 * (l.map (fun c => c ^ 2)).sum := by
    intro a l
    induction l with
    | nil => simp
    | cons b l ih => simp only [List.map_cons, List.sum_cons, ih]; ring
  induction θs with
  | nil => simp [sphere]
  | cons a l ih =>
    rw [sphere, List.map_cons, List.sum_cons, scale, ih]
    have := Real.cos_sq_add_sin_sq a
    linarith

theorem angle_of_unit (c s : ℝ) (h : c ^ 2 + s ^ 2 = 1) : ∃ θ, 0 < θ ∧ θ ≤ 2 * Real.pi ∧ Real.cos θ = c ∧ Real.sin θ = s := by
  have hpi := Real.pi_pos
  have hn : ‖(⟨c, s⟩ : ℂ)‖ = 1 := by
    rw [Complex.norm_def, Complex.normSq_mk, show c * c + s * s = 1 by nlinarith, Real.sqrt_one]
  have hz : (⟨c, s⟩ : ℂ) ≠ 0 := by
    intro h0; rw [h0, norm_zero] at hn; norm_num at hn
  have hc : Real.cos (Complex.arg ⟨c, s⟩) = c := by rw [Complex.cos_arg hz, hn]; simp
  have hs : Real.sin (Complex.arg ⟨c, s⟩) = s := by rw [Complex.sin_arg, hn]; simp
  have h1 := Complex.neg_pi_lt_arg ⟨c, s⟩
  have h2 := Complex.arg_le_pi ⟨c, s⟩
  by_cases hp : 0 < Complex.arg ⟨c, s⟩
  · exact ⟨_, hp, by linarith, hc, hs⟩
  · exact ⟨Complex.arg ⟨c, s⟩ + 2 * Real.pi, by linarith, by linarith, by rw [Real.cos_add_two_pi, hc], by rw [Real.sin_add_two_pi, hs]⟩

theorem sum_sq_zero (l : List ℝ) (h : (l.map (fun c => c ^ 2)).sum = 0) : ∀ c ∈ l, c = 0 := by
  induction l with
  | nil => simp
  | cons a l ih =>
    have hn : 0 ≤ (l.map (fun c => c ^ 2)).sum := List.sum_nonneg (by simp only [List.mem_map]; rintro x ⟨y, _, rfl⟩; positivity)
    simp only [List.map_cons, List.sum_cons] at h
    intro c hc
    rcases List.mem_cons.1 hc with rfl | hc
    · nlinarith [sq_nonneg c]
    · exact ih (by nlinarith [sq_nonneg a]) c hc

/-- Every unit vector with at least two coordinates has angles. -/
theorem sphere_onto (m : Nat) (b : List ℝ) (hb : b.length = m + 2) (h : (b.map (fun c => c ^ 2)).sum = 1) :
    ∃ θs : List ℝ, θs.length = m + 1 ∧ (∀ θ ∈ θs, 0 < θ ∧ θ ≤ 2 * Real.pi) ∧ sphere θs = b := by
  induction m generalizing b with
  | zero =>
    match b, hb with
    | [c, s], _ =>
      obtain ⟨θ, h1, h2, h3, h4⟩ := angle_of_unit c s (by simpa using h)
      exact ⟨[θ], rfl, by simp [h1, h2], by simp [sphere, h3, h4]⟩
  | succ m ih =>
    match b, hb with
    | c :: rest, hb =>
      have hr : rest.length = m + 2 := by simpa using hb
      have hpi := Real.pi_pos
      simp only [List.map_cons, List.sum_cons] at h
      have hn : 0 ≤ (rest.map (fun c => c ^ 2)).sum :=
        List.sum_nonneg (by simp only [List.mem_map]; rintro x ⟨y, _, rfl⟩; positivity)
      obtain ⟨θ, h1, h2, h3, h4⟩ := angle_of_unit c (Real.sqrt (rest.map (fun c => c ^ 2)).sum) (by rw [Real.sq_sqrt hn]; exact h)
      by_cases h0 : (rest.map (fun c => c ^ 2)).sum = 0
      · have hz := sum_sq_zero rest h0
        refine ⟨θ :: List.replicate (m + 1) Real.pi, by simp, ?_, ?_⟩
        · intro x hx
          rcases List.mem_cons.1 hx with rfl | hx
          · exact ⟨h1, h2⟩
          · rw [List.eq_of_mem_replicate hx]; constructor <;> linarith
        · rw [sphere, h3, h4, h0, Real.sqrt_zero]
          congr 1
          apply List.ext_getElem
          · simp [sphere_length, hr]
          · intro i g1 g2
            rw [hz _ (List.getElem_mem g2)]
            simp
      · have hpos : 0 < Real.sqrt (rest.map (fun c => c ^ 2)).sum := Real.sqrt_pos.2 (lt_of_le_of_ne hn (Ne.symm h0))
        obtain ⟨θs, g1, g2, g3⟩ := ih (rest.map (fun x => x / Real.sqrt (rest.map (fun c => c ^ 2)).sum)) (by simpa using hr) (by
          have : ∀ (a : ℝ) (l : List ℝ), ((l.map (fun c => c / a)).map (fun c => c ^ 2)).sum = (l.map (fun c => c ^ 2)).sum / a ^ 2 := by
            intro a l
            induction l with
            | nil => simp
            | cons b l ih => simp only [List.map_cons, List.sum_cons, ih]; ring
          rw [this, Real.sq_sqrt hn, div_self h0])
        refine ⟨θ :: θs, by simp [g1], ?_, ?_⟩
        · intro x hx
          rcases List.mem_cons.1 hx with rfl | hx
          · exact ⟨h1, h2⟩
          · exact g2 x hx
        · rw [sphere, h3, h4, g3, List.map_map]
          congr 1
          conv_rhs => rw [← List.map_id rest]
          apply List.map_congr_left
          intro x _
          simp only [Function.comp, id]
          field_simp

theorem sum_fin_getD (l : List ℝ) (f : ℝ → ℝ) : ∑ j : Fin l.length, f (l.getD j 0) = (l.map f).sum := by
  induction l with
  | nil => simp
  | cons a l ih =>
    rw [List.map_cons, List.sum_cons, ← ih]
    exact (Fin.sum_univ_succ fun j : Fin (l.length + 1) => f ((a :: l).getD j 0)).trans (by simp)

/-- The angles of row `i`. -/
def angleRow (n : Nat) (thetas : List ℝ) (i : Nat) : List ℝ := (thetas.drop (i * (n - 1))).take (n - 1)

theorem angleRow_length (n : Nat) (thetas : List ℝ) (h : thetas.length = n * (n - 1)) (i : Fin n) :
    (angleRow n thetas i).length + 1 = n := by
  have hi := i.2
  unfold angleRow
  rw [List.length_take, List.length_drop, h]
  have h2 : (i : Nat) * (n - 1) + (n - 1) ≤ n * (n - 1) := by
    calc (i : Nat) * (n - 1) + (n - 1) = (i + 1) * (n - 1) := by ring
      _ ≤ n * (n - 1) := Nat.mul_le_mul_right _ hi
  omega

theorem hyperCorrelation_eq (n : Nat) (thetas : List ℝ) (h : thetas.length = n * (n - 1)) :
    ∃ b : Matrix (Fin n) (Fin n) ℝ, hyperCorrelation n thetas = .ok (b * b.transpose) ∧
      (∀ i j, b i j = (sphere (angleRow n thetas i)).getD j 0) ∧ ∀ i, ∑ j, b i j ^ 2 = 1 := by
  refine ⟨fun i j => (hyperRow n (angleRow n thetas i)).getD j 0, ?_, ?_, ?_⟩
  · unfold hyperCorrelation
    rw [if_pos h]
    rfl
  · intro i j
    beta_reduce
    rw [hyperRow_eq n _ (angleRow_length n thetas h i)]
  · intro i
    beta_reduce
    rw [hyperRow_eq n _ (angleRow_length n thetas h i)]
    have hl : (sphere (angleRow n thetas i)).length = n := by rw [sphere_length, angleRow_length n thetas h i]
    have := sum_fin_getD (sphere (angleRow n thetas i)) (fun c => c ^ 2)
    rw [sphere_unit] at this
    rw [← this]
    generalize sphere (angleRow n thetas i) = l at hl ⊢
    subst hl
    rfl

/-- The hypersphere decomposition gives a correlation matrix for any angles: positive semidefinite, ones on the diagonal, entries between -1
and 1. -/
theorem C96_hypersphere (n : Nat) (thetas : List ℝ) (h : thetas.length = n * (n - 1)) :
    ∃ c, hyperCorrelation n thetas = .ok c ∧ c.PosSemidef ∧ (∀ i, c i i = 1) ∧ (∀ i j, c i j = c j i) ∧ ∀ i j, -1 ≤ c i j ∧ c i j ≤ 1 := by
  obtain ⟨b, h1, _, h3⟩ := hyperCorrelation_eq n thetas h
  have e : ∀ i j, (b * b.transpose) i j = ∑ k, b i k * b j k := by
    intro i j; simp [Matrix.mul_apply]
  refine ⟨b * b.transpose, h1, ?_, ?_, ?_, ?_⟩
  · have := Matrix.posSemidef_self_mul_conjTranspose b
    rwa [Matrix.conjTranspose_eq_transpose_of_trivial] at this
  · intro i
    rw [e, ← h3 i]
    exact Finset.sum_congr rfl fun k _ => by ring
  · intro i j
    rw [e, e]
    exact Finset.sum_congr rfl fun k _ => by ring
  · intro i j
    rw [e]
    have hp : 0 ≤ ∑ k, (b i k + b j k) ^ 2 := Finset.sum_nonneg fun k _ => sq_nonneg _
    have hm : 0 ≤ ∑ k, (b i k - b j k) ^ 2 := Finset.sum_nonneg fun k _ => sq_nonneg _
    have ep : ∑ k, (b i k + b j k) ^ 2 = ∑ k, b i k ^ 2 + 2 * ∑ k, b i k * b j k + ∑ k, b j k ^ 2 := by
      rw [Finset.mul_sum, ← Finset.sum_add_distrib, ← Finset.sum_add_distrib]
      exact Finset.sum_congr rfl fun k _ => by ring
    have em : ∑ k, (b i k - b j k) ^ 2 = ∑ k, b i k ^ 2 - 2 * ∑ k, b i k * b j k + ∑ k, b j k ^ 2 := by
      rw [Finset.mul_sum, ← Finset.sum_sub_distrib, ← Finset.sum_add_distrib]
      exact Finset.sum_congr rfl fun k _ => by ring
    rw [ep, h3, h3] at hp
    rw [em, h3, h3] at hm
    constructor <;> linarith

/-- A list of `n (n - 1)` angles from `n` rows. -/
theorem flatten_rows (n : Nat) (rows : Fin n → List ℝ) (hr : ∀ i, (rows i).length = n - 1) :
    ∃ thetas : List ℝ, thetas.length = n * (n - 1) ∧ (∀ i : Fin n, angleRow n thetas i = rows i) ∧ ∀ θ ∈ thetas, ∃ i, θ ∈ rows i := by
  have hd : ∀ k : Fin (n * (n - 1)), (k : Nat) / (n - 1) < n := fun k => Nat.div_lt_of_lt_mul (k.2.trans_eq (mul_comm _ _))
  refine ⟨(List.ofFn fun k : Fin (n * (n - 1)) => (rows ⟨k / (n - 1), hd k⟩).getD (k % (n - 1)) 0), by simp, ?_, ?_⟩
  · intro i
    apply List.ext_getElem
    · have hl := angleRow_length n (List.ofFn fun k : Fin (n * (n - 1)) => (rows ⟨k / (n - 1), hd k⟩).getD (k % (n - 1)) 0) (by simp) i
      rw [hr i]
      omega
    · intro j h1 h2
      rw [hr i] at h2
      simp only [angleRow, List.getElem_take, List.getElem_drop, List.getElem_ofFn]
      have e1 : ((i : Nat) * (n - 1) + j) / (n - 1) = i := by
        rw [mul_comm, Nat.mul_add_div (by omega), Nat.div_eq_of_lt h2, add_zero]
      have e2 : ((i : Nat) * (n - 1) + j) % (n - 1) = j := by
        rw [mul_comm, Nat.mul_add_mod, Nat.mod_eq_of_lt h2]
      simp only [e1, e2]
      rw [List.getD_eq_getElem?_getD, List.getElem?_eq_getElem (by rw [hr]; exact h2)]
      rfl
  · intro θ hθ
    obtain ⟨k, rfl⟩ := List.mem_ofFn.1 hθ
    refine ⟨⟨k / (n - 1), hd k⟩, ?_⟩
    have hk := k.2
    have h0 : 0 < n - 1 := Nat.pos_of_ne_zero fun h => by simp [h] at hk
    rw [List.getD_eq_getElem?_getD, List.getElem?_eq_getElem (by rw [hr]; exact Nat.mod_lt _ h0)]
    exact List.getElem_mem _

open scoped MatrixOrder in
/-- Every correlation matrix is given by angles within the bounds of the calibration. -/
theorem C96_all_correlations (n : Nat) (c : Matrix (Fin n) (Fin n) ℝ) (hc : c.PosSemidef) (h1 : ∀ i, c i i = 1) :
    ∃ thetas : List ℝ, hyperCorrelation n thetas = .ok c ∧ ∀ θ ∈ thetas, 0 < θ ∧ θ < thetaUpper := by
  have hup : ∀ θ : ℝ, θ ≤ 2 * Real.pi → θ < thetaUpper := by
    intro θ h; unfold thetaUpper; norm_num; linarith
  match n, c, hc, h1 with
  | 0, c, _, _ =>
    refine ⟨[], ?_, by simp⟩
    obtain ⟨b, e, _, _⟩ := hyperCorrelation_eq 0 [] rfl
    rw [e]
    congr 1
    exact Matrix.ext fun i => i.elim0
  | 1, c, _, h1 =>
    refine ⟨[], ?_, by simp⟩
    obtain ⟨b, e, eb, _⟩ := hyperCorrelation_eq 1 [] rfl
    rw [e]
    congr 1
    ext i j
    have hi : i = 0 := Subsingleton.elim _ _
    have hj : j = 0 := Subsingleton.elim _ _
    subst hi hj
    rw [h1 0, Matrix.mul_apply]
    simp [eb, angleRow, sphere]
  | m + 2, c, hc, h1 =>
    obtain ⟨b, hb⟩ := CStarAlgebra.nonneg_iff_eq_star_mul_self.mp hc.nonneg
    rw [Matrix.star_eq_conjTranspose, Matrix.conjTranspose_eq_transpose_of_trivial] at hb
    have hrow : ∀ i, ∃ θs : List ℝ, θs.length = m + 1 ∧ (∀ θ ∈ θs, 0 < θ ∧ θ ≤ 2 * Real.pi) ∧
        sphere θs = List.ofFn (fun k => b k i) := by
      intro i
      refine sphere_onto m (List.ofFn fun k => b k i) (by simp) ?_
      rw [List.map_ofFn, List.sum_ofFn, ← h1 i, hb, Matrix.mul_apply]
      exact Finset.sum_congr rfl fun k _ => by simp [sq]
    choose rows hr1 hr2 hr3 using hrow
    obtain ⟨thetas, g1, g2, g3⟩ := flatten_rows (m + 2) rows hr1
    refine ⟨thetas, ?_, ?_⟩
    · obtain ⟨b', e, eb, _⟩ := hyperCorrelation_eq (m + 2) thetas g1
      rw [e]
      congr 1
      have : b' = b.transpose := by
        ext i j
        rw [eb, g2, hr3, List.getD_eq_getElem?_getD, List.getElem?_eq_getElem (by rw [List.length_ofFn]; exact j.2), List.getElem_ofFn]
        rfl
      rw [this, hb, Matrix.transpose_transpose]
    · intro θ hθ
      obtain ⟨i, hi⟩ := g3 θ hθ
      exact ⟨(hr2 i θ hi).1, hup θ (hr2 i θ hi).2⟩

theorem hjmToConstrained_eq (x lb ub : ℝ) : hjmToConstrained x lb ub = toConstrained x lb ub := by
  unfold hjmToConstrained toConstrained
  have := Real.exp_pos x
  have e : Real.exp x / (1 + Real.exp x) = 1 / (1 + Real.exp (-x)) := by
    rw [Real.exp_neg]; field_simp; ring
  simp only [e]

/-- The parameters of the result lie strictly between their bounds, and its correlation matrix is a correlation matrix. -/
theorem C96_hjm_bounds (n : Nat) (mrLower mrUpper volLower volUpper : ℝ) (hm : mrLower < mrUpper) (hv : volLower < volUpper)
    (x : List ℝ) (hx : x.length = 2 * n + n * (n - 1)) :
    (∀ v ∈ (hjmResult n mrLower mrUpper volLower volUpper x).1, mrLower < v ∧ v < mrUpper) ∧
    (∀ v ∈ (hjmResult n mrLower mrUpper volLower volUpper x).2, volLower < v ∧ v < volUpper) ∧
    (hjmResult n mrLower mrUpper volLower volUpper x).1.length = n ∧ (hjmResult n mrLower mrUpper volLower volUpper x).2.length = n ∧
    ∃ c, hjmResultCorrelation n x = .ok c ∧ c.PosSemidef ∧ ∀ i, c i i = 1 := by
  have hin : ∀ (lb ub : ℝ), lb < ub → ∀ t, lb < hjmToConstrained t lb ub ∧ hjmToConstrained t lb ub < ub := by
    intro lb ub h t
    rw [hjmToConstrained_eq]
    have := Set.mem_range_self (f := fun x => toConstrained x lb ub) t
    rw [(C79_constrained lb ub h).2] at this
    exact this
  refine ⟨?_, ?_, ?_, ?_, ?_⟩
  · intro v hv'
    obtain ⟨t, _, rfl⟩ := List.mem_map.1 hv'
    exact hin _ _ hm t
  · intro v hv'
    obtain ⟨t, _, rfl⟩ := List.mem_map.1 hv'
    exact hin _ _ hv t
  · simp only [hjmResult, List.length_map, List.length_take]; omega
  · simp only [hjmResult, List.length_map, List.length_take, List.length_drop]; omega
  · obtain ⟨c, h1, h2, h3, _⟩ := C96_hypersphere n ((x.drop (2 * n)).map (fun t => hjmToConstrained t 0 thetaUpper))
      (by rw [List.length_map, List.length_drop, hx]; omega)
    exact ⟨c, h1, h2, h3⟩

/-- Every choice of mean reversions and volatilities strictly between the bounds and of a correlation matrix is the result for some position
of the optimizer. -/
theorem C96_hjm_onto (n : Nat) (mrLower mrUpper volLower volUpper : ℝ) (hm : mrLower < mrUpper) (hv : volLower < volUpper)
    (mrs vols : List ℝ) (c : Matrix (Fin n) (Fin n) ℝ) (h1 : mrs.length = n) (h2 : vols.length = n)
    (h3 : ∀ v ∈ mrs, mrLower < v ∧ v < mrUpper) (h4 : ∀ v ∈ vols, volLower < v ∧ v < volUpper) (hc : c.PosSemidef) (hd : ∀ i, c i i = 1) :
    ∃ x, hjmResult n mrLower mrUpper volLower volUpper x = (mrs, vols) ∧ hjmResultCorrelation n x = .ok c := by
  have hup : 0 < thetaUpper := by unfold thetaUpper; have := Real.pi_pos; norm_num; linarith
  have inv : ∀ (lb ub : ℝ), lb < ub → ∀ l : List ℝ, (∀ v ∈ l, lb < v ∧ v < ub) → ∃ y : List ℝ, y.map (fun t => hjmToConstrained t lb ub) = l := by
    intro lb ub h l hl
    induction l with
    | nil => exact ⟨[], rfl⟩
    | cons a l ih =>
      obtain ⟨y, hy⟩ := ih fun v hv => hl v (List.mem_cons_of_mem _ hv)
      have : a ∈ Set.range fun x => toConstrained x lb ub := by
        rw [(C79_constrained lb ub h).2]; exact hl a List.mem_cons_self
      obtain ⟨t, ht⟩ := this
      refine ⟨t :: y, ?_⟩
      rw [List.map_cons, hy, hjmToConstrained_eq]
      exact congrArg (· :: l) ht
  obtain ⟨thetas, g1, g2⟩ := C96_all_correlations n c hc hd
  obtain ⟨y1, e1⟩ := inv _ _ hm mrs h3
  obtain ⟨y2, e2⟩ := inv _ _ hv vols h4
  obtain ⟨y3, e3⟩ := inv _ _ hup thetas g2
  have l1 : y1.length = n := by rw [← h1, ← e1, List.length_map]
  have l2 : y2.length = n := by rw [← h2, ← e2, List.length_map]
  refine ⟨y1 ++ (y2 ++ y3), ?_, ?_⟩
  · unfold hjmResult
    rw [List.take_left' l1, List.drop_left' l1, List.take_left' l2, e1, e2]
  · unfold hjmResultCorrelation
    rw [show 2 * n = (y1 ++ y2).length by rw [List.length_append]; omega, ← List.append_assoc, List.drop_left, e3, g1]

/-- The initial angles lie strictly between the bounds. -/
theorem C96_initial_angles (n : Nat) :
    (hjmInitialAngles n).length = n * (n - 1) ∧ (∀ θ ∈ hjmInitialAngles n, 0 < θ ∧ θ < thetaUpper) ∧ (hjmInitialAngles n).Pairwise (· < ·) := by
  have hpi := Real.pi_gt_three
  refine ⟨by simp [hjmInitialAngles], ?_, ?_⟩
  · intro θ hθ
    obtain ⟨i, hi, rfl⟩ := List.mem_map.1 hθ
    rw [List.mem_range] at hi
    have h0 : (0 : ℝ) < ((n * (n - 1) : Nat) : ℝ) := by exact_mod_cast (by omega : 0 < n * (n - 1))
    have h1 : (i : ℝ) + 1 ≤ ((n * (n - 1) : Nat) : ℝ) := by exact_mod_cast hi
    constructor
    · positivity
    · have : (0.1 + (i : ℝ)) / ((n * (n - 1) : Nat) : ℝ) < 1 := by rw [div_lt_one h0]; linarith
      unfold thetaUpper
      norm_num at this ⊢
      linarith
  · unfold hjmInitialAngles
    rw [List.pairwise_map]
    refine (List.pairwise_lt_range (n := n * (n - 1))).imp_of_mem ?_
    intro a b ha _ hab
    rw [List.mem_range] at ha
    have h0 : (0 : ℝ) < ((n * (n - 1) : Nat) : ℝ) := by exact_mod_cast (by omega : 0 < n * (n - 1))
    have h1 : (a : ℝ) < b := by exact_mod_cast hab
    beta_reduce
    gcongr

/-- Positions between -25 and 25 give the same correlation matrix in the loss function and in the result. Deviation: beyond, the loss
function uses another angle than the result. -/
theorem C96_clip (n : Nat) (x : List ℝ) :
    ((∀ t ∈ x.drop (2 * n), -25 ≤ t ∧ t ≤ 25) → hjmLossCorrelation n x = hjmResultCorrelation n x) ∧
    ∀ t, (t < -25 ∨ 25 < t) → hjmToConstrained (max (-25) (min t 25)) 0 thetaUpper ≠ hjmToConstrained t 0 thetaUpper := by
  have hup : 0 < thetaUpper := by unfold thetaUpper; have := Real.pi_pos; norm_num; linarith
  constructor
  · intro h
    unfold hjmLossCorrelation hjmResultCorrelation
    have : (x.drop (2 * n)).map (fun t => max (-25) (min t 25)) = x.drop (2 * n) := by
      conv_rhs => rw [← List.map_id (x.drop (2 * n))]
      apply List.map_congr_left
      intro t ht
      obtain ⟨a, b⟩ := h t ht
      simp [min_eq_left b, max_eq_right a]
    simp only [this]
  · intro t ht e
    rw [hjmToConstrained_eq, hjmToConstrained_eq] at e
    have := (C79_constrained 0 thetaUpper hup).1.injective e
    rcases ht with h | h
    · have h2 : max (-25) (min t 25) = -25 := max_eq_left ((min_le_left _ _).trans h.le)
      rw [h2] at this; linarith
    · rw [min_eq_right h.le] at this
      norm_num at this
      linarith

/-- Deviation: with its correlation (the default) only a single model can be calibrated, without it only a single model or a batch of
exactly two. -/
theorem C96_batches (batch : List Nat) (n : Nat) (calibrateCorrelation : Bool) :
    (hjmInitialShape batch n calibrateCorrelation).isSome ↔ batch = [] ∨ calibrateCorrelation = false ∧ batch = [2] := by
  unfold hjmInitialShape concatLastShapes
  match batch, calibrateCorrelation with
  | [], true => simp
  | [], false => simp
  | b :: bs, true =>
    have e : (b :: (bs ++ [n])).dropLast = b :: bs := List.dropLast_concat (l₁ := b :: bs)
    simp [e]
  | [b], false =>
    by_cases h : b = 2
    · subst h; simp
    · have h' : ¬ 2 = b := fun e => h e.symm
      simp [h, h']
  | b :: c :: bs, false =>
    have e : (c :: (bs ++ [n])).dropLast = c :: bs := List.dropLast_concat (l₁ := c :: bs)
    simp [e]

/-- C96: the initial guess for a single model holds one mean reversion and one volatility for each factor, and with the correlation one
number for each initial angle. -/
theorem C96_single (n : Nat) (calibrateCorrelation : Bool) :
    hjmInitialShape [] n calibrateCorrelation = some [n + n + if calibrateCorrelation then (hjmInitialAngles n).length else 0] := by
  unfold hjmInitialShape concatLastShapes hjmInitialAngles
  cases calibrateCorrelation <;> simp [Nat.add_assoc]

theorem le_foldl_max (l : List ℝ) (a : ℝ) : a ≤ l.foldl max a ∧ ∀ t ∈ l, t ≤ l.foldl max a := by
  induction l generalizing a with
  | nil => simp
  | cons b l ih =>
    obtain ⟨h1, h2⟩ := ih (max a b)
    refine ⟨(le_max_left a b).trans h1, ?_⟩
    intro t ht
    rcases List.mem_cons.1 ht with rfl | ht
    · exact (le_max_right a t).trans h1
    · exact h2 t ht

theorem targetUpper_le (targets : List ℝ) : ∀ t ∈ targets, t ≤ targetUpper targets := by
  match targets with
  | [] => simp
  | a :: l =>
    intro t ht
    rcases List.mem_cons.1 ht with rfl | ht
    · exact (le_foldl_max l t).1
    · exact (le_foldl_max l a).2 t ht

theorem zipWith_sq_zero (f : ℝ → ℝ) (hf : Function.Injective f) (r : ℝ) (values : List (Option ℝ)) (targets : List ℝ) (hl : values.length = targets.length) :
    0 ≤ (List.zipWith (fun v t => (f (v.getD r) - f t) ^ 2) values targets).sum ∧
    ((List.zipWith (fun v t => (f (v.getD r) - f t) ^ 2) values targets).sum = 0 ↔ values.map (·.getD r) = targets) := by
  induction values generalizing targets with
  | nil => cases targets <;> simp at hl ⊢
  | cons v vs ih =>
    match targets, hl with
    | t :: ts, hl =>
      obtain ⟨h1, h2⟩ := ih ts (by simpa using hl)
      simp only [List.zipWith_cons_cons, List.sum_cons, List.map_cons]
      refine ⟨by positivity, ?_⟩
      constructor
      · intro h
        have e1 : (f (v.getD r) - f t) ^ 2 = 0 := by nlinarith [sq_nonneg (f (v.getD r) - f t)]
        have e2 : (List.zipWith (fun v t => (f (v.getD r) - f t) ^ 2) vs ts).sum = 0 := by nlinarith
        rw [h2.1 e2, hf (sub_eq_zero.1 (pow_eq_zero_iff (two_ne_zero)|>.1 e1))]
      · intro h
        injection h with h3 h4
        rw [h2.2 h4, h3]
        simp

/-- The loss is never negative and is zero exactly where the model gives the targets, if some target is positive. -/
theorem C96_loss (useMean : Bool) (r : ℝ) (targets : List ℝ) (values : List (Option ℝ)) (hl : values.length = targets.length)
    (hp : ∃ t ∈ targets, 0 < t) :
    ∃ l, calibrationLoss useMean r targets values = some l ∧ 0 ≤ l ∧ (l = 0 ↔ values.map (·.getD r) = targets) := by
  obtain ⟨t, ht, h0⟩ := hp
  have hub : 0 < targetUpper targets := h0.trans_le (targetUpper_le targets t ht)
  have hinj : Function.Injective fun x => sabrScale x 0 (targetUpper targets) := by
    intro x y h
    simp only [sabrScale, sub_zero] at h
    field_simp at h
    exact h
  obtain ⟨h1, h2⟩ := zipWith_sq_zero _ hinj r values targets hl
  unfold calibrationLoss
  simp only [if_neg hub.ne']
  refine ⟨_, rfl, ?_, ?_⟩
  · split
    · positivity
    · exact h1
  · split
    · have hn : (0 : ℝ) < ((List.zipWith (fun v t => (sabrScale (v.getD r) 0 (targetUpper targets) - sabrScale t 0 (targetUpper targets)) ^ 2) values targets).length : ℝ) := by
        rw [List.length_zipWith, hl, min_self]
        exact_mod_cast List.length_pos_of_mem ht
      rw [div_eq_zero_iff, or_iff_left hn.ne']
      exact h2
    · exact h2

/-- The scaled targets lie between 0 and 1 and the largest is 1, for targets that are not negative. -/
theorem C96_scaled_targets (targets : List ℝ) (hn : ∀ t ∈ targets, 0 ≤ t) (hp : ∃ t ∈ targets, 0 < t) :
    ∀ t ∈ targets, 0 ≤ sabrScale t 0 (targetUpper targets) ∧ sabrScale t 0 (targetUpper targets) ≤ 1 := by
  obtain ⟨t, ht, h0⟩ := hp
  have hub : 0 < targetUpper targets := h0.trans_le (targetUpper_le targets t ht)
  intro u hu
  unfold sabrScale
  simp only [sub_zero]
  exact ⟨div_nonneg (hn u hu) hub.le, (div_le_one hub).2 (targetUpper_le targets u hu)⟩

/-- Deviation: if the largest target is zero, the loss is not a number at any position. -/
theorem C96_zero_targets (useMean : Bool) (r : ℝ) (targets : List ℝ) (values : List (Option ℝ)) (h : targetUpper targets = 0) :
    calibrationLoss useMean r targets values = none := by
  unfold calibrationLoss
  simp [h]

/-- Whatever the optimizer returns, the calibrated mean reversion and volatilities lie strictly between their bounds, the mean reversion is
constant and the volatility has the jumps of the given one. -/
theorem C96_hw_bounds (useMean : Bool) (values : RatePiecewise → RatePiecewise → List (Option ℝ))
    (optimizer : (List ℝ → Except String (Option ℝ)) → List (Option ℝ) → List ℝ) (a : HwCalibrationArgs) (mr vol : RatePiecewise)
    (hm : a.mrLower < a.mrUpper) (hv : a.volLower < a.volUpper) (h : hwCalibration useMean values optimizer a = .ok (mr, vol)) :
    mr.jumps = [] ∧ mr.values.length = 1 ∧ (∀ v ∈ mr.values, a.mrLower < v ∧ v < a.mrUpper) ∧
      vol.jumps = a.volatility.jumps ∧ vol.values.length = vol.jumps.length + 1 ∧ ∀ v ∈ vol.values, a.volLower < v ∧ v < a.volUpper := by
  have hin : ∀ (lb ub : ℝ), lb < ub → ∀ t, lb < toConstrained t lb ub ∧ toConstrained t lb ub < ub := by
    intro lb ub h t
    have := Set.mem_range_self (f := fun x => toConstrained x lb ub) t
    rw [(C79_constrained lb ub h).2] at this
    exact this
  unfold hwCalibration at h
  cases hn : a.notional with
  | none => simp [hn, bind, Except.bind, throw, throwThe, MonadExceptOf.throw] at h
  | some n =>
    simp only [hn, Option.isNone, Bool.false_eq_true, if_false, bind, Except.bind, pure, Except.pure] at h
    generalize optimizer _ (hwInitialGuess a) = x at h
    unfold hwUnpack makePiecewise at h
    simp only [bind, Except.bind, pure, Except.pure] at h
    split at h
    · cases h
    · rename_i v hv1
      split at hv1
      · rename_i c1
        cases hv1
        split at h
        · cases h
        · rename_i w hw1
          split at hw1
          · rename_i c2
            cases hw1
            cases h
            refine ⟨rfl, c1, ?_, rfl, c2, ?_⟩
            · intro v hv'
              obtain ⟨t, _, rfl⟩ := List.mem_map.1 hv'
              exact hin _ _ hm t
            · intro v hv'
              obtain ⟨t, _, rfl⟩ := List.mem_map.1 hv'
              exact hin _ _ hv t
          · cases hw1
      · cases hv1

/-- The first position stands for the given parameters: an optimizer that stays there returns them. -/
theorem C96_hw_start (useMean : Bool) (values : RatePiecewise → RatePiecewise → List (Option ℝ)) (a : HwCalibrationArgs) (n m : ℝ)
    (hn : a.notional = some n) (hmr : a.meanReversion = ⟨[], [m]⟩) (hvl : a.volatility.values.length = a.volatility.jumps.length + 1)
    (hm : a.mrLower < m ∧ m < a.mrUpper) (hv : ∀ v ∈ a.volatility.values, a.volLower < v ∧ v < a.volUpper) :
    hwCalibration useMean values (fun _ x => x.map (·.getD 0)) a = .ok (a.meanReversion, a.volatility) := by
  have rt : ∀ (v lb ub : ℝ), lb < v ∧ v < ub → toConstrained ((toUnconstrained ⟨v, lb, ub⟩).getD 0) lb ub = v := by
    intro v lb ub h
    obtain ⟨x, h1, h2⟩ := (C79_round_trip ⟨v, lb, ub⟩ (h.1.trans h.2)).1 h.1 h.2
    rw [h1]; exact h2
  have e : (a.volatility.values.map (fun v => toUnconstrained ⟨v, a.volLower, a.volUpper⟩)).map (fun y => toConstrained (y.getD 0) a.volLower a.volUpper) =
      a.volatility.values := by
    rw [List.map_map]
    conv_rhs => rw [← List.map_id a.volatility.values]
    apply List.map_congr_left
    intro v hv'
    exact rt v _ _ (hv v hv')
  simp only [List.map_map] at e
  unfold hwCalibration hwUnpack hwInitialGuess makePiecewise
  simp only [hn, hmr, Option.isNone, Bool.false_eq_true, if_false, bind, Except.bind, pure, Except.pure, List.map_cons, List.map_nil,
    List.length_cons, List.length_nil, zero_add, List.cons_append, List.nil_append, List.take_succ_cons, List.take_zero, List.drop_succ_cons,
    List.drop_zero, if_true, List.map_map, List.length_map, hvl]
  rw [rt m _ _ hm]
  simp only [Function.comp_def] at e ⊢
  rw [e]

/-- Deviation: without a notional, where 1 is documented, and with a mean reversion that has jumps, which is documented as supported, the
calibration fails. -/
theorem C96_hw_fails (useMean : Bool) (values : RatePiecewise → RatePiecewise → List (Option ℝ))
    (optimizer : (List ℝ → Except String (Option ℝ)) → List (Option ℝ) → List ℝ) (a : HwCalibrationArgs) :
    (a.notional = none → ∃ e, hwCalibration useMean values optimizer a = .error e) ∧
    (2 ≤ a.meanReversion.values.length → (∀ f x, (optimizer f x).length = x.length) → ∃ e, hwCalibration useMean values optimizer a = .error e) := by
  constructor
  · intro h
    exact ⟨"None values not supported.", by
      unfold hwCalibration
      simp only [h, Option.isNone, if_true]
      rfl⟩
  · intro h hopt
    unfold hwCalibration
    cases hn : a.notional with
    | none => exact ⟨"None values not supported.", rfl⟩
    | some n =>
      simp only [Option.isNone, Bool.false_eq_true, if_false, bind, Except.bind, pure, Except.pure]
      generalize hf : (fun x : List ℝ => _) = f
      have hlen := hopt f (hwInitialGuess a)
      generalize optimizer f (hwInitialGuess a) = x at hlen
      refine ⟨"piecewise constant function needs one value more than jumps", ?_⟩
      unfold hwUnpack makePiecewise
      dsimp only
      rw [if_neg]
      · rfl
      · rw [List.length_map, List.length_take, hlen]
        simp only [hwInitialGuess, List.length_append, List.length_map, List.length_nil]
        omega

/-- Two assets with the angles `(π/3, π/2)` for the first angle of each row: correlation one half. -/
example : ∃ c, hyperCorrelation 2 [0, Real.pi / 3] = .ok c ∧ c 0 1 = 1 / 2 := by
  obtain ⟨b, h1, h2, _⟩ := hyperCorrelation_eq 2 [0, Real.pi / 3] rfl
  refine ⟨_, h1, ?_⟩
  rw [Matrix.mul_apply, Fin.sum_univ_two]
  simp [h2, angleRow, sphere]

example : hjmInitialShape [3] 2 false = none ∧ hjmInitialShape [2] 2 false = some [2, 4] ∧ hjmInitialShape [] 2 true = some [6] := by
  decide

example : calibrationLoss false 0 [1, 2] [some 1, none] = some 1 := by
  norm_num [calibrationLoss, targetUpper, sabrScale]

end Props
