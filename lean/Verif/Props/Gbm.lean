import Verif.Model.Gbm
import Verif.Props.Piecewise
import Verif.Props.PathDiscount
import Verif.Props.Milstein
import Verif.Lemmas.VanillaPrices

/-! # C60: paths of geometric Brownian motion -/

namespace Lemmas
open Model Spec MeasureTheory intervalIntegral
open scoped BigOperators

/-- Parameters as the classes expect them. -/
def TimeParamOk : TimeParam → Prop
  | .constant _ => True
  | .piecewise jumps values => jumps.Pairwise (· ≤ ·) ∧ jumps ≠ [] ∧ values.length = jumps.length + 1

theorem integrate_eq (p : TimeParam) (h : TimeParamOk p) (a b : ℝ) : p.integrate a b = ∫ t in a..b, p.eval t := by
  cases p with
  | constant c => simp [TimeParam.integrate, TimeParam.eval, mul_comm]
  | piecewise jumps values => exact Props.C23_integral jumps values h.1 h.2.1 h.2.2 a b true

theorem squared_ok (p : TimeParam) (h : TimeParamOk p) : TimeParamOk p.squared := by
  cases p with
  | constant c => trivial
  | piecewise jumps values => exact ⟨h.1, h.2.1, by rw [List.length_map]; exact h.2.2⟩

theorem squared_eval (p : TimeParam) (t : ℝ) : p.squared.eval t = p.eval t ^ 2 := by
  cases p with
  | constant c => rfl
  | piecewise jumps values =>
    show (values.map (fun v => v ^ 2)).getD (searchLeft jumps t) 0 = values.getD (searchLeft jumps t) 0 ^ 2
    generalize searchLeft jumps t = i
    rw [List.getD_eq_getElem?_getD, List.getD_eq_getElem?_getD, List.getElem?_map]
    cases values[i]? <;> simp

theorem integrate_add (p : TimeParam) (h : TimeParamOk p) (a b c : ℝ) : p.integrate a b + p.integrate b c = p.integrate a c := by
  cases p with
  | constant k => simp only [TimeParam.integrate]; ring
  | piecewise jumps values => exact Props.C23_additive jumps values h.1 h.2.1 h.2.2 a b c

theorem integrate_self (p : TimeParam) (h : TimeParamOk p) (a : ℝ) : p.integrate a a = 0 := by
  have := integrate_add p h a a a
  linarith

theorem squared_nonneg (p : TimeParam) (h : TimeParamOk p) (a b : ℝ) (hab : a ≤ b) : 0 ≤ p.squared.integrate a b := by
  rw [integrate_eq _ (squared_ok p h)]
  apply intervalIntegral.integral_nonneg hab
  intro t _
  rw [squared_eval]
  exact sq_nonneg _

/-- The increments along the times telescope. -/
theorem integrate_telescope (p : TimeParam) (h : TimeParamOk p) (ts : Nat → ℝ) (n : Nat) :
    ∑ i ∈ Finset.range n, p.integrate (ts i) (ts (i + 1)) = p.integrate (ts 0) (ts n) := by
  induction n with
  | zero => simp [integrate_self p h]
  | succ n ih => rw [Finset.sum_range_succ, ih, integrate_add p h]

theorem gbmPath_get (mean vol : TimeParam) (x0 : ℝ) (times draws : List ℝ) (hd : draws.length = times.length) (j : Nat) (hj : j < times.length) :
    (gbmPath mean vol x0 times draws)[j]? = some (x0 * Real.exp (∑ i ∈ Finset.range (j + 1),
      gbmLogIncrement mean vol ((0 :: times).getD i 0) ((0 :: times).getD (i + 1) 0) (draws.getD i 0))) := by
  unfold gbmPath
  simp only
  set incs := List.zipWith (fun (p : ℝ × ℝ) z => gbmLogIncrement mean vol p.1 p.2 z) ((0 :: times).dropLast.zip (0 :: times).tail) draws with hincs
  have hlen : incs.length = times.length := by rw [hincs]; simp [hd]
  rw [List.getElem?_map, matVec_lower incs j (by omega), Option.map_some, take_sum incs (j + 1) (by omega)]
  congr 3
  apply Finset.sum_congr rfl
  intro i hi
  rw [Finset.mem_range] at hi
  have hz : incs[i]? = some (gbmLogIncrement mean vol ((0 :: times).getD i 0) ((0 :: times).getD (i + 1) 0) (draws.getD i 0)) := by
    rw [hincs, List.getElem?_zipWith]
    have h1 : ((0 :: times).dropLast.zip (0 :: times).tail)[i]? = some ((0 :: times).getD i 0, (0 :: times).getD (i + 1) 0) := by
      apply List.getElem?_zip_eq_some.2
      constructor
      · rw [List.getElem?_dropLast]
        simp only [List.length_cons, Nat.add_sub_cancel]
        rw [if_pos (by omega)]
        exact getD_some _ i (by simp; omega)
      · simp only [List.tail_cons, List.getD_cons_succ]
        exact getD_some times i (by omega)
    rw [h1, getD_some draws i (by omega)]
  exact getD_of_some incs i _ hz

end Lemmas

namespace Props
open Model Spec Lemmas
open scoped BigOperators

/-- C60: the sampled values at the requested times have the exact joint law. There are weights, the same for all times, such that the logarithm at
each time is the exact mean plus the weighted draws up to this time, and the squared weights up to each time sum to the integral of the squared
volatility. -/
theorem C60_paths (mean vol : TimeParam) (hm : TimeParamOk mean) (hv : TimeParamOk vol) (times : List ℝ) (hs : times.Pairwise (· ≤ ·))
    (h0 : ∀ t ∈ times, 0 ≤ t) :
    ∃ w : Nat → ℝ, ∀ j, j < times.length →
      ∑ i ∈ Finset.range (j + 1), w i ^ 2 = ∫ t in (0 : ℝ)..(times.getD j 0), vol.eval t ^ 2 ∧
      ∀ (x0 : ℝ) (draws : List ℝ), draws.length = times.length → (gbmPath mean vol x0 times draws)[j]? =
        some (x0 * Real.exp ((∫ t in (0 : ℝ)..(times.getD j 0), mean.eval t) - (∫ t in (0 : ℝ)..(times.getD j 0), vol.eval t ^ 2) / 2 +
          ∑ i ∈ Finset.range (j + 1), w i * draws.getD i 0)) := by
  have hsort : (0 :: times).Pairwise (· ≤ ·) := List.pairwise_cons.2 ⟨h0, hs⟩
  have hvar : ∀ j, j < times.length → (∫ t in (0 : ℝ)..(times.getD j 0), vol.eval t ^ 2) =
      ∑ i ∈ Finset.range (j + 1), vol.squared.integrate ((0 :: times).getD i 0) ((0 :: times).getD (i + 1) 0) := by
    intro j hj
    rw [integrate_telescope _ (squared_ok vol hv) (fun i => (0 :: times).getD i 0), integrate_eq _ (squared_ok vol hv)]
    simp only [List.getD_cons_zero, List.getD_cons_succ, squared_eval]
  have hmean : ∀ j, j < times.length → (∫ t in (0 : ℝ)..(times.getD j 0), mean.eval t) =
      ∑ i ∈ Finset.range (j + 1), mean.integrate ((0 :: times).getD i 0) ((0 :: times).getD (i + 1) 0) := by
    intro j hj
    rw [integrate_telescope _ hm (fun i => (0 :: times).getD i 0), integrate_eq _ hm]
    simp only [List.getD_cons_zero, List.getD_cons_succ]
  refine ⟨fun i => Real.sqrt (vol.squared.integrate ((0 :: times).getD i 0) ((0 :: times).getD (i + 1) 0)), ?_⟩
  intro j hj
  refine ⟨?_, ?_⟩
  · rw [hvar j hj]
    apply Finset.sum_congr rfl
    intro i hi
    rw [Finset.mem_range] at hi
    apply Real.sq_sqrt
    apply squared_nonneg vol hv
    exact getD_mono _ hsort i (i + 1) (by omega) (by simp; omega)
  · intro x0 draws hd
    rw [gbmPath_get mean vol x0 times draws hd j hj, hvar j hj, hmean j hj]
    congr 3
    rw [Finset.sum_div, ← Finset.sum_sub_distrib, ← Finset.sum_add_distrib]
    rfl

/-- C60: the values are positive for a positive initial value. -/
theorem C60_positive (mean vol : TimeParam) (times draws : List ℝ) (x0 : ℝ) (hx : 0 < x0) : ∀ x ∈ gbmPath mean vol x0 times draws, 0 < x := by
  intro x hx'
  unfold gbmPath at hx'
  obtain ⟨c, _, rfl⟩ := List.mem_map.1 hx'
  positivity

/-- C60: given the path up to a time, the mean of the value at the next time is the current value times the exponential of the integral of the drift
rate. `prev` is the value at the time before. -/
theorem C60_growth (mean vol : TimeParam) (hm : TimeParamOk mean) (hv : TimeParamOk vol) (times draws : List ℝ) (hs : times.Pairwise (· ≤ ·))
    (h0 : ∀ t ∈ times, 0 ≤ t) (x0 : ℝ) (hd : draws.length = times.length) (j : Nat) (hj : j < times.length) (prev : ℝ)
    (hprev : (x0 :: gbmPath mean vol x0 times draws)[j]? = some prev) :
    normalExpectation 0 1 (fun z => (gbmPath mean vol x0 times (draws.set j z)).getD j 0) =
      prev * Real.exp (∫ t in ((0 :: times).getD j 0)..(times.getD j 0), mean.eval t) := by
  have hsort : (0 :: times).Pairwise (· ≤ ·) := List.pairwise_cons.2 ⟨h0, hs⟩
  set v := vol.squared.integrate ((0 :: times).getD j 0) (times.getD j 0) with hvdef
  have hv0 : 0 ≤ v := by
    apply squared_nonneg vol hv
    have := getD_mono _ hsort j (j + 1) (by omega) (by simp; omega)
    simpa only [List.getD_cons_succ] using this
  have hp : prev = x0 * Real.exp (∑ i ∈ Finset.range j,
      gbmLogIncrement mean vol ((0 :: times).getD i 0) ((0 :: times).getD (i + 1) 0) (draws.getD i 0)) := by
    cases j with
    | zero => simp at hprev; simp [hprev]
    | succ j =>
      rw [List.getElem?_cons_succ, gbmPath_get mean vol x0 times draws hd j (by omega)] at hprev
      exact (Option.some.inj hprev).symm
  have hf : (fun z => (gbmPath mean vol x0 times (draws.set j z)).getD j 0) =
      fun z => prev * Real.exp (mean.integrate ((0 :: times).getD j 0) (times.getD j 0) - v / 2 + Real.sqrt v * z) := by
    funext z
    rw [getD_of_some _ _ _ (gbmPath_get mean vol x0 times (draws.set j z) (by simpa using hd) j hj), Finset.sum_range_succ, Real.exp_add, ← mul_assoc, hp]
    congr 1
    · congr 2
      apply Finset.sum_congr rfl
      intro i hi
      rw [Finset.mem_range] at hi
      rw [List.getD_eq_getElem?_getD (l := draws.set j z), List.getElem?_set_ne (by omega), ← List.getD_eq_getElem?_getD]
    · rw [List.getD_eq_getElem?_getD (l := draws.set j z), List.getElem?_set_self (by omega)]
      rfl
  rw [hf, ← integrate_eq mean hm]
  have h1 : ∀ z, prev * Real.exp (mean.integrate ((0 :: times).getD j 0) (times.getD j 0) - v / 2 + Real.sqrt v * z) =
      prev * Real.exp (mean.integrate ((0 :: times).getD j 0) (times.getD j 0)) * Real.exp (Real.sqrt v * z - Real.sqrt v ^ 2 / 2) := by
    intro z
    rw [Real.sq_sqrt hv0, mul_assoc, ← Real.exp_add]
    ring_nf
  simp only [h1]
  rw [normalExpectation_std 0 1 _ (by fun_prop)]
  simp only [zero_add, one_mul]
  exact lognormal_mean _ _

/-- C60: the drift and volatility functions of the process. -/
theorem C60_coefficients {d : Nat} (vols x : Fin d → ℝ) (L corr : Matrix (Fin d) (Fin d) ℝ) (hL : L * L.transpose = corr) :
    (∀ k l, (multiGbmVolatility vols (some L) x * (multiGbmVolatility vols (some L) x).transpose) k l = vols k * x k * (vols l * x l) * corr k l) ∧
    ∀ k l, (multiGbmVolatility vols none x * (multiGbmVolatility vols none x).transpose) k l = if k = l then (vols k * x k) ^ 2 else 0 := by
  constructor
  · intro k l
    rw [← hL]
    simp only [multiGbmVolatility, Matrix.mul_apply, Matrix.transpose_apply, Matrix.of_apply, Finset.mul_sum]
    apply Finset.sum_congr rfl
    intro m _
    ring
  · intro k l
    simp only [multiGbmVolatility, Matrix.mul_apply, Matrix.transpose_apply, Matrix.of_apply]
    rw [Finset.sum_eq_single k (fun m _ hm => by simp [Ne.symm hm]) (by simp)]
    by_cases h : k = l
    · subst h; simp; ring
    · simp [h, Ne.symm h]

/-- C60: the multivariate process has the exact joint law at all requested times. The logarithm of each component is its exact mean plus weighted draws,
and the sums of products of the weights up to a time are the exact covariances of the logarithms at this time. -/
theorem C60_multi {d : Nat} (means vols : Fin d → ℝ) (cholesky : Option (Matrix (Fin d) (Fin d) ℝ)) (corr : Matrix (Fin d) (Fin d) ℝ)
    (hL : ∀ L, cholesky = some L → L * L.transpose = corr) (hI : cholesky = none → corr = 1) (times : List ℝ) (hs : times.Pairwise (· ≤ ·))
    (h0 : ∀ t ∈ times, 0 ≤ t) :
    ∃ w : Fin d → Nat → Fin d → ℝ, ∀ j, j < times.length →
      (∀ k l, ∑ i ∈ Finset.range (j + 1), ∑ m, w k i m * w l i m = vols k * vols l * corr k l * times.getD j 0) ∧
      ∀ (x0 : Fin d → ℝ) (draws : List (Fin d → ℝ)), draws.length = times.length → ∀ k, (multiGbmPath means vols cholesky x0 times draws k)[j]? =
        some (x0 k * Real.exp ((means k - vols k ^ 2 / 2) * times.getD j 0 + ∑ i ∈ Finset.range (j + 1), ∑ m, w k i m * draws.getD i 0 m)) := by
  have hsort : (0 :: times).Pairwise (· ≤ ·) := List.pairwise_cons.2 ⟨h0, hs⟩
  -- one matrix for both cases
  obtain ⟨M, hM, hMz⟩ : ∃ M : Matrix (Fin d) (Fin d) ℝ, M * M.transpose = corr ∧ ∀ z, stochasticIncrement cholesky z = M.mulVec z := by
    cases cholesky with
    | none => exact ⟨1, by rw [hI rfl]; simp, fun z => by simp [stochasticIncrement]⟩
    | some L => exact ⟨L, hL L rfl, fun z => rfl⟩
  set t : Nat → ℝ := fun i => (0 :: times).getD i 0 with ht
  have htel : ∀ n, ∑ i ∈ Finset.range n, (t (i + 1) - t i) = t n := by
    intro n
    rw [Finset.sum_range_sub]
    simp [ht]
  refine ⟨fun k i m => Real.sqrt (t (i + 1) - t i) * vols k * M k m, ?_⟩
  intro j hj
  have htj : times.getD j 0 = t (j + 1) := by simp [ht]
  refine ⟨?_, ?_⟩
  · intro k l
    rw [htj, ← htel (j + 1), Finset.mul_sum]
    apply Finset.sum_congr rfl
    intro i hi
    rw [Finset.mem_range] at hi
    have hnn : 0 ≤ t (i + 1) - t i := by
      have := getD_mono _ hsort i (i + 1) (by omega) (by simp; omega)
      exact sub_nonneg.2 this
    rw [← hM, Matrix.mul_apply]
    simp only [Matrix.transpose_apply]
    rw [Finset.mul_sum, Finset.sum_mul]
    apply Finset.sum_congr rfl
    intro m _
    have := Real.mul_self_sqrt hnn
    linear_combination (vols k * vols l * M k m * M l m) * this
  · intro x0 draws hd k
    unfold multiGbmPath
    simp only
    set dt := List.zipWith (fun a b => a - b) (0 :: times).tail (0 :: times).dropLast with hdt
    set incs := List.zipWith (fun dt z => (means k - vols k ^ 2 / 2) * dt + Real.sqrt dt * vols k * stochasticIncrement cholesky z k) dt draws with hincs
    have hdl : dt.length = times.length := by rw [hdt]; simp
    have hlen : incs.length = times.length := by rw [hincs]; simp [hd, hdl]
    rw [List.getElem?_map, matVec_lower incs j (by omega), Option.map_some, take_sum incs (j + 1) (by omega)]
    congr 3
    rw [htj, ← htel (j + 1), Finset.mul_sum, ← Finset.sum_add_distrib]
    apply Finset.sum_congr rfl
    intro i hi
    rw [Finset.mem_range] at hi
    have hdi : dt[i]? = some (t (i + 1) - t i) := by
      rw [hdt, List.getElem?_zipWith]
      have h1 : (0 :: times).tail[i]? = some (t (i + 1)) := by
        simp only [List.tail_cons, ht, List.getD_cons_succ]
        exact getD_some times i (by omega)
      have h2 : (0 :: times).dropLast[i]? = some (t i) := by
        rw [List.getElem?_dropLast]
        simp only [List.length_cons, Nat.add_sub_cancel]
        rw [if_pos (by omega)]
        exact getD_some _ i (by simp; omega)
      rw [h1, h2]
    apply getD_of_some incs i _
    rw [hincs, List.getElem?_zipWith, hdi, some_getD draws i 0 (by omega)]
    simp only [hMz, Matrix.mulVec, dotProduct, Finset.mul_sum]
    congr 2
    apply Finset.sum_congr rfl
    intro m _
    ring

/-- Drift rate 1 up to time 1, then 2; volatility 3. -/
example : gbmPath (.piecewise [1] [1, 2]) (.constant 3) 5 [1, 2] [0, 1] =
    [5 * Real.exp (1 - 9 / 2), 5 * Real.exp ((1 - 9 / 2) + (2 - 9 / 2 + 3))] := by
  have hs : Real.sqrt (3 ^ 2) = 3 := Real.sqrt_sq (by norm_num)
  have h1 : piecewiseIntegrate [(1 : ℝ)] [1, 2] 0 1 = 1 := by
    rw [C23_one_piece [1] [1, 2] (by simp) (by simp) rfl 0 1 0 (by simp) (by simp) (by simp)]; simp
  have h2 : piecewiseIntegrate [(1 : ℝ)] [1, 2] 1 2 = 2 := by
    rw [C23_one_piece [1] [1, 2] (by simp) (by simp) rfl 1 2 1 (by simp) (by simp) (by simp)]; norm_num
  simp [gbmPath, gbmLogIncrement, TimeParam.integrate, TimeParam.squared, cumsumUsingMatvec, matVec, lowerTriangle, List.range_succ, h1, h2, hs]
  norm_num [hs]

end Props
