import Verif.Model.SviCalibration
import Verif.Props.Svi
import Mathlib.Tactic.Positivity
import Mathlib.Tactic.LinearCombination

/-! C97: calibration of a raw SVI smile. -/

namespace Props
open Model

/-- The parameters of a smile that is positive everywhere and has two wings that are not flat. -/
def ValidSvi (p : SviParameters) : Prop :=
  0 < p.b ∧ 0 < p.sigma ∧ -1 < p.rho ∧ p.rho < 1 ∧ 0 < p.a + p.b * p.sigma * Real.sqrt (1 - p.rho ^ 2)

theorem sviFrom_valid (u0 u1 u2 u3 u4 : ℝ) : ValidSvi (sviFromUnconstrained u0 u1 u2 u3 u4) := by
  have h := Real.exp_pos (-u2)
  refine ⟨Real.exp_pos _, Real.exp_pos _, ?_, ?_, ?_⟩
  · show -1 < 2 * (1 / (1 + Real.exp (-u2))) - 1
    have : 0 < 1 / (1 + Real.exp (-u2)) := by positivity
    linarith
  · show 2 * (1 / (1 + Real.exp (-u2))) - 1 < 1
    have : 1 / (1 + Real.exp (-u2)) < 1 := by rw [div_lt_one (by positivity)]; linarith
    linarith
  · simp only [sviFromUnconstrained]
    have := Real.exp_pos u0
    linarith

/-- Whatever the optimizer returns, the calibrated parameters are valid, and the total variance they give is positive at every strike. -/
theorem C97_valid (optimizer : (ℝ → ℝ → ℝ → ℝ → ℝ → ℝ) → SviPosition → ℝ × ℝ × ℝ × ℝ × ℝ) (forward expiry : ℝ) (quotes : List SviQuote)
    (initial : Option SviParameters) (k : ℝ) :
    ValidSvi (sviCalibration optimizer forward expiry quotes initial) ∧
      ∃ w, sviTotalVariance (sviCalibration optimizer forward expiry quotes initial) (some k) none none = .ok w ∧ 0 < w := by
  have hv : ValidSvi (sviCalibration optimizer forward expiry quotes initial) := sviFrom_valid _ _ _ _ _
  refine ⟨hv, _, rfl, ?_⟩
  obtain ⟨h1, h2, h3, h4, h5⟩ := hv
  have := (C73_minimum (sviCalibration optimizer forward expiry quotes initial) h1.le h2.le (by nlinarith)).1 k
  exact h5.trans_le this

theorem rho_of_r (rho : ℝ) (h1 : -1 < rho) (h2 : rho < 1) :
    2 * (1 / (1 + Real.exp (-(Real.log (1 + rho) - Real.log (1 + -rho))))) - 1 = rho := by
  have e : Real.exp (-(Real.log (1 + rho) - Real.log (1 + -rho))) = (1 - rho) / (1 + rho) := by
    rw [neg_sub, Real.exp_sub, Real.exp_log (by linarith), Real.exp_log (by linarith)]
    ring
  rw [e]
  have : 1 + rho ≠ 0 := by linarith
  field_simp
  ring

/-- Valid parameters have a finite position, from which they are recovered exactly; so every valid smile can be the result. -/
theorem C97_round_trip (p : SviParameters) (h : ValidSvi p) :
    ∃ u0 u1 u2 u4, sviToUnconstrained p = ⟨some u0, some u1, some u2, p.m, some u4⟩ ∧ sviFromUnconstrained u0 u1 u2 p.m u4 = p := by
  obtain ⟨h1, h2, h3, h4, h5⟩ := h
  refine ⟨Real.log (p.a + p.b * p.sigma * Real.sqrt (1 - p.rho ^ 2)), Real.log p.b, Real.log (1 + p.rho) - Real.log (1 + -p.rho),
    Real.log p.sigma, ?_, ?_⟩
  · have e1 : ¬ (1 - p.rho ^ 2 < 0) := by nlinarith
    have e2 : ¬ (p.rho < -1 ∨ 1 < p.rho) := by rintro (h | h) <;> linarith
    have e3 : ¬ (p.rho = -1 ∨ p.rho = 1) := by rintro (h | h) <;> linarith
    unfold sviToUnconstrained logOrZero
    simp only [if_neg e1, if_neg e2, if_neg e3, if_neg (not_lt.2 h1.le), if_neg (not_lt.2 h2.le), if_neg (not_lt.2 h5.le), if_neg h1.ne',
      if_neg h2.ne', if_neg h5.ne']
  · unfold sviFromUnconstrained
    simp only [rho_of_r p.rho h3 h4, Real.exp_log h1, Real.exp_log h2, Real.exp_log h5]
    cases p
    simp

/-- A position is recovered from its parameters. -/
theorem C97_positions (u0 u1 u2 u3 u4 : ℝ) :
    sviToUnconstrained (sviFromUnconstrained u0 u1 u2 u3 u4) = ⟨some u0, some u1, some u2, u3, some u4⟩ := by
  obtain ⟨v0, v1, v2, v4, e1, _⟩ := C97_round_trip _ (sviFrom_valid u0 u1 u2 u3 u4)
  obtain ⟨h1, h2, h3, h4, h5⟩ := sviFrom_valid u0 u1 u2 u3 u4
  have hx := Real.exp_pos (-u2)
  have f1 : (sviFromUnconstrained u0 u1 u2 u3 u4).a + (sviFromUnconstrained u0 u1 u2 u3 u4).b * (sviFromUnconstrained u0 u1 u2 u3 u4).sigma *
      Real.sqrt (1 - (sviFromUnconstrained u0 u1 u2 u3 u4).rho ^ 2) = Real.exp u0 := by simp [sviFromUnconstrained]
  have f2 : (sviFromUnconstrained u0 u1 u2 u3 u4).b = Real.exp u1 := rfl
  have f3 : (sviFromUnconstrained u0 u1 u2 u3 u4).sigma = Real.exp u4 := rfl
  have f4 : Real.log (1 + (sviFromUnconstrained u0 u1 u2 u3 u4).rho) - Real.log (1 + -(sviFromUnconstrained u0 u1 u2 u3 u4).rho) = u2 := by
    rw [← Real.log_div (by linarith) (by linarith)]
    have : (1 + (sviFromUnconstrained u0 u1 u2 u3 u4).rho) / (1 + -(sviFromUnconstrained u0 u1 u2 u3 u4).rho) = Real.exp u2 := by
      show (1 + (2 * (1 / (1 + Real.exp (-u2))) - 1)) / (1 + -(2 * (1 / (1 + Real.exp (-u2))) - 1)) = Real.exp u2
      rw [Real.exp_neg] at hx ⊢
      have := Real.exp_pos u2
      field_simp
      ring
    rw [this, Real.log_exp]
  have e2 : ¬ ((sviFromUnconstrained u0 u1 u2 u3 u4).rho < -1 ∨ 1 < (sviFromUnconstrained u0 u1 u2 u3 u4).rho) := by
    rintro (h | h) <;> linarith
  have e3 : ¬ ((sviFromUnconstrained u0 u1 u2 u3 u4).rho = -1 ∨ (sviFromUnconstrained u0 u1 u2 u3 u4).rho = 1) := by
    rintro (h | h) <;> linarith
  have e4 : ¬ (1 - (sviFromUnconstrained u0 u1 u2 u3 u4).rho ^ 2 < 0) := by nlinarith
  unfold sviToUnconstrained logOrZero
  simp only [if_neg e2, if_neg e3, if_neg e4, f1]
  simp only [f2, f3, f4, if_neg (not_lt.2 (Real.exp_pos _).le), if_neg (Real.exp_pos _).ne', Real.log_exp]
  rfl

/-- An optimizer that stays at its first position returns valid initial parameters. -/
theorem C97_start (forward expiry : ℝ) (quotes : List SviQuote) (p : SviParameters) (h : ValidSvi p) :
    sviCalibration (fun _ x => (x.logMinVar.getD 0, x.logB.getD 0, x.r.getD 0, x.m, x.logSigma.getD 0)) forward expiry quotes (some p) = p := by
  obtain ⟨u0, u1, u2, u4, e1, e2⟩ := C97_round_trip p h
  unfold sviCalibration sviStart
  simp only [e1, Option.getD_some]
  exact e2

theorem sviLoss_eq (forward expiry : ℝ) (p : SviParameters) (quotes : List SviQuote) : sviLoss forward expiry quotes p =
    (quotes.map fun q => q.weight * (Real.sqrt (sviSmile p (Real.log (q.strike / forward)) / expiry) - q.volatility) ^ 2).sum := rfl

/-- The loss of weighted quotes is never negative and zero exactly where the volatilities of the smile are the quoted ones. -/
theorem C97_loss (forward expiry : ℝ) (quotes : List SviQuote) (p : SviParameters) (hw : ∀ q ∈ quotes, 0 < q.weight) :
    0 ≤ sviLoss forward expiry quotes p ∧ (sviLoss forward expiry quotes p = 0 ↔
      ∀ q ∈ quotes, sviImpliedVolatility p none (some forward) (some q.strike) expiry = .ok q.volatility) := by
  have hi : ∀ q : SviQuote, sviImpliedVolatility p none (some forward) (some q.strike) expiry =
      .ok (Real.sqrt (sviSmile p (Real.log (q.strike / forward)) / expiry)) := fun q => rfl
  simp only [sviLoss_eq, hi, Except.ok.injEq]
  induction quotes with
  | nil => simp
  | cons q l ih =>
    obtain ⟨h1, h2⟩ := ih fun q hq => hw q (List.mem_cons_of_mem _ hq)
    have hq := hw q List.mem_cons_self
    simp only [List.map_cons, List.sum_cons, List.forall_mem_cons]
    have hn : 0 ≤ q.weight * (Real.sqrt (sviSmile p (Real.log (q.strike / forward)) / expiry) - q.volatility) ^ 2 := by positivity
    refine ⟨add_nonneg hn h1, ?_⟩
    rw [← h2, add_eq_zero_iff_of_nonneg hn h1, mul_eq_zero, or_iff_right hq.ne', pow_eq_zero_iff two_ne_zero, sub_eq_zero]

theorem argminFrom_spec (l : List ℝ) (best : ℝ) (bi i : Nat) :
    (argminFrom best bi i l = bi ∧ ∀ x ∈ l, best ≤ x) ∨
    ∃ j x, argminFrom best bi i l = i + j ∧ l[j]? = some x ∧ x < best ∧ ∀ y ∈ l, x ≤ y := by
  induction l generalizing best bi i with
  | nil => left; simp [argminFrom]
  | cons a l ih =>
    unfold argminFrom
    split
    · rename_i h
      rcases ih a i (i + 1) with ⟨e, h2⟩ | ⟨j, x, e, h2, h3, h4⟩
      · right
        refine ⟨0, a, by simpa using e, rfl, h, ?_⟩
        simpa using h2
      · right
        refine ⟨j + 1, x, by omega, by simpa using h2, h3.trans h, ?_⟩
        simpa [h3.le] using h4
    · rename_i h
      rcases ih best bi (i + 1) with ⟨e, h2⟩ | ⟨j, x, e, h2, h3, h4⟩
      · left
        refine ⟨e, ?_⟩
        simpa [not_lt.1 h] using h2
      · right
        refine ⟨j + 1, x, by omega, by simpa using h2, h3, ?_⟩
        simpa [h3.le.trans (not_lt.1 h)] using h4

theorem argmin_spec (l : List ℝ) (h : l ≠ []) : ∃ x, l[argmin l]? = some x ∧ ∀ y ∈ l, x ≤ y := by
  match l, h with
  | a :: l, _ =>
    have e0 : argmin (a :: l) = argminFrom a 0 1 l := rfl
    rw [e0]
    rcases argminFrom_spec l a 0 1 with ⟨e, h2⟩ | ⟨j, x, e, h2, h3, h4⟩
    · exact ⟨a, by rw [e]; rfl, by simpa using h2⟩
    · refine ⟨x, ?_, by simpa [h3.le] using h4⟩
      rw [e, Nat.add_comm]
      simpa using h2

/-- The heuristic start has its vertex at a quote of least total variance, correlation zero and width one half. -/
theorem C97_estimate_vertex (ks ws : List ℝ) (hl : ks.length = ws.length) (h : ws ≠ []) :
    (sviEstimate ks ws).2.1 = 0 ∧ (sviEstimate ks ws).2.2.2 = 1 / 2 ∧
      ∃ (i : Nat) (w : ℝ), ws[i]? = some w ∧ (∀ v ∈ ws, w ≤ v) ∧ ks[i]? = some (sviEstimate ks ws).2.2.1 := by
  have e : (sviEstimate ks ws).2 = (0, ks.getD (argmin ws) 0, 0.5) := by
    unfold sviEstimate
    dsimp only
    split <;> rfl
  rw [e]
  obtain ⟨w, h1, h2⟩ := argmin_spec ws h
  refine ⟨rfl, by norm_num, argmin ws, w, h1, h2, ?_⟩
  have := (List.getElem?_eq_some_iff.1 h1).1
  rw [List.getD_eq_getElem?_getD, List.getElem?_eq_getElem (by omega)]
  rfl

theorem sum_map_const_add (l : List (ℝ × ℝ)) (f g : ℝ × ℝ → ℝ) : (l.map fun e => f e + g e).sum = (l.map f).sum + (l.map g).sum := by
  induction l with
  | nil => simp
  | cons a l ih => simp only [List.map_cons, List.sum_cons, ih]; ring

theorem sum_map_const_mul (l : List (ℝ × ℝ)) (c : ℝ) (f : ℝ × ℝ → ℝ) : (l.map fun e => c * f e).sum = c * (l.map f).sum := by
  induction l with
  | nil => simp
  | cons a l ih => simp only [List.map_cons, List.sum_cons, ih]; ring

/-- Simple linear regression: for pairs of numbers, the coefficients minimise the sum of squares. -/
theorem regression (l : List (ℝ × ℝ)) (n sx sy sxy v a b : ℝ) (hn : n = l.length) (hn0 : n ≠ 0) (hsx : sx = (l.map (·.1)).sum / n) (hsy : sy = (l.map (·.2)).sum / n)
    (hsxy : sxy = (l.map fun e => e.1 * e.2).sum / n) (hv : v = (l.map fun e => (e.1 - sx) ^ 2).sum / n) (hv0 : v ≠ 0)
    (hb : b = (sxy - sx * sy) / v) (ha : a = sy - b * sx) (a' b' : ℝ) :
    (l.map fun e => (e.2 - (a + b * e.1)) ^ 2).sum ≤ (l.map fun e => (e.2 - (a' + b' * e.1)) ^ 2).sum := by
  have c1 : (l.map fun e => (1 : ℝ)).sum = n := by rw [hn]; simp
  have x1 : (l.map (·.1)).sum = n * sx := by rw [hsx]; field_simp
  have y1 : (l.map (·.2)).sum = n * sy := by rw [hsy]; field_simp
  have xy1 : (l.map fun e => e.1 * e.2).sum = n * sxy := by rw [hsxy]; field_simp
  have v1 : (l.map fun e => (e.1 - sx) ^ 2).sum = n * v := by rw [hv]; field_simp
  have x2 : (l.map fun e => e.1 ^ 2).sum = n * v + n * sx ^ 2 := by
    have e : (fun e : ℝ × ℝ => e.1 ^ 2) = fun e => (e.1 - sx) ^ 2 + (2 * sx * e.1 + -sx ^ 2 * 1) := by funext e; ring
    rw [e, sum_map_const_add, sum_map_const_add, sum_map_const_mul, sum_map_const_mul, v1, x1, c1]
    ring
  have nb : v * b = sxy - sx * sy := by rw [hb]; field_simp
  have key : (l.map fun e => (e.2 - (a' + b' * e.1)) ^ 2).sum =
      (l.map fun e => (e.2 - (a + b * e.1)) ^ 2).sum + (l.map fun e => ((a - a') + (b - b') * e.1) ^ 2).sum := by
    have e : (fun e : ℝ × ℝ => (e.2 - (a' + b' * e.1)) ^ 2) = fun e => (e.2 - (a + b * e.1)) ^ 2 + (((a - a') + (b - b') * e.1) ^ 2 +
        (2 * (a - a') * e.2 + (-(2 * (a - a') * a) * 1 + ((-(2 * (a - a') * b) - 2 * (b - b') * a) * e.1 + (2 * (b - b') * (e.1 * e.2) +
          -(2 * (b - b') * b) * e.1 ^ 2))))) := by
      funext e; ring
    rw [e]
    simp only [sum_map_const_add]
    rw [sum_map_const_mul, sum_map_const_mul, sum_map_const_mul, sum_map_const_mul l (2 * (b - b')) fun e => e.1 * e.2,
      sum_map_const_mul l (-(2 * (b - b') * b)) fun e => e.1 ^ 2, x1, y1, c1, xy1, x2]
    have hz : 2 * (a - a') * (n * sy) + (-(2 * (a - a') * a) * n + ((-(2 * (a - a') * b) - 2 * (b - b') * a) * (n * sx) +
        (2 * (b - b') * (n * sxy) + -(2 * (b - b') * b) * (n * v + n * sx ^ 2)))) = 0 := by
      rw [ha]
      linear_combination (-2 * (b - b') * n) * nb
    rw [hz, add_zero]
  rw [key]
  have : 0 ≤ (l.map fun e => ((a - a') + (b - b') * e.1) ^ 2).sum :=
    List.sum_nonneg (by simp only [List.mem_map]; rintro x ⟨y, _, rfl⟩; positivity)
  linarith

/-- The level and slope of the heuristic start minimise the sum of squared errors of the total variance among all smiles with the same
vertex, correlation and width. -/
theorem C97_estimate_least_squares (ks ws : List ℝ) (hl : ks.length = ws.length) (a b rho m sigma : ℝ)
    (h : sviEstimate ks ws = (some (a, b), rho, m, sigma)) (a' b' : ℝ) :
    (List.zipWith (fun k w => (w - sviSmile ⟨a, b, rho, m, sigma⟩ k) ^ 2) ks ws).sum ≤
      (List.zipWith (fun k w => (w - sviSmile ⟨a', b', rho, m, sigma⟩ k) ^ 2) ks ws).sum := by
  unfold sviEstimate at h
  dsimp only at h
  split at h
  · simp at h
  · rename_i hv
    simp only [Prod.mk.injEq, Option.some.injEq] at h
    obtain ⟨⟨h1, h2⟩, h3, h4, h5⟩ := h
    rw [h4] at hv h1 h2
    rw [h5] at hv h1 h2
    rw [← h3]
    generalize hx : (ks.map fun k => Real.sqrt ((k - m) ^ 2 + sigma ^ 2)) = xs at hv h1 h2
    have hxl : xs.length = ws.length := by rw [← hx, List.length_map, hl]
    have z : ∀ a b : ℝ, (List.zipWith (fun k w => (w - sviSmile ⟨a, b, 0, m, sigma⟩ k) ^ 2) ks ws) =
        (xs.zip ws).map fun e => (e.2 - (a + b * e.1)) ^ 2 := by
      intro a b
      rw [← hx, List.zip_map_left, List.map_map, List.zip, List.map_zipWith]
      simp [sviSmile]
    rw [z, z]
    have f1 : (xs.zip ws).map (·.1) = xs := List.map_fst_zip hxl.le
    have f2 : (xs.zip ws).map (·.2) = ws := List.map_snd_zip hxl.ge
    have hn0 : (xs.length : ℝ) ≠ 0 := by
      intro h0
      apply hv
      have : xs = [] := List.length_eq_zero_iff.1 (by exact_mod_cast h0)
      rw [this]
      simp [sviMean]
    refine regression (xs.zip ws) xs.length (sviMean xs) (sviMean ws) (sviMean (List.zipWith (fun u v => u * v) xs ws))
      (sviMean (xs.map fun u => (u - sviMean xs) ^ 2)) a b ?_ hn0 ?_ ?_ ?_ ?_ hv h2.symm ?_ a' b'
    · rw [List.length_zip, hxl, min_self]
    · rw [f1]; rfl
    · rw [f2, hxl]; rfl
    · have : (xs.zip ws).map (fun e => e.1 * e.2) = List.zipWith (fun u v => u * v) xs ws := by
        rw [List.zip, List.map_zipWith]
      rw [this]
      unfold sviMean
      rw [List.length_zipWith, hxl, min_self]
    · have : (xs.zip ws).map (fun e => (e.1 - sviMean xs) ^ 2) = xs.map fun u => (u - sviMean xs) ^ 2 := by
        have := congrArg (List.map fun u => (u - sviMean xs) ^ 2) f1
        rwa [List.map_map] at this
      rw [this]
      unfold sviMean
      rw [List.length_map]
    · rw [← h1, h2]

/-- A fitted slope that is negative is replaced by one, a fitted least variance that is negative by one; the other coordinates of the start
do not depend on it. -/
theorem C97_bad_fit (a b m : ℝ) :
    (b < 0 → (sviToUnconstrained ⟨a, b, 0, m, 0.5⟩).logB = some 0) ∧
    (a + b * 0.5 < 0 → (sviToUnconstrained ⟨a, b, 0, m, 0.5⟩).logMinVar = some 0) ∧
    (sviToUnconstrained ⟨a, b, 0, m, 0.5⟩).r = some 0 ∧ (sviToUnconstrained ⟨a, b, 0, m, 0.5⟩).logSigma = some (Real.log 0.5) := by
  refine ⟨?_, ?_, ?_, ?_⟩
  · intro h; simp [sviToUnconstrained, logOrZero, h]
  · intro h; simp [sviToUnconstrained, logOrZero, h]
  · norm_num [sviToUnconstrained]
  · norm_num [sviToUnconstrained, logOrZero]

/-- Two quotes at the same distance from the vertex, or a single quote: the regression is undefined and the start has least variance and
slope one. -/
theorem C97_single_quote (forward expiry : ℝ) (q : SviQuote) :
    sviStart forward expiry [q] none = ⟨some 0, some 0, some 0, Real.log (q.strike / forward), some (Real.log 0.5)⟩ := by
  unfold sviStart sviEstimate sviMoneyness sviTargets sviMean
  simp only [List.map_cons, List.map_nil, argmin, argminFrom, List.getD_cons_zero, sub_self, List.sum_cons, List.sum_nil, List.length_cons,
    List.length_nil]
  norm_num [sviToUnconstrained, logOrZero]

/-- A valid smile that the calibration can return. -/
example : sviFromUnconstrained 0 0 0 0 0 = ⟨0, 1, 0, 0, 1⟩ := by
  norm_num [sviFromUnconstrained]

example : argmin [3, 1, 2, 1] = 1 := by norm_num [argmin, argminFrom]

end Props
