import Verif.Lemmas.TreeLimit
import Verif.Props.CrrLimit
import Mathlib.Analysis.SpecificLimits.Basic
import Mathlib.Data.Nat.ModEq
import Mathlib.Algebra.Order.Floor.Semifield

/-! # Limits of put values in binomial trees with exercise dates -/

namespace Spec
open MeasureTheory ProbabilityTheory

/-- A put payoff as a function of the log price. -/
noncomputable def putLog (K x : ℝ) : ℝ := max (K - Real.exp x) 0

/-- Value of a claim on the log price a time `Δ` later under Black-Scholes dynamics with rate `r`, dividend yield `q` and volatility `σ`. -/
noncomputable def bsLater (r q σ Δ : ℝ) (f : ℝ → ℝ) (x : ℝ) : ℝ :=
  Real.exp (-r * Δ) * ∫ y, f y ∂gaussianReal (x + (r - q - σ ^ 2 / 2) * Δ) (Real.toNNReal (σ ^ 2 * Δ))

/-- Value at an exercise date of a put with `j` exercise dates left after it, a time `Δ` apart from each other. -/
noncomputable def bermudanPut (K r q σ Δ : ℝ) : ℕ → ℝ → ℝ
  | 0 => putLog K
  | j + 1 => fun x => max (putLog K x) (bsLater r q σ Δ (bermudanPut K r q σ Δ j) x)

end Spec

namespace Lemmas
open Model Spec MeasureTheory ProbabilityTheory Filter Topology

/-! ## Exercise dates in the tree -/

open Classical in
/-- The dates, counted from expiry, that divide the moves into `k` parts. -/
noncomputable def partDates (k n : ℕ) (m : ℕ) : Bool := decide (∃ j, 0 < j ∧ j < k ∧ m = j * n / k)

theorem partDates_lt {k n : ℕ} (hk : 0 < k) (hn : k ≤ n) (j : ℕ) : j * n / k < (j + 1) * n / k := by
  have h1 : j * n / k + n / k ≤ (j * n + n) / k := Nat.add_div_le_add_div _ _ _
  have h2 : 0 < n / k := Nat.div_pos hn hk
  rw [show (j + 1) * n = j * n + n by ring]
  omega

theorem partDates_mono {k n : ℕ} {i j : ℕ} (h : i ≤ j) : i * n / k ≤ j * n / k := Nat.div_le_div_right (Nat.mul_le_mul_right n h)

theorem partDates_between {k n : ℕ} (j i : ℕ) (h0 : j * n / k < i) (h1 : i < (j + 1) * n / k) : partDates k n i = false := by
  unfold partDates
  rw [decide_eq_false_iff_not]
  rintro ⟨j', -, -, rfl⟩
  rcases Nat.lt_or_ge j j' with h | h
  · exact absurd h1 (not_lt.2 (partDates_mono h))
  · exact absurd h0 (not_lt.2 (partDates_mono h))

theorem partDates_date {k n : ℕ} (j : ℕ) (h0 : 0 < j) (h1 : j < k) : partDates k n (j * n / k) = true := by
  classical
  exact decide_eq_true_iff.2 ⟨j, h0, h1, rfl⟩

theorem partDates_end {k n : ℕ} (hk : 0 < k) (hn : k ≤ n) : partDates k n n = false := by
  unfold partDates
  rw [decide_eq_false_iff_not]
  rintro ⟨j, -, hj, h⟩
  have h1 := partDates_lt hk hn j
  have h2 : (j + 1) * n / k ≤ k * n / k := partDates_mono hj
  rw [Nat.mul_div_cancel_left _ hk] at h2
  omega

theorem tendsto_part (k j : ℕ) : Tendsto (fun n : ℕ => ((j * n / k : ℕ) : ℝ) / n) atTop (𝓝 ((j : ℝ) / k)) := by
  have h := (tendsto_nat_floor_mul_div_atTop (R := ℝ) (a := (j : ℝ) / k) (by positivity)).comp tendsto_natCast_atTop_atTop
  refine h.congr fun n => ?_
  simp only [Function.comp]
  rw [← Nat.floor_div_eq_div (K := ℝ) (j * n) k]
  congr 3
  push_cast
  ring

theorem part_cast {k n : ℕ} (hk : 0 < k) (hn : k ≤ n) (j : ℕ) : (((j + 1) * n / k - j * n / k : ℕ) : ℝ) = (((j + 1) * n / k : ℕ) : ℝ) - ((j * n / k : ℕ) : ℝ) :=
  Nat.cast_sub (partDates_lt hk hn j).le

theorem tendsto_part_moves (k j : ℕ) (hk : 0 < k) : Tendsto (fun n : ℕ => (((j + 1) * n / k - j * n / k : ℕ) : ℝ) / n) atTop (𝓝 (1 / k)) := by
  have h := (tendsto_part k (j + 1)).sub (tendsto_part k j)
  have e : ((j + 1 : ℕ) : ℝ) / k - (j : ℝ) / k = 1 / k := by push_cast; ring
  rw [e] at h
  refine h.congr' ?_
  filter_upwards [eventually_ge_atTop k] with n hn
  rw [part_cast hk hn j]
  ring

theorem tendsto_part_atTop (k j : ℕ) (hk : 0 < k) : Tendsto (fun n : ℕ => (j + 1) * n / k - j * n / k) atTop atTop := by
  rw [tendsto_atTop]
  intro b
  filter_upwards [eventually_ge_atTop (b * k)] with n hn
  have h1 : j * n / k + n / k ≤ (j * n + n) / k := Nat.add_div_le_add_div _ _ _
  have h2 : b ≤ n / k := (Nat.le_div_iff_mul_le hk).2 hn
  rw [show (j + 1) * n = j * n + n by ring]
  omega

/-- Every date has an exercise date at most a part and one move nearer to expiry. -/
theorem partDates_near {k n : ℕ} (hk : 0 < k) (hn : 0 < n) (m : ℕ) (hm : m ≤ n) :
    ∃ m' l : ℕ, m = m' + l ∧ (m' = 0 ∨ partDates k n m' = true) ∧ (l : ℝ) ≤ (n : ℝ) / k + 1 := by
  have hk' : (0 : ℝ) < k := by exact_mod_cast hk
  obtain ⟨j, hj, h1, h2⟩ : ∃ j, j < k ∧ j * n ≤ m * k ∧ m * k ≤ (j + 1) * n := by
    rcases Nat.lt_or_ge m n with h | h
    · refine ⟨m * k / n, ?_, Nat.div_mul_le_self _ _, ?_⟩
      · rw [Nat.div_lt_iff_lt_mul hn, mul_comm k n]
        exact Nat.mul_lt_mul_of_pos_right h hk
      · exact (Nat.lt_mul_of_div_lt (Nat.lt_succ_self _) hn).le
    · obtain rfl : m = n := by omega
      refine ⟨k - 1, by omega, ?_, ?_⟩
      · rw [mul_comm m k]; exact Nat.mul_le_mul_right _ (by omega)
      · rw [Nat.sub_add_cancel hk, mul_comm]
  have hle : j * n / k ≤ m := by
    have := Nat.div_le_div_right (c := k) h1
    rwa [Nat.mul_div_cancel _ hk] at this
  refine ⟨j * n / k, m - j * n / k, by omega, ?_, ?_⟩
  · rcases Nat.eq_zero_or_pos j with rfl | h0
    · left; simp
    · right; exact partDates_date j h0 hj
  · rw [Nat.cast_sub hle]
    have h3 : j * n < (j * n / k + 1) * k := Nat.lt_mul_of_div_lt (Nat.lt_succ_self _) hk
    have h3' : (j : ℝ) * n ≤ (((j * n / k : ℕ) : ℝ) + 1) * k := by exact_mod_cast h3.le
    have h2' : (m : ℝ) * k ≤ ((j : ℝ) + 1) * n := by exact_mod_cast h2
    rw [show (n : ℝ) / k + 1 = (n + k) / k by field_simp, le_div_iff₀ hk']
    nlinarith

/-! ## The put -/

theorem putLog_nonneg (K x : ℝ) : 0 ≤ putLog K x := le_max_right _ _

theorem putLog_le (K : ℝ) (hK : 0 ≤ K) (x : ℝ) : putLog K x ≤ K := max_le (by have := Real.exp_pos x; linarith) hK

theorem putLog_lipschitz (K x y : ℝ) : |putLog K x - putLog K y| ≤ |Real.exp x - Real.exp y| := by
  refine (abs_max_sub_max_le_abs _ _ _).trans (le_of_eq ?_)
  rw [show K - Real.exp x - (K - Real.exp y) = -(Real.exp x - Real.exp y) by ring, abs_neg]

section steps
variable (r q σ T : ℝ)

/-- Move of the log price. -/
noncomputable def moveLog (n : ℕ) : ℝ := σ * Real.sqrt (T / n)
/-- Probability of an up move. -/
noncomputable def moveProb (n : ℕ) : ℝ := (1 + upExcess ((r - q) / σ ^ 2) (moveLog σ T n)) / 2
/-- Discount factor of a move. -/
noncomputable def moveDisc (n : ℕ) : ℝ := Real.exp (-r * (T / n))

variable {r q σ T}

theorem moveLog_pos (hσ : 0 < σ) (hT : 0 < T) {n : ℕ} (hn : 0 < n) : 0 < moveLog σ T n := by
  have : (0 : ℝ) < n := by exact_mod_cast hn
  exact mul_pos hσ (Real.sqrt_pos.2 (div_pos hT this))

theorem moveLog_sq (hT : 0 < T) {n : ℕ} : moveLog σ T n ^ 2 = σ ^ 2 * (T / n) := by
  unfold moveLog
  rw [mul_pow, Real.sq_sqrt (by positivity)]

theorem moveProb_eq (hσ : 0 < σ) (hT : 0 < T) {n : ℕ} (hn : 0 < n) :
    moveProb r q σ T n = (Real.exp ((r - q) * (T / n)) - Real.exp (-moveLog σ T n)) / (Real.exp (moveLog σ T n) - Real.exp (-moveLog σ T n)) := by
  unfold moveProb
  rw [← crr_prob_excess _ _ (moveLog_pos hσ hT hn), moveLog_sq hT]
  congr 3
  field_simp

theorem moveProb_growth (hσ : 0 < σ) (hT : 0 < T) {n : ℕ} (hn : 0 < n) :
    (1 - moveProb r q σ T n) * Real.exp (-moveLog σ T n) + moveProb r q σ T n * Real.exp (moveLog σ T n) = Real.exp ((r - q) * (T / n)) := by
  have hd := moveLog_pos hσ hT hn
  have h1 : Real.exp (-moveLog σ T n) < Real.exp (moveLog σ T n) := Real.exp_lt_exp.2 (by linarith)
  have h2 : Real.exp (moveLog σ T n) - Real.exp (-moveLog σ T n) ≠ 0 := by linarith
  rw [moveProb_eq hσ hT hn]
  field_simp
  ring

theorem moveDisc_growth (hσ : 0 < σ) (hT : 0 < T) {n : ℕ} (hn : 0 < n) :
    moveDisc r T n * ((1 - moveProb r q σ T n) * Real.exp (-moveLog σ T n) + moveProb r q σ T n * Real.exp (moveLog σ T n)) = Real.exp (-q * (T / n)) := by
  rw [moveProb_growth hσ hT hn, moveDisc, ← Real.exp_add]
  congr 1
  ring

theorem moveProb_mem (hσ : 0 < σ) (hT : 0 < T) : ∀ᶠ n : ℕ in atTop, 0 ≤ moveProb r q σ T n ∧ moveProb r q σ T n ≤ 1 := by
  have h1 : Tendsto (fun n : ℕ => |r - q| * Real.sqrt (T / n)) atTop (𝓝 0) := by
    have := ((Real.continuous_sqrt.tendsto 0).comp (tendsto_const_div_atTop_nhds_zero_nat T)).const_mul |r - q|
    rwa [Real.sqrt_zero, mul_zero] at this
  filter_upwards [eventually_gt_atTop 0, h1.eventually_le_const hσ] with n hn hstep
  have hn' : (0 : ℝ) < n := by exact_mod_cast hn
  have hdt := div_pos hT hn'
  rw [moveProb_eq hσ hT hn]
  have hpos := moveLog_pos hσ hT hn
  have hb : |(r - q) * (T / n)| ≤ moveLog σ T n := by
    rw [abs_mul, abs_of_pos hdt]
    calc |r - q| * (T / n) = |r - q| * Real.sqrt (T / n) * Real.sqrt (T / n) := by rw [mul_assoc, Real.mul_self_sqrt hdt.le]
      _ ≤ _ := mul_le_mul_of_nonneg_right hstep (Real.sqrt_nonneg _)
  rw [abs_le] at hb
  have h1 := Real.exp_le_exp.2 hb.1
  have h2 := Real.exp_le_exp.2 hb.2
  have h3 : Real.exp (-moveLog σ T n) < Real.exp (moveLog σ T n) := Real.exp_lt_exp.2 (by linarith)
  exact ⟨div_nonneg (by linarith) (by linarith), (div_le_one (by linarith)).2 (by linarith)⟩

theorem exp_move_pow (a : ℝ) (n l : ℕ) : Real.exp (a * (T / n)) ^ l = Real.exp (a * ((l : ℝ) * (T / n))) := by
  rw [← Real.exp_nat_mul]
  congr 1
  ring

end steps

/-- The value of a put in the tree with `n` moves and exercise dates that divide it into `k` parts. -/
noncomputable def partValue (K r q σ T : ℝ) (k n : ℕ) : ℕ → ℝ → ℝ :=
  treeValue (putLog K) (moveProb r q σ T n) (moveLog σ T n) (moveDisc r T n) 1 (partDates k n)

section
variable {K r q σ T : ℝ}

theorem exp_abs_pow_le (hT : 0 < T) (a : ℝ) {n m : ℕ} (hm : m ≤ n) : Real.exp (|a| * (T / n)) ^ m ≤ Real.exp (|a| * T) := by
  rw [exp_move_pow]
  apply Real.exp_le_exp.2
  refine mul_le_mul_of_nonneg_left ?_ (abs_nonneg a)
  rcases Nat.eq_zero_or_pos n with rfl | hn
  · simp [hT.le]
  · have hn' : (0 : ℝ) < n := by exact_mod_cast hn
    have hm' : (m : ℝ) ≤ n := by exact_mod_cast hm
    calc (m : ℝ) * (T / n) ≤ n * (T / n) := mul_le_mul_of_nonneg_right hm' (div_pos hT hn').le
      _ = T := by field_simp

theorem exp_neg_le_abs (hT : 0 < T) (a : ℝ) (n : ℕ) : Real.exp (-a * (T / n)) ≤ Real.exp (|a| * (T / n)) :=
  Real.exp_le_exp.2 (mul_le_mul_of_nonneg_right (neg_le_abs a) (by positivity))

theorem one_le_exp_abs (hT : 0 < T) (a : ℝ) (n : ℕ) : 1 ≤ Real.exp (|a| * (T / n)) := Real.one_le_exp (by positivity)

theorem partValue_bound (hK : 0 ≤ K) (hT : 0 < T) {k n m : ℕ} (hp : 0 ≤ moveProb r q σ T n ∧ moveProb r q σ T n ≤ 1) (hm : m ≤ n) (x : ℝ) :
    |partValue K r q σ T k n m x| ≤ K * Real.exp (|r| * T) := by
  have h0 : 0 ≤ partValue K r q σ T k n m x := treeValue_nonneg hp.1 hp.2 (Real.exp_pos _).le (putLog_nonneg K) m x
  rw [abs_of_nonneg h0]
  refine (treeValue_le hp.1 hp.2 (Real.exp_pos _).le (one_le_exp_abs hT r n) (exp_neg_le_abs hT r n) hK (putLog_le K hK) (putLog_nonneg K) m x).trans ?_
  exact mul_le_mul_of_nonneg_left (exp_abs_pow_le hT r hm) hK

theorem partValue_lipschitz (hσ : 0 < σ) (hT : 0 < T) {k n m : ℕ} (hn : 0 < n) (hp : 0 ≤ moveProb r q σ T n ∧ moveProb r q σ T n ≤ 1) (hm : m ≤ n) (x y : ℝ) :
    |partValue K r q σ T k n m x - partValue K r q σ T k n m y| ≤ Real.exp (|q| * T) * |Real.exp x - Real.exp y| := by
  refine (treeValue_lipschitz hp.1 hp.2 (Real.exp_pos _).le (one_le_exp_abs hT q n) ?_ (putLog_lipschitz K) m x y).trans ?_
  · exact (moveDisc_growth hσ hT hn).le.trans (exp_neg_le_abs hT q n)
  · exact mul_le_mul_of_nonneg_right (exp_abs_pow_le hT q hm) (abs_nonneg _)

/-- The values at exercise dates converge. -/
theorem partValue_limit (hK : 0 ≤ K) (hσ : 0 < σ) (hT : 0 < T) {k : ℕ} (hk : 0 < k) (u : ℝ → ℝ) (j : ℕ) (hj : j < k)
    (hu : ∀ x, Tendsto (fun n => partValue K r q σ T k n (j * n / k) x) atTop (𝓝 (u x))) (x : ℝ) :
    Tendsto (fun n : ℕ => moveDisc r T n ^ ((j + 1) * n / k - j * n / k) *
      afterMoves (moveProb r q σ T n) (moveLog σ T n) (partValue K r q σ T k n (j * n / k)) ((j + 1) * n / k - j * n / k) x) atTop (𝓝 (bsLater r q σ (T / k) u x)) := by
  have hk' : (0 : ℝ) < k := by exact_mod_cast hk
  obtain ⟨n0, hn0⟩ := eventually_atTop.1 ((moveProb_mem (r := r) (q := q) hσ hT).and (eventually_gt_atTop 0))
  rw [← tendsto_add_atTop_iff_nat n0]
  have hshift : Tendsto (fun n : ℕ => n + n0) atTop atTop := tendsto_add_atTop_nat n0
  have hgood := fun n : ℕ => hn0 (n + n0) (by omega)
  have hle : ∀ n, j * n / k ≤ n := fun n => by
    have := partDates_mono (k := k) (n := n) hj.le
    rwa [Nat.mul_div_cancel_left _ hk] at this
  have hdt : Tendsto (fun n : ℕ => (((j + 1) * n / k - j * n / k : ℕ) : ℝ) * (T / n)) atTop (𝓝 (T / k)) := by
    have := (tendsto_part_moves k j hk).mul_const T
    rw [show 1 / (k : ℝ) * T = T / k by ring] at this
    exact this.congr fun n => by ring
  have h1 := tendsto_afterMoves ((r - q) / σ ^ 2) (σ ^ 2 * (T / k)) x (by positivity) (fun n => (j + 1) * (n + n0) / k - j * (n + n0) / k)
    ((tendsto_part_atTop k j hk).comp hshift) (fun n => moveLog σ T (n + n0)) (fun n => moveLog_pos hσ hT (hgood n).2) (by
      have := (hdt.comp hshift).const_mul (σ ^ 2)
      refine this.congr fun n => ?_
      simp only [Function.comp]
      rw [moveLog_sq hT]
      ring)
    (fun n => moveProb r q σ T (n + n0)) (fun n => rfl) (fun n => (hgood n).1) (fun n => partValue K r q σ T k (n + n0) (j * (n + n0) / k)) u
    (K * Real.exp (|r| * T)) (Real.exp (|q| * T)) (fun n y => partValue_bound hK hT (hgood n).1 (hle _) y)
    (fun n y z => partValue_lipschitz hσ hT (hgood n).2 (hgood n).1 (hle _) y z) (fun y => (hu y).comp hshift)
  have h2 : Tendsto (fun n : ℕ => moveDisc r T (n + n0) ^ ((j + 1) * (n + n0) / k - j * (n + n0) / k)) atTop (𝓝 (Real.exp (-r * (T / k)))) := by
    have := (Real.continuous_exp.tendsto _).comp ((hdt.comp hshift).const_mul (-r))
    refine this.congr fun n => ?_
    simp only [Function.comp]
    rw [moveDisc, exp_move_pow]
  refine (h2.mul h1).trans (le_of_eq ?_)
  unfold bsLater
  congr 4
  field_simp

theorem partValue_dates (hK : 0 ≤ K) (hσ : 0 < σ) (hT : 0 < T) {k : ℕ} (hk : 0 < k) (j : ℕ) (hj : j < k) (x : ℝ) :
    Tendsto (fun n => partValue K r q σ T k n (j * n / k) x) atTop (𝓝 (bermudanPut K r q σ (T / k) j x)) := by
  induction j generalizing x with
  | zero =>
    simp only [Nat.zero_mul, Nat.zero_div]
    exact tendsto_const_nhds
  | succ j ih =>
    have h := partValue_limit hK hσ hT hk _ j (by omega) (ih (by omega)) x
    have h2 := (tendsto_const_nhds (x := putLog K x)).max h
    refine h2.congr' ?_
    filter_upwards [eventually_ge_atTop k] with n hn
    have hlt := partDates_lt hk hn j
    obtain ⟨l, hl⟩ := Nat.exists_eq_add_of_lt hlt
    have e1 : (j + 1) * n / k = j * n / k + (l + 1) := by omega
    have e2 : (j + 1) * n / k - j * n / k = l + 1 := by omega
    have hX : partDates k n (j * n / k + (l + 1)) = true := by rw [← e1]; exact partDates_date (j + 1) (by omega) hj
    have hb : ∀ i, 0 < i → i < l + 1 → partDates k n (j * n / k + i) = false := fun i h0 hi => partDates_between j _ (by omega) (by omega)
    have := treeValue_until (pay := putLog K) (p := moveProb r q σ T n) (d := moveLog σ T n) (disc := moveDisc r T n) (κ := 1) (j * n / k) l hb hX x
    rw [e2, e1]
    unfold partValue
    rw [this, one_mul]

/-- The value at the root converges to that of the put that can be exercised at `k` dates after now. -/
theorem partValue_root (hK : 0 ≤ K) (hσ : 0 < σ) (hT : 0 < T) {k : ℕ} (hk : 0 < k) (x : ℝ) :
    Tendsto (fun n => partValue K r q σ T k n n x) atTop (𝓝 (bsLater r q σ (T / k) (bermudanPut K r q σ (T / k) (k - 1)) x)) := by
  have h := partValue_limit hK hσ hT hk _ (k - 1) (by omega) (partValue_dates (r := r) (q := q) hK hσ hT hk (k - 1) (by omega)) x
  refine h.congr' ?_
  filter_upwards [eventually_ge_atTop k] with n hn
  have hlt := partDates_lt hk hn (k - 1)
  rw [Nat.sub_add_cancel hk, Nat.mul_div_cancel_left _ hk] at hlt ⊢
  obtain ⟨l, hl⟩ := Nat.exists_eq_add_of_le hlt.le
  have hb : ∀ i, 0 < i → i ≤ l → partDates k n ((k - 1) * n / k + i) = false := by
    intro i h0 hi
    rcases Nat.lt_or_ge i l with h | h
    · refine partDates_between (k - 1) _ (by omega) ?_
      rw [Nat.sub_add_cancel hk, Nat.mul_div_cancel_left _ hk]
      omega
    · rw [show (k - 1) * n / k + i = n by omega]
      exact partDates_end hk hn
  have := treeValue_between (pay := putLog K) (p := moveProb r q σ T n) (d := moveLog σ T n) (disc := moveDisc r T n) (κ := 1) ((k - 1) * n / k) l hb x
  have e : n - (k - 1) * n / k = l := by omega
  rw [e]
  unfold partValue
  rw [← this, ← hl]

theorem one_sub_exp_neg_le (y : ℝ) : 1 - Real.exp (-y) ≤ Real.exp |y| - 1 := by
  have h1 : Real.exp (-|y|) ≤ Real.exp (-y) := Real.exp_le_exp.2 (neg_le_neg (le_abs_self y))
  have h2 := Real.add_one_le_exp |y|
  have h3 := Real.add_one_le_exp (-|y|)
  linarith

/-- What exercise between the dates can add. -/
noncomputable def gapBound (K r q w : ℝ) : ℝ := K * ((Real.exp (|r| * w) - 1) + (Real.exp (|q| * w) - 1))

theorem gapBound_nonneg {w : ℝ} (hK : 0 ≤ K) (hw : 0 ≤ w) : 0 ≤ gapBound K r q w := by
  have h1 := Real.one_le_exp (show 0 ≤ |r| * w by positivity)
  have h2 := Real.one_le_exp (show 0 ≤ |q| * w by positivity)
  exact mul_nonneg hK (by linarith)

theorem partValue_gap (hK : 0 ≤ K) (hσ : 0 < σ) (hT : 0 < T) {k n : ℕ} (hk : 0 < k) (hn : 0 < n) (hp : 0 ≤ moveProb r q σ T n ∧ moveProb r q σ T n ≤ 1) (m : ℕ) (hm : m ≤ n) (x : ℝ) :
    putLog K x ≤ partValue K r q σ T k n m x + gapBound K r q (T / k + T / n) := by
  have hn' : (0 : ℝ) < n := by exact_mod_cast hn
  have hk' : (0 : ℝ) < k := by exact_mod_cast hk
  have hg := gapBound_nonneg (K := K) (r := r) (q := q) (w := T / k + T / n) hK (by positivity)
  have h0 : 0 ≤ partValue K r q σ T k n m x := treeValue_nonneg hp.1 hp.2 (Real.exp_pos _).le (putLog_nonneg K) m x
  refine max_le ?_ (by linarith)
  rcases le_total K (Real.exp x) with hx | hx
  · linarith
  obtain ⟨m', l, rfl, hm', hl⟩ := partDates_near hk hn m hm
  have h1 := treeValue_forward (pay := putLog K) (K := K) hp.1 hp.2 (Real.exp_pos _).le (moveDisc_growth hσ hT hn) (fun y => le_max_left _ _) m' l hm' x
  rw [exp_move_pow, exp_move_pow] at h1
  have hw : (l : ℝ) * (T / n) ≤ T / k + T / n := by
    calc (l : ℝ) * (T / n) ≤ ((n : ℝ) / k + 1) * (T / n) := mul_le_mul_of_nonneg_right hl (div_pos hT hn').le
      _ = T / k + T / n := by field_simp
  have hl0 : 0 ≤ (l : ℝ) * (T / n) := by positivity
  have h2 : 1 - Real.exp (-r * ((l : ℝ) * (T / n))) ≤ Real.exp (|r| * (T / k + T / n)) - 1 := by
    have := one_sub_exp_neg_le (r * ((l : ℝ) * (T / n)))
    rw [abs_mul, abs_of_nonneg hl0, ← neg_mul] at this
    refine this.trans (sub_le_sub_right (Real.exp_le_exp.2 (mul_le_mul_of_nonneg_left hw (abs_nonneg r))) 1)
  have h3 : Real.exp (-q * ((l : ℝ) * (T / n))) - 1 ≤ Real.exp (|q| * (T / k + T / n)) - 1 := by
    refine sub_le_sub_right (Real.exp_le_exp.2 ?_) 1
    exact (mul_le_mul_of_nonneg_right (neg_le_abs q) hl0).trans (mul_le_mul_of_nonneg_left hw (abs_nonneg q))
  have h4 : 0 ≤ Real.exp (|q| * (T / k + T / n)) - 1 := by
    have := Real.one_le_exp (show 0 ≤ |q| * (T / k + T / n) by positivity)
    linarith
  have h5 := mul_le_mul_of_nonneg_left h2 hK
  have h6 : Real.exp x * (Real.exp (-q * ((l : ℝ) * (T / n))) - 1) ≤ K * (Real.exp (|q| * (T / k + T / n)) - 1) :=
    (mul_le_mul_of_nonneg_left h3 (Real.exp_pos x).le).trans (mul_le_mul_of_nonneg_right hx h4)
  unfold partValue gapBound moveDisc
  linarith

/-- The value of a put in the tree that can be exercised at all dates, payoffs before expiry being scaled by `κ`. -/
noncomputable def americanValue (K r q σ T κ : ℝ) (n : ℕ) (x : ℝ) : ℝ :=
  treeValue (putLog K) (moveProb r q σ T n) (moveLog σ T n) (moveDisc r T n) κ (fun _ => true) n x

theorem american_close (hK : 0 ≤ K) (hσ : 0 < σ) (hT : 0 < T) {k n : ℕ} (hk : 0 < k) (hn : 0 < n) (hp : 0 ≤ moveProb r q σ T n ∧ moveProb r q σ T n ≤ 1) (κ x : ℝ) :
    partValue K r q σ T k n n x ≤ americanValue K r q σ T κ n x + K * |κ - 1| * Real.exp (|r| * T) ∧
    americanValue K r q σ T κ n x ≤ partValue K r q σ T k n n x + (gapBound K r q (T / k + T / n) + K * |κ - 1|) * Real.exp (|r| * T) := by
  have hg := gapBound_nonneg (K := K) (r := r) (q := q) (w := T / k + T / n) hK (by positivity)
  have h := treeValue_sandwich (pay := putLog K) (p := moveProb r q σ T n) (d := moveLog σ T n) (disc := moveDisc r T n) (κ := κ) (X := partDates k n) (ζ := K * |κ - 1|)
    (η := gapBound K r q (T / k + T / n)) hp.1 hp.2 (Real.exp_pos _).le (one_le_exp_abs hT r n) (exp_neg_le_abs hT r n) (by positivity) hg (fun y => by
      rw [show κ * putLog K y - putLog K y = putLog K y * (κ - 1) by ring, abs_mul, abs_of_nonneg (putLog_nonneg K y)]
      exact mul_le_mul_of_nonneg_right (putLog_le K hK y) (abs_nonneg _)) n (fun m hm y => partValue_gap hK hσ hT hk hn hp m hm y) n le_rfl x
  have he := exp_abs_pow_le hT r (le_refl n)
  have hz : 0 ≤ K * |κ - 1| := by positivity
  refine ⟨h.1.trans ?_, h.2.trans ?_⟩
  · exact (add_le_add_iff_left _).2 (mul_le_mul_of_nonneg_left he hz)
  · exact (add_le_add_iff_left _).2 (mul_le_mul_of_nonneg_left he (by linarith))

theorem gapBound_tendsto {ι : Type} {l : Filter ι} {w : ι → ℝ} {w0 : ℝ} (hw : Tendsto w l (𝓝 w0)) : Tendsto (fun i => gapBound K r q (w i)) l (𝓝 (gapBound K r q w0)) := by
  have : Continuous fun w => gapBound K r q w := by unfold gapBound; fun_prop
  exact (this.tendsto w0).comp hw

/-- The values with all exercise dates converge, to the supremum and limit of the values with finitely many dates. -/
theorem american_limit (hK : 0 ≤ K) (hσ : 0 < σ) (hT : 0 < T) (κ : ℕ → ℝ) (hκ : Tendsto κ atTop (𝓝 1)) (x : ℝ) :
    ∃ V, Tendsto (fun n => americanValue K r q σ T (κ n) n x) atTop (𝓝 V) ∧
      (∀ k : ℕ, 0 < k → bsLater r q σ (T / k) (bermudanPut K r q σ (T / k) (k - 1)) x ≤ V ∧
        V ≤ bsLater r q σ (T / k) (bermudanPut K r q σ (T / k) (k - 1)) x + gapBound K r q (T / k) * Real.exp (|r| * T)) := by
  set A := fun n => americanValue K r q σ T (κ n) n x with hA
  set W : ℕ → ℝ := fun k => bsLater r q σ (T / k) (bermudanPut K r q σ (T / k) (k - 1)) x with hW
  have hz : Tendsto (fun n => K * |κ n - 1|) atTop (𝓝 0) := by
    have := ((hκ.sub_const 1).abs).const_mul K
    simpa using this
  have hgood := (moveProb_mem (r := r) (q := q) hσ hT).and (eventually_gt_atTop 0)
  have hlow : ∀ k : ℕ, 0 < k → Tendsto (fun n => partValue K r q σ T k n n x - K * |κ n - 1| * Real.exp (|r| * T)) atTop (𝓝 (W k)) := by
    intro k hk
    have := (partValue_root (r := r) (q := q) hK hσ hT hk x).sub (hz.mul_const (Real.exp (|r| * T)))
    rwa [zero_mul, sub_zero] at this
  have hupp : ∀ k : ℕ, 0 < k → Tendsto (fun n : ℕ => partValue K r q σ T k n n x + (gapBound K r q (T / k + T / n) + K * |κ n - 1|) * Real.exp (|r| * T)) atTop
      (𝓝 (W k + gapBound K r q (T / k) * Real.exp (|r| * T))) := by
    intro k hk
    have h1 : Tendsto (fun n : ℕ => T / k + T / n) atTop (𝓝 (T / k)) := by
      have := (tendsto_const_div_atTop_nhds_zero_nat T).const_add (T / k)
      rwa [add_zero] at this
    have := (partValue_root (r := r) (q := q) hK hσ hT hk x).add (((gapBound_tendsto (K := K) (r := r) (q := q) h1).add hz).mul_const (Real.exp (|r| * T)))
    rwa [add_zero] at this
  have hgap0 : Tendsto (fun k : ℕ => gapBound K r q (T / k) * Real.exp (|r| * T)) atTop (𝓝 0) := by
    have := (gapBound_tendsto (K := K) (r := r) (q := q) (tendsto_const_div_atTop_nhds_zero_nat T)).mul_const (Real.exp (|r| * T))
    simpa [gapBound] using this
  have hcauchy : CauchySeq A := by
    rw [Metric.cauchySeq_iff']
    intro ε hε
    obtain ⟨k, hk, hk0⟩ := ((hgap0.eventually_lt_const (show (0 : ℝ) < ε / 4 by positivity)).and (eventually_gt_atTop 0)).exists
    obtain ⟨n0, h0⟩ := eventually_atTop.1 (((hlow k hk0).eventually_const_lt (show W k - ε / 4 < W k by linarith)).and
      (((hupp k hk0).eventually_lt_const (show W k + gapBound K r q (T / k) * Real.exp (|r| * T) < W k + ε / 2 by linarith)).and hgood))
    have hb : ∀ n ≥ n0, W k - ε / 4 < A n ∧ A n < W k + ε / 2 := by
      intro n hn
      obtain ⟨h1, h2, h3, h4⟩ := h0 n hn
      have := american_close (K := K) hK hσ hT hk0 h4 h3 (κ n) x
      simp only [hA]
      exact ⟨by linarith [this.1], by linarith [this.2]⟩
    refine ⟨n0, fun n hn => ?_⟩
    have h1 := hb n hn
    have h2 := hb n0 le_rfl
    rw [Real.dist_eq, abs_lt]
    constructor <;> linarith [h1.1, h1.2, h2.1, h2.2]
  obtain ⟨V, hV⟩ := cauchySeq_tendsto_of_complete hcauchy
  refine ⟨V, hV, fun k hk => ⟨?_, ?_⟩⟩
  · refine le_of_tendsto_of_tendsto (hlow k hk) hV ?_
    filter_upwards [hgood] with n hn
    have := (american_close (K := K) hK hσ hT hk hn.2 hn.1 (κ n) x).1
    simp only [hA]
    linarith
  · refine le_of_tendsto_of_tendsto hV (hupp k hk) ?_
    filter_upwards [hgood] with n hn
    exact (american_close (K := K) hK hσ hT hk hn.2 hn.1 (κ n) x).2

/-- The limit is the least upper bound and the limit of the values with finitely many dates. -/
theorem american_limit_sup (hK : 0 ≤ K) (hσ : 0 < σ) (hT : 0 < T) (κ : ℕ → ℝ) (hκ : Tendsto κ atTop (𝓝 1)) (x : ℝ) :
    ∃ V, Tendsto (fun n => americanValue K r q σ T (κ n) n x) atTop (𝓝 V) ∧
      Tendsto (fun k : ℕ => bsLater r q σ (T / k) (bermudanPut K r q σ (T / k) (k - 1)) x) atTop (𝓝 V) ∧
      IsLUB {w | ∃ k : ℕ, 0 < k ∧ w = bsLater r q σ (T / k) (bermudanPut K r q σ (T / k) (k - 1)) x} V := by
  obtain ⟨V, hV, hb⟩ := american_limit (r := r) (q := q) hK hσ hT κ hκ x
  have hgap0 : Tendsto (fun k : ℕ => gapBound K r q (T / k) * Real.exp (|r| * T)) atTop (𝓝 0) := by
    have := (gapBound_tendsto (K := K) (r := r) (q := q) (tendsto_const_div_atTop_nhds_zero_nat T)).mul_const (Real.exp (|r| * T))
    simpa [gapBound] using this
  have hlim : Tendsto (fun k : ℕ => bsLater r q σ (T / k) (bermudanPut K r q σ (T / k) (k - 1)) x) atTop (𝓝 V) := by
    have h1 : Tendsto (fun k : ℕ => V - gapBound K r q (T / k) * Real.exp (|r| * T)) atTop (𝓝 V) := by
      have := hgap0.const_sub V
      rwa [sub_zero] at this
    refine tendsto_of_tendsto_of_tendsto_of_le_of_le' h1 tendsto_const_nhds ?_ ?_
    · filter_upwards [eventually_gt_atTop 0] with k hk
      linarith [(hb k hk).2]
    · filter_upwards [eventually_gt_atTop 0] with k hk
      exact (hb k hk).1
  refine ⟨V, hV, hlim, ?_, ?_⟩
  · rintro w ⟨k, hk, rfl⟩
    exact (hb k hk).1
  · intro b hbd
    refine le_of_tendsto hlim ?_
    filter_upwards [eventually_gt_atTop 0] with k hk
    exact hbd ⟨k, hk, rfl⟩

end

/-! ## The tree of the code -/

theorem crrPUp_eq (o : CrrOption) (hT : 0 < o.expiry) (hv : 0 < o.volatility) (hn : 0 < o.numSteps) :
    crrPUp o = moveProb o.discountRate o.dividendRate o.volatility o.expiry o.numSteps := by
  have hu : crrLnUp o = moveLog o.volatility o.expiry o.numSteps := rfl
  have hd := moveLog_pos hv hT hn
  rw [moveProb_eq hv hT hn, ← hu]
  rw [← hu] at hd
  have h1 : Real.exp (2 * crrLnUp o) = Real.exp (crrLnUp o) * Real.exp (crrLnUp o) := by rw [← Real.exp_add]; ring_nf
  have h2 : 1 < Real.exp (crrLnUp o) := Real.one_lt_exp_iff.mpr hd
  have h3 : Real.exp (crrLnUp o) * Real.exp (crrLnUp o) - 1 ≠ 0 := by nlinarith
  have h4 : Real.exp (crrLnUp o) ≠ 0 := (Real.exp_pos _).ne'
  have h5 : Real.exp (crrLnUp o) - (Real.exp (crrLnUp o))⁻¹ ≠ 0 := by
    intro h
    apply h3
    field_simp at h
    nlinarith
  unfold crrPUp
  rw [h1, Real.exp_add, Real.exp_neg, div_eq_div_iff h3 h5]
  field_simp

theorem crrValue_tree (o : CrrOption) (hT : 0 < o.expiry) (hv : 0 < o.volatility) (hn : 0 < o.numSteps) (hA : o.isAmerican = true) (m i : ℕ) :
    crrValue o m i = treeValue (fun x => crrPayoff o.strike o.isCall (Real.exp x)) (moveProb o.discountRate o.dividendRate o.volatility o.expiry o.numSteps)
      (moveLog o.volatility o.expiry o.numSteps) (moveDisc o.discountRate o.expiry o.numSteps) (moveDisc o.discountRate o.expiry o.numSteps) (fun _ => true) m (crrLog o m i) := by
  have hu : crrLnUp o = moveLog o.volatility o.expiry o.numSteps := rfl
  have hdf : crrDf o = moveDisc o.discountRate o.expiry o.numSteps := rfl
  induction m generalizing i with
  | zero => rfl
  | succ m ih =>
    have h1 : crrLog o m (i + 1) = crrLog o (m + 1) i - crrLnUp o := by simp only [crrLog]; push_cast; ring
    have h2 : crrLog o m i = crrLog o (m + 1) i + crrLnUp o := by simp only [crrLog]; push_cast; ring
    simp only [crrValue, treeValue, crrModifier, hA, if_true]
    rw [ih, ih, h1, h2, crrPUp_eq o hT hv hn, hdf, hu, mul_max_of_nonneg _ _ (show 0 ≤ moveDisc o.discountRate o.expiry o.numSteps from (Real.exp_pos _).le)]
    congr 1
    ring

/-- The price of an American put in the tree of the code. -/
theorem optionPriceBinomial_american_put (o : CrrOption) (hT : 0 < o.expiry) (hv : 0 < o.volatility) (hn : 0 < o.numSteps) (hA : o.isAmerican = true) (hP : o.isCall = false) :
    optionPriceBinomial o = americanValue o.strike o.discountRate o.dividendRate o.volatility o.expiry (moveDisc o.discountRate o.expiry o.numSteps) o.numSteps (Real.log o.spot) := by
  rw [optionPriceBinomial_value o hT, crrValue_tree o hT hv hn hA]
  have e1 : (fun x => crrPayoff o.strike o.isCall (Real.exp x)) = putLog o.strike := by
    funext x
    simp only [crrPayoff, putLog, hP]
    congr 1
    simp
  have e2 : crrLog o o.numSteps 0 = Real.log o.spot := by simp [crrLog]
  rw [e1, e2]
  rfl

theorem moveDisc_one (r T : ℝ) : Tendsto (fun n : ℕ => moveDisc r T n) atTop (𝓝 1) := by
  have := (Real.continuous_exp.tendsto _).comp ((tendsto_const_div_atTop_nhds_zero_nat T).const_mul (-r))
  rw [mul_zero, Real.exp_zero] at this
  exact this

end Lemmas
