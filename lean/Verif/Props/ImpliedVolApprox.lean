import Verif.Props.ImpliedVol

/-! # C43 The fast approximation of implied volatilities inverts Black's formula with Pólya's distribution function -/

namespace Spec
open Model

/-- Pólya's approximation of the normal distribution function; the usual factor is `2 / π`. -/
noncomputable def polyaCdf (p x : ℝ) : ℝ :=
  if 0 ≤ x then 1 / 2 + Real.sqrt (1 - Real.exp (-p * x ^ 2)) / 2 else 1 / 2 - Real.sqrt (1 - Real.exp (-p * x ^ 2)) / 2

/-- Black's formula for the undiscounted price of a call or put with standard deviation `s`, with `cdf` instead of the
normal distribution function. -/
noncomputable def blackWith (cdf : ℝ → ℝ) (isCall : Bool) (F K s : ℝ) : ℝ :=
  let d1 := Real.log (F / K) / s + s / 2
  let d2 := d1 - s
  if isCall then F * cdf d1 - K * cdf d2 else K * cdf (-d2) - F * cdf (-d1)

end Spec

namespace Lemmas
open Model Spec

/-- The positive root of a quadratic in the form the code uses. -/
theorem quadratic_root {a b c m : ℝ} (ha : 0 ≤ a) (hc : 0 < c) (hm : 0 < m) (h : c ≤ a * m ^ 2 + b * m) :
    0 < b + Real.sqrt (b * b + 4 * a * c) ∧
    ∀ x, x = 2 * c / (b + Real.sqrt (b * b + 4 * a * c)) → 0 < x ∧ a * x ^ 2 + b * x = c ∧ x ≤ m := by
  have hr : 0 ≤ b * b + 4 * a * c := by nlinarith [mul_nonneg ha hc.le, mul_self_nonneg b]
  have hsq := Real.sq_sqrt hr
  have hs0 := Real.sqrt_nonneg (b * b + 4 * a * c)
  set r := Real.sqrt (b * b + 4 * a * c) with hrdef
  have hD : 0 < b + r := by
    rcases le_or_gt b 0 with hb | hb
    · have ha' : 0 < a := by
        by_contra hn
        have : a = 0 := le_antisymm (not_lt.mp hn) ha
        rw [this] at h
        nlinarith
      have hac : 0 < a * c := mul_pos ha' hc
      by_contra hn
      have : r ≤ -b := by linarith
      nlinarith
    · linarith
  refine ⟨hD, ?_⟩
  rintro x rfl
  have hx : 0 < 2 * c / (b + r) := div_pos (by linarith) hD
  have hroot : a * (2 * c / (b + r)) ^ 2 + b * (2 * c / (b + r)) = c := by
    field_simp
    linear_combination (-1 : ℝ) * hsq
  refine ⟨hx, hroot, ?_⟩
  by_contra hn
  push Not at hn
  set x := 2 * c / (b + r) with hxdef
  have h1 : 0 < a * x + b := by
    by_contra h2
    nlinarith
  rcases le_or_gt (a * m + b) 0 with h2 | h2
  · nlinarith
  · nlinarith [mul_lt_mul_of_pos_right hn h2, mul_nonneg ha (sub_nonneg.mpr hn.le)]

/-- The two ways to solve the squared equation. -/
theorem squared_cases {x u v : ℝ} (hx : 0 < x) (h : (x ^ 2 - u ^ 2 - v ^ 2) ^ 2 = 4 * u ^ 2 * v ^ 2) (hu : 0 ≤ u) (hv : 0 ≤ v) :
    x = u + v ∨ x = u - v ∨ x = v - u := by
  have e : (x - (u + v)) * (x + (u + v)) * ((x - (u - v)) * (x - (v - u))) = 0 := by linear_combination h
  rcases mul_eq_zero.mp e with e | e
  · rcases mul_eq_zero.mp e with e | e
    · left; linarith
    · exfalso; linarith
  · rcases mul_eq_zero.mp e with e | e
    · right; left; linarith
    · right; right; linarith

/-- The branch selection for forwards above the strike. -/
theorem branch_above {f f1 f2 β A B R S : ℝ} (hf : 1 ≤ f) (h1 : 0 < f1) (h12 : f1 * f2 = 1) (hle : f1 ≤ 1)
    (hk : f * f1 ^ 2 ≤ 1) (hβ : 0 < β) (hβ1 : β ≤ f1) (hA0 : 0 ≤ A) (hB0 : 0 ≤ B) (hA : A ^ 2 = 1 - β * f1)
    (hB : B ^ 2 = 1 - β * f2) (hS0 : 0 ≤ S) (hS : S ^ 2 = 1 - f1 ^ 2) (hR : 0 < R)
    (h : (R ^ 2 - (f * A) ^ 2 - B ^ 2) ^ 2 = 4 * (f * A) ^ 2 * B ^ 2) :
    (R ≤ f * S → R = f * A - B) ∧ (f * S < R → R = f * A + B) := by
  have hf0 : 0 < f := by linarith
  have h2 : 1 ≤ f2 := by
    by_contra hn
    push Not at hn
    nlinarith
  have hBA : B ≤ A := by
    apply abs_le_of_sq_le_sq' _ hA0 |>.2
    rw [hA, hB]; nlinarith
  have hSA : S ≤ A := by
    apply abs_le_of_sq_le_sq' _ hA0 |>.2
    rw [hA, hS]; nlinarith
  have hcases := squared_cases hR h (mul_nonneg hf0.le hA0) hB0
  have hno : R = B - f * A → False := by
    intro e
    nlinarith
  constructor
  · intro hRS
    rcases hcases with e | e | e
    · have : B ≤ 0 := by nlinarith
      have hB' : B = 0 := le_antisymm this hB0
      rw [e, hB']; ring
    · exact e
    · exact absurd e hno
  · intro hRS
    rcases hcases with e | e | e
    · exact e
    · exfalso
      have k1 : f * (A - S) * (A + S) = f * f1 ^ 2 * B ^ 2 := by
        have : f * (A - S) * (A + S) = f * (A ^ 2 - S ^ 2) := by ring
        rw [this, hA, hS, hB]
        linear_combination (β * f * f1) * h12
      rcases eq_or_lt_of_le (add_nonneg hA0 hS0) with h0 | h0
      · have : A = 0 := by linarith
        rw [e, this] at hR
        linarith
      · have k2 : f * (A - S) * (A + S) ≤ B * (A + S) := by
          rw [k1]
          calc f * f1 ^ 2 * B ^ 2 ≤ 1 * B ^ 2 := mul_le_mul_of_nonneg_right hk (sq_nonneg B)
            _ = B * B := by ring
            _ ≤ B * (A + S) := mul_le_mul_of_nonneg_left (by linarith) hB0
        have := le_of_mul_le_mul_right k2 h0
        linarith
    · exact absurd e hno

/-- The branch selection for forwards below the strike. -/
theorem branch_below {f f1 f2 β A B R S : ℝ} (hf0 : 0 < f) (hf : f ≤ 1) (h2 : 0 < f2) (h12 : f1 * f2 = 1) (hle : f2 ≤ 1)
    (hk : f2 ^ 2 ≤ f) (hβ : 0 < β) (hβ2 : β ≤ f2) (hA0 : 0 ≤ A) (hB0 : 0 ≤ B) (hA : A ^ 2 = 1 - β * f1)
    (hB : B ^ 2 = 1 - β * f2) (hS0 : 0 ≤ S) (hS : S ^ 2 = 1 - f2 ^ 2) (hR : 0 < R)
    (h : (R ^ 2 - (f * A) ^ 2 - B ^ 2) ^ 2 = 4 * (f * A) ^ 2 * B ^ 2) :
    (R ≤ S → R = B - f * A) ∧ (S < R → R = f * A + B) := by
  have h1 : 1 ≤ f1 := by
    by_contra hn
    push Not at hn
    nlinarith
  have hAB : A ≤ B := by
    apply abs_le_of_sq_le_sq' _ hB0 |>.2
    rw [hA, hB]; nlinarith
  have hSB : S ≤ B := by
    apply abs_le_of_sq_le_sq' _ hB0 |>.2
    rw [hB, hS]; nlinarith
  have hcases := squared_cases hR h (mul_nonneg hf0.le hA0) hB0
  have hfA : f * A ≤ B := by nlinarith
  have hno : R = f * A - B → False := by
    intro e
    linarith
  constructor
  · intro hRS
    rcases hcases with e | e | e
    · have : f * A ≤ 0 := by linarith
      have hA' : f * A = 0 := le_antisymm this (mul_nonneg hf0.le hA0)
      rw [e, hA']; ring
    · exact absurd e hno
    · exact e
  · intro hRS
    rcases hcases with e | e | e
    · exact e
    · exact absurd e hno
    · exfalso
      have k1 : (B - S) * (B + S) = f2 ^ 2 * A ^ 2 := by
        have : (B - S) * (B + S) = B ^ 2 - S ^ 2 := by ring
        rw [this, hA, hS, hB]
        linear_combination (β * f2) * h12
      rcases eq_or_lt_of_le (add_nonneg hB0 hS0) with h0 | h0
      · have : B = 0 := by linarith
        have := mul_nonneg hf0.le hA0
        linarith
      · have k2 : (B - S) * (B + S) ≤ f * A * (B + S) := by
          rw [k1]
          calc f2 ^ 2 * A ^ 2 ≤ f * A ^ 2 := mul_le_mul_of_nonneg_right hk (sq_nonneg A)
            _ = f * A * A := by ring
            _ ≤ f * A * (B + S) := mul_le_mul_of_nonneg_left (by linarith) (mul_nonneg hf0.le hA0)
        have := le_of_mul_le_mul_right k2 h0
        linarith

theorem polyaCdf_pos {p z : ℝ} (hz : 0 ≤ z) : polyaCdf p z = 1 / 2 + Real.sqrt (1 - Real.exp (-p * z ^ 2)) / 2 := by
  simp [polyaCdf, hz]

theorem polyaCdf_neg (p z : ℝ) : polyaCdf p (-z) = 1 - polyaCdf p z := by
  unfold polyaCdf
  rw [neg_sq]
  rcases lt_trichotomy z 0 with h | h | h
  · rw [if_pos (by linarith), if_neg (by linarith)]; ring
  · subst h; simp; ring
  · rw [if_neg (by linarith), if_pos h.le]; ring

/-- The root of the quadratic solves the squared equation. -/
theorem polya_root {p f y R f1 f2 a b c : ℝ} (hf : f = Real.exp y) (hR1 : |f - 1| < R) (hR2 : R < f + 1)
    (hf1 : f1 = Real.exp (-p * y)) (hf2 : f2 = Real.exp (p * y)) (ha : a = (f1 * f - 1 / (f1 * f)) ^ 2)
    (hb : b = 4 * (f1 + 1 / f1) - 2 * (f1 * f + 1 / (f1 * f)) * (1 + f ^ 2 - R ^ 2) / f)
    (hc : c = (R ^ 2 - (f - 1) ^ 2) * ((f + 1) ^ 2 - R ^ 2) / f ^ 2) {β : ℝ}
    (hβ : β = 2 * c / (b + Real.sqrt (b * b + 4 * a * c))) :
    0 < c ∧ 0 < b + Real.sqrt (b * b + 4 * a * c) ∧ 0 < β ∧ β ≤ f1 ∧ β ≤ f2 ∧
      4 * f ^ 2 * (1 - β * f1) * (1 - β * f2) = (R ^ 2 - f ^ 2 * (1 - β * f1) - (1 - β * f2)) ^ 2 := by
  have hf0 : 0 < f := by rw [hf]; exact Real.exp_pos y
  have hf10 : 0 < f1 := by rw [hf1]; exact Real.exp_pos _
  have hf20 : 0 < f2 := by rw [hf2]; exact Real.exp_pos _
  have h12 : f1 * f2 = 1 := by rw [hf1, hf2, ← Real.exp_add]; simp
  have hinv : 1 / f1 = f2 := by field_simp; linarith
  have hinvg : 1 / (f1 * f) = f2 / f := by rw [← hinv]; field_simp
  have hc0 : 0 < c := by
    rw [hc]
    apply div_pos _ (by positivity)
    apply mul_pos
    · have := sq_lt_sq' (by linarith [abs_nonneg (f - 1)]) hR1
      rw [sq_abs] at this
      linarith
    · have h0 := abs_nonneg (f - 1)
      have := mul_pos (show 0 < f + 1 - R by linarith) (show 0 < f + 1 + R by linarith)
      linarith
  have ha0 : 0 ≤ a := by rw [ha]; exact sq_nonneg _
  -- the quadratic is the squared equation
  have hQ : ∀ β : ℝ, 4 * f ^ 2 * (1 - β * f1) * (1 - β * f2) - (R ^ 2 - f ^ 2 * (1 - β * f1) - (1 - β * f2)) ^ 2 =
      f ^ 2 * (c - b * β - a * β ^ 2) := by
    intro β
    have e1 : f ^ 2 * c = (R ^ 2 - (f - 1) ^ 2) * ((f + 1) ^ 2 - R ^ 2) := by rw [hc]; field_simp
    have e2 : f ^ 2 * b = 4 * f ^ 2 * (f1 + f2) - 2 * (f ^ 2 * f1 + f2) * (1 + f ^ 2 - R ^ 2) := by
      rw [hb, hinv, hinvg]; field_simp
    have e3 : f ^ 2 * a = (f ^ 2 * f1 - f2) ^ 2 := by
      rw [ha, hinvg]; field_simp
    have : f ^ 2 * (c - b * β - a * β ^ 2) = f ^ 2 * c - f ^ 2 * b * β - f ^ 2 * a * β ^ 2 := by ring
    rw [this, e1, e2, e3]
    linear_combination (4 * f ^ 2 * β ^ 2) * h12 - (4 * f ^ 2 * β ^ 2) * h12
  have hm1 : c ≤ a * f1 ^ 2 + b * f1 := by
    have h := hQ f1
    have e : 1 - f1 * f2 = 0 := by rw [h12]; ring
    rw [e] at h
    have : f ^ 2 * (c - b * f1 - a * f1 ^ 2) ≤ 0 := by rw [← h]; nlinarith [sq_nonneg (R ^ 2 - f ^ 2 * (1 - f1 * f1) - 0)]
    have := nonpos_of_mul_nonpos_right this (by positivity)
    linarith
  have hm2 : c ≤ a * f2 ^ 2 + b * f2 := by
    have h := hQ f2
    have e : 1 - f2 * f1 = 0 := by rw [mul_comm, h12]; ring
    rw [e] at h
    have : f ^ 2 * (c - b * f2 - a * f2 ^ 2) ≤ 0 := by
      rw [← h]; nlinarith [sq_nonneg (R ^ 2 - f ^ 2 * 0 - (1 - f2 * f2))]
    have := nonpos_of_mul_nonpos_right this (by positivity)
    linarith
  obtain ⟨hD, hr1⟩ := quadratic_root ha0 hc0 hf10 hm1
  obtain ⟨_, hr2⟩ := quadratic_root ha0 hc0 hf20 hm2
  obtain ⟨hβ0, hroot, hβ1⟩ := hr1 β hβ
  obtain ⟨_, _, hβ2⟩ := hr2 β hβ
  refine ⟨hc0, hD, hβ0, hβ1, hβ2, ?_⟩
  have h := hQ β
  rw [show c - b * β - a * β ^ 2 = 0 by linarith, mul_zero] at h
  linarith

theorem arg_nonneg {p z : ℝ} (hp : 0 < p) (h : Real.exp (-p * z) ≤ 1) : 0 ≤ z := by
  rw [Real.exp_le_one_iff] at h
  by_contra hn
  nlinarith

theorem below_facts {p y : ℝ} (hp : 1 / 2 ≤ p) (hy : y < 0) : Real.exp (p * y) ≤ 1 ∧ Real.exp (p * y) ^ 2 ≤ Real.exp y ∧
    Real.exp (-2 * p * |y|) = Real.exp (p * y) ^ 2 ∧ Real.exp y < 1 ∧ 0 ≤ 1 - Real.exp (p * y) ^ 2 ∧ tfSign y = -1 := by
  have h1 : Real.exp (p * y) ≤ 1 := by rw [Real.exp_le_one_iff]; nlinarith
  refine ⟨h1, ?_, ?_, Real.exp_lt_one_iff.mpr hy, ?_, ?_⟩
  · rw [← Real.exp_nat_mul, Real.exp_le_exp]
    push_cast; nlinarith
  · rw [abs_of_neg hy, ← Real.exp_nat_mul]; congr 1; push_cast; ring
  · nlinarith [Real.exp_pos (p * y)]
  · unfold tfSign; rw [if_neg (by linarith), if_pos hy]

theorem above_facts {p y : ℝ} (hp : 1 / 2 ≤ p) (hy : 0 < y) : Real.exp (-p * y) ≤ 1 ∧
    Real.exp y * Real.exp (-p * y) ^ 2 ≤ 1 ∧
    Real.exp (-2 * p * |y|) = Real.exp (-p * y) ^ 2 ∧ 1 < Real.exp y ∧ 0 ≤ 1 - Real.exp (-p * y) ^ 2 ∧ tfSign y = 1 := by
  have h1 : Real.exp (-p * y) ≤ 1 := by rw [Real.exp_le_one_iff]; nlinarith
  refine ⟨h1, ?_, ?_, Real.one_lt_exp_iff.mpr hy, ?_, ?_⟩
  · rw [← Real.exp_nat_mul, ← Real.exp_add, Real.exp_le_one_iff]
    push_cast; nlinarith
  · rw [abs_of_pos hy, ← Real.exp_nat_mul]; congr 1; push_cast; ring
  · nlinarith [Real.exp_pos (-p * y)]
  · unfold tfSign; rw [if_pos hy]

/-- The branches of the code solve the equation. -/
theorem polya_branches {p f y R f1 f2 β : ℝ} (hp : 1 / 2 ≤ p) (hf : f = Real.exp y) (hR0 : 0 < R)
    (hf1 : f1 = Real.exp (-p * y)) (hf2 : f2 = Real.exp (p * y)) (hβ0 : 0 < β) (hβ1 : β ≤ f1) (hβ2 : β ≤ f2)
    (hQ : 4 * f ^ 2 * (1 - β * f1) * (1 - β * f2) = (R ^ 2 - f ^ 2 * (1 - β * f1) - (1 - β * f2)) ^ 2) {γ v : ℝ}
    (hγ : γ = -(Real.log β) / p)
    (hv : v = if R ≤ max f 1 * Real.sqrt (1 - Real.exp (-2 * p * |y|)) then
        tfSign y * (Real.sqrt (γ + y) - Real.sqrt (γ - y)) else Real.sqrt (γ + y) + Real.sqrt (γ - y)) :
    0 < v ∧ f * polyaCdf p (y / v + v / 2) - polyaCdf p (y / v + v / 2 - v) = (R + (f - 1)) / 2 := by
  have hp0 : 0 < p := by linarith
  have hf0 : 0 < f := by rw [hf]; exact Real.exp_pos y
  have hf10 : 0 < f1 := by rw [hf1]; exact Real.exp_pos _
  have hf20 : 0 < f2 := by rw [hf2]; exact Real.exp_pos _
  have h12 : f1 * f2 = 1 := by rw [hf1, hf2, ← Real.exp_add]; simp
  have hpγ : p * γ = -Real.log β := by rw [hγ]; field_simp
  have hexp1 : Real.exp (-p * (γ + y)) = β * f1 := by
    rw [show -p * (γ + y) = -(p * γ) + -p * y by ring, hpγ, neg_neg, Real.exp_add, Real.exp_log hβ0, ← hf1]
  have hexp2 : Real.exp (-p * (γ - y)) = β * f2 := by
    rw [show -p * (γ - y) = -(p * γ) + p * y by ring, hpγ, neg_neg, Real.exp_add, Real.exp_log hβ0, ← hf2]
  have hb1 : β * f1 ≤ 1 := by rw [← h12, mul_comm f1]; exact mul_le_mul_of_nonneg_right hβ2 hf10.le
  have hb2 : β * f2 ≤ 1 := by rw [← h12]; exact mul_le_mul_of_nonneg_right hβ1 hf20.le
  have hg1 : 0 ≤ γ + y := arg_nonneg hp0 (hexp1.trans_le hb1)
  have hg2 : 0 ≤ γ - y := arg_nonneg hp0 (hexp2.trans_le hb2)
  set s := Real.sqrt (γ + y) with hs
  set t := Real.sqrt (γ - y) with ht
  have hs0 : 0 ≤ s := Real.sqrt_nonneg _
  have ht0 : 0 ≤ t := Real.sqrt_nonneg _
  have hs2 : s ^ 2 = γ + y := Real.sq_sqrt hg1
  have ht2 : t ^ 2 = γ - y := Real.sq_sqrt hg2
  set A := Real.sqrt (1 - β * f1) with hA
  set B := Real.sqrt (1 - β * f2) with hB
  have hA0 : 0 ≤ A := Real.sqrt_nonneg _
  have hB0 : 0 ≤ B := Real.sqrt_nonneg _
  have hA2 : A ^ 2 = 1 - β * f1 := Real.sq_sqrt (by linarith)
  have hB2 : B ^ 2 = 1 - β * f2 := Real.sq_sqrt (by linarith)
  have hcs : polyaCdf p s = 1 / 2 + A / 2 := by rw [polyaCdf_pos hs0, hs2, hexp1]
  have hct : polyaCdf p t = 1 / 2 + B / 2 := by rw [polyaCdf_pos ht0, ht2, hexp2]
  have hsq : (R ^ 2 - (f * A) ^ 2 - B ^ 2) ^ 2 = 4 * (f * A) ^ 2 * B ^ 2 := by
    rw [← hA2, ← hB2] at hQ
    linear_combination -hQ
  have hy : y = (s ^ 2 - t ^ 2) / 2 := by rw [hs2, ht2]; ring
  -- what has to be shown for each branch
  have plus : R = f * A + B → 0 < s + t ∧
      f * polyaCdf p (y / (s + t) + (s + t) / 2) - polyaCdf p (y / (s + t) + (s + t) / 2 - (s + t)) = (R + (f - 1)) / 2 := by
    intro e
    have hpos : 0 < s + t := by
      rcases eq_or_lt_of_le (add_nonneg hs0 ht0) with h | h
      · exfalso
        have h1 : s = 0 := by linarith
        have h2 : t = 0 := by linarith
        rw [h1] at hs2; rw [h2] at ht2
        have e1 : β * f1 = 1 := by rw [← hexp1, ← hs2]; simp
        have e2 : β * f2 = 1 := by rw [← hexp2, ← ht2]; simp
        have : A = 0 := by rw [hA, e1]; simp
        have : B = 0 := by rw [hB, e2]; simp
        rw [e, ‹A = 0›, ‹B = 0›] at hR0
        simp at hR0
      · exact h
    refine ⟨hpos, ?_⟩
    have d1 : y / (s + t) + (s + t) / 2 = s := by rw [hy]; field_simp; ring
    have d2 : s - (s + t) = -t := by ring
    rw [d1, d2, polyaCdf_neg, hcs, hct, e]; ring
  rcases lt_trichotomy y 0 with hyn | hy0 | hyp
  · obtain ⟨hf2le, hk, hS, hflt, hS', hsgn⟩ := below_facts hp hyn
    rw [← hf2] at hf2le hk hS hS'
    rw [← hf] at hk hflt
    have hS2 : Real.sqrt (1 - f2 ^ 2) ^ 2 = 1 - f2 ^ 2 := Real.sq_sqrt hS'
    obtain ⟨k1, k2⟩ := branch_below hf0 hflt.le hf20 h12 hf2le hk hβ0 hβ2 hA0 hB0 hA2 hB2 (Real.sqrt_nonneg _) hS2 hR0 hsq
    rw [max_eq_right hflt.le, one_mul, hS, hsgn] at hv
    rcases le_or_gt R (Real.sqrt (1 - f2 ^ 2)) with hle | hlt
    · rw [if_pos hle] at hv
      have e := k1 hle
      have hlt' : s < t := by
        rw [hs, ht]; exact Real.sqrt_lt_sqrt hg1 (by linarith)
      refine ⟨by rw [hv]; linarith, ?_⟩
      have d1 : y / v + v / 2 = -s := by
        have : t - s ≠ 0 := by linarith
        rw [hv, hy, show (-1 : ℝ) * (s - t) = t - s by ring]; field_simp; ring
      have d2 : -s - v = -t := by rw [hv]; ring
      rw [d1, d2, polyaCdf_neg, polyaCdf_neg, hcs, hct, e]; ring
    · rw [if_neg (not_le.mpr hlt)] at hv
      rw [hv]; exact plus (k2 hlt)
  · have hsgn : tfSign y = 0 := by unfold tfSign; rw [hy0]; simp
    have hf1' : f = 1 := by rw [hf, hy0]; simp
    have hf11 : f1 = 1 := by rw [hf1, hy0]; simp
    have hS2 : Real.sqrt (1 - f1 ^ 2) ^ 2 = 1 - f1 ^ 2 := Real.sq_sqrt (by rw [hf11]; norm_num)
    obtain ⟨_, k2⟩ := branch_above hf1'.ge hf10 h12 hf11.le (by rw [hf1', hf11]; norm_num) hβ0 hβ1 hA0 hB0 hA2 hB2
      (Real.sqrt_nonneg _) hS2 hR0 hsq
    have hS0 : max f 1 * Real.sqrt (1 - Real.exp (-2 * p * |y|)) = 0 := by rw [hy0]; simp
    rw [hS0, if_neg (not_le.mpr hR0)] at hv
    rw [hv]
    exact plus (k2 (by rw [hf11]; simpa using hR0))
  · obtain ⟨hf1le, hk, hS, hfgt, hS', hsgn⟩ := above_facts hp hyp
    rw [← hf1] at hf1le hk hS hS'
    rw [← hf] at hk hfgt
    have hS2 : Real.sqrt (1 - f1 ^ 2) ^ 2 = 1 - f1 ^ 2 := Real.sq_sqrt hS'
    obtain ⟨k1, k2⟩ := branch_above hfgt.le hf10 h12 hf1le hk hβ0 hβ1 hA0 hB0 hA2 hB2 (Real.sqrt_nonneg _) hS2 hR0 hsq
    rw [max_eq_left hfgt.le, hS, hsgn, one_mul] at hv
    rcases le_or_gt R (f * Real.sqrt (1 - f1 ^ 2)) with hle | hlt
    · rw [if_pos hle] at hv
      have e := k1 hle
      have hlt' : t < s := by
        rw [hs, ht]; exact Real.sqrt_lt_sqrt hg2 (by linarith)
      refine ⟨by rw [hv]; linarith, ?_⟩
      have d1 : y / v + v / 2 = s := by
        have : s - t ≠ 0 := by linarith
        rw [hv, hy]; field_simp; ring
      have d2 : s - v = t := by rw [hv]; ring
      rw [d1, d2, hcs, hct, e]; ring
    · rw [if_neg (not_le.mpr hlt)] at hv
      rw [hv]; exact plus (k2 hlt)

/-- `option_signs` of the code. -/
def optionSign (isCall : Option Bool) : ℝ :=
  match isCall with
  | none => 1
  | some isCall => if isCall then 1 else -1

theorem optionSign_eq (isCall : Option Bool) : optionSign isCall = if isCall.getD true then 1 else -1 := by
  rcases isCall with _ | (_ | _) <;> simp [optionSign]

theorem threshold_iff {x f y p o : ℝ} (hf : 0 < f) (hy : y = Real.log f) (ho : o = 1 ∨ o = -1) :
    (x ≤ o * tfSign y * (max f 1 * (0.5 + 0.5 * (o * tfSign y) * Real.sqrt (-(Real.exp (-2 * p * |y|) - 1))) - min f 1 / 2)) ↔
      2 * x - o * (f - 1) ≤ max f 1 * Real.sqrt (1 - Real.exp (-2 * p * |y|)) := by
  have e : -(Real.exp (-2 * p * |y|) - 1) = 1 - Real.exp (-2 * p * |y|) := by ring
  rw [e]
  set S := Real.sqrt (1 - Real.exp (-2 * p * |y|)) with hS
  rcases lt_trichotomy y 0 with h | h | h
  · have hs : tfSign y = -1 := by unfold tfSign; rw [if_neg (by linarith), if_pos h]
    have hflt : f ≤ 1 := by
      rw [hy] at h
      by_contra hn
      exact absurd (Real.log_nonneg (by linarith : 1 ≤ f)) (by linarith)
    rw [hs, max_eq_right hflt, min_eq_left hflt]
    rcases ho with rfl | rfl <;> constructor <;> intro hh <;> linarith
  · have hs : tfSign y = 0 := by unfold tfSign; rw [h]; simp
    have hf1 : f = 1 := by
      have := Real.exp_log hf
      rw [← hy, h, Real.exp_zero] at this
      exact this.symm
    have hS0 : S = 0 := by rw [hS, h]; simp
    rw [hs, hS0, hf1]
    constructor <;> intro hh <;> simp at hh ⊢ <;> linarith
  · have hs : tfSign y = 1 := by unfold tfSign; rw [if_pos h]
    have hfgt : 1 ≤ f := by
      rw [hy] at h
      by_contra hn
      exact absurd (Real.log_nonpos hf.le (by linarith : f ≤ 1)) (by linarith)
    rw [hs, max_eq_left hfgt, min_eq_right hfgt]
    rcases ho with rfl | rfl <;> constructor <;> intro hh <;> linarith

theorem approx_polya (p f x T : ℝ) (isCall : Option Bool) (hp : 1 / 2 ≤ p) (hf : 0 < f) (hT : 0 < T)
    (hlo : vanillaPayoff (isCall.getD true) 1 f < x) (hup : x < if isCall.getD true then f else 1) :
    0 < approxImpliedVolPolya x f T isCall p ∧
      blackWith (polyaCdf p) (isCall.getD true) f 1 (approxImpliedVolPolya x f T isCall p * Real.sqrt T) = x := by
  have hT' : 0 < Real.sqrt T := Real.sqrt_pos.mpr hT
  set o := optionSign isCall with ho
  have ho' : o = 1 ∨ o = -1 := by rw [ho, optionSign_eq]; split <;> simp
  set y := Real.log f with hy
  have hfy : f = Real.exp y := (Real.exp_log hf).symm
  have hfac : 0 < x ∧ 0 < x - o * (f - 1) ∧ |f - 1| < 2 * x - o * (f - 1) ∧ 2 * x - o * (f - 1) < f + 1 := by
    rw [ho, optionSign_eq]
    rcases hcall : isCall.getD true with _ | _
    · simp only [vanillaPayoff, hcall, Bool.false_eq_true, if_false] at hlo hup ⊢
      have h1 := lt_of_le_of_lt (le_max_left _ _) hlo
      have h2 := lt_of_le_of_lt (le_max_right _ _) hlo
      refine ⟨h2, by linarith, ?_, by linarith⟩
      rw [abs_lt]; constructor <;> linarith
    · simp only [vanillaPayoff, hcall, if_true] at hlo hup ⊢
      have h1 := lt_of_le_of_lt (le_max_left _ _) hlo
      have h2 := lt_of_le_of_lt (le_max_right _ _) hlo
      refine ⟨h2, by linarith, ?_, by linarith⟩
      rw [abs_lt]; constructor <;> linarith
  obtain ⟨hx, hx', hR1, hR2⟩ := hfac
  set R := 2 * x - o * (f - 1) with hR
  have hR0 : 0 < R := lt_of_le_of_lt (abs_nonneg _) hR1
  have hf1 : f ^ (-p) = Real.exp (-p * y) := by rw [Real.rpow_def_of_pos hf, mul_comm]
  set f1 := f ^ (-p) with hf1def
  set a := (f1 * f - 1 / (f1 * f)) ^ 2 with ha
  set b := 4 * (f1 + 1 / f1) - 2 * (f1 * f + 1 / (f1 * f)) * (1 + f ^ 2 - R ^ 2) / f with hb
  set lnc := Real.log (4 * x) + Real.log (x - o * (f - 1)) + (Real.log (f + 1 - R) + Real.log (f + 1 + R)) - 2 * y with hlnc
  have hc : Real.exp lnc = (R ^ 2 - (f - 1) ^ 2) * ((f + 1) ^ 2 - R ^ 2) / f ^ 2 := by
    rw [hlnc, Real.exp_sub, Real.exp_add, Real.exp_add, Real.exp_add, Real.exp_log (by linarith), Real.exp_log hx',
      Real.exp_log (by linarith), Real.exp_log (by linarith), show (2 : ℝ) * y = ((2 : ℕ) : ℝ) * y by norm_num, Real.exp_nat_mul,
      ← hfy]
    have ho2 : o ^ 2 = 1 := by rcases ho' with h | h <;> rw [h] <;> norm_num
    congr 1
    rw [hR]
    linear_combination (-((f + 1) ^ 2 - (2 * x - o * (f - 1)) ^ 2) * (f - 1) ^ 2) * ho2
  set c := Real.exp lnc with hcdef
  obtain ⟨hc0, hD, hβ0, hβ1, hβ2, hQ⟩ := polya_root (p := p) hfy hR1 hR2 hf1 rfl ha hb hc rfl
  set D := b + Real.sqrt (b * b + 4 * a * c) with hDdef
  have hlnb : Real.log 2 + lnc - Real.log D = Real.log (2 * c / D) := by
    rw [Real.log_div (by positivity) hD.ne', Real.log_mul (by norm_num) hc0.ne', hcdef, Real.log_exp]
  have hth := threshold_iff (x := x) (p := p) hf hy ho'
  obtain ⟨hv, hprice⟩ := polya_branches hp hfy hR0 hf1 rfl hβ0 hβ1 hβ2 hQ rfl rfl
  set v := if R ≤ max f 1 * Real.sqrt (1 - Real.exp (-2 * p * |y|)) then
        tfSign y * (Real.sqrt (-(Real.log (2 * c / D)) / p + y) - Real.sqrt (-(Real.log (2 * c / D)) / p - y))
        else Real.sqrt (-(Real.log (2 * c / D)) / p + y) + Real.sqrt (-(Real.log (2 * c / D)) / p - y) with hvdef
  have hres : approxImpliedVolPolya x f T isCall p = v / Real.sqrt T := by
    unfold approxImpliedVolPolya polyaQuadraticCoeffs
    rw [hvdef, ← hlnb]
    exact congrArg (fun z => z / Real.sqrt T) (if_congr hth rfl rfl)
  rw [hres]
  refine ⟨div_pos hv hT', ?_⟩
  rw [div_mul_cancel₀ _ hT'.ne']
  unfold blackWith
  simp only [div_one, one_mul, ← hy]
  rw [polyaCdf_neg, polyaCdf_neg]
  have ho2 : o = if isCall.getD true then 1 else -1 := by rw [ho, optionSign_eq]
  rcases hcall : isCall.getD true with _ | _
  · simp only [hcall, Bool.false_eq_true, if_false] at ho2 ⊢
    rw [hR, ho2] at hprice
    linarith
  · simp only [hcall, if_true] at ho2 ⊢
    rw [hR, ho2] at hprice
    linarith

theorem blackWith_scale (cdf : ℝ → ℝ) (c : Bool) (F K s : ℝ) (hK : K ≠ 0) :
    blackWith cdf c F K s = K * blackWith cdf c (F / K) 1 s := by
  unfold blackWith
  simp only [div_one, one_mul]
  split
  · rw [mul_sub, ← mul_assoc, mul_div_cancel₀ _ hK]
  · rw [mul_sub, ← mul_assoc K (F / K), mul_div_cancel₀ _ hK]

end Lemmas

namespace Props
open Model Lemmas Spec

/-- C43: the volatility returned by the fast approximation is positive, and Black's formula with Pólya's distribution function
gives back exactly the price for it; for every price strictly within the no-arbitrage bounds and every factor in the
exponent that is at least one half (the default is `2 / π`). -/
theorem C43_inverse (a : IvArgs) (h : ValidIvArgs a) (hn : a.isNormal = false) (hb : WithinBounds a) (p : ℝ) (hp : 1 / 2 ≤ p) :
    ∃ v, approxImpliedVol a p = .ok v ∧ 0 < v ∧
      ivDiscount a * blackWith (polyaCdf p) (a.isCall.getD true) (ivForwardPrice a) a.strike (v * Real.sqrt a.expiry) =
        a.price := by
  obtain ⟨hF, hK⟩ := h.positive hn
  have hD := ivDiscount_pos h
  have hck : ivCheck a = .ok () := by
    unfold ivCheck
    have h1 := h.one
    rcases hs : a.spot with _ | s <;> rcases hf : a.forward with _ | f <;> simp_all
  have hKD : 0 < a.strike * ivDiscount a := mul_pos hK hD
  have hpay : vanillaPayoff (a.isCall.getD true) 1 (ivForwardPrice a / a.strike) * a.strike =
      vanillaPayoff (a.isCall.getD true) a.strike (ivForwardPrice a) := by
    rcases a.isCall.getD true with _ | _
    · simp only [vanillaPayoff, Bool.false_eq_true, if_false]
      rw [max_mul_of_nonneg _ _ hK.le]
      congr 1
      · field_simp
      · ring
    · simp only [vanillaPayoff, if_true]
      rw [max_mul_of_nonneg _ _ hK.le]
      congr 1
      · field_simp
      · ring
  obtain ⟨h1, h2⟩ := approx_polya p (ivForwardPrice a / a.strike) (a.price / (a.strike * ivDiscount a)) a.expiry a.isCall hp
    (div_pos hF hK) h.expiry
    (by rw [lt_div_iff₀ hKD]; have := hb.1; rw [← hpay] at this; linarith)
    (by
      rw [div_lt_iff₀ hKD]
      have := hb.2 hn
      split <;> rename_i hc <;> simp only [hc, if_true, Bool.false_eq_true, if_false] at this
      · rw [div_mul_eq_mul_div, lt_div_iff₀ hK]; nlinarith
      · linarith)
  refine ⟨_, ?_, h1, ?_⟩
  · unfold approxImpliedVol
    rw [hck, ivDiscount_eq h, ivForward_eq h]
    rfl
  · rw [eq_div_iff hKD.ne'] at h2
    rw [blackWith_scale _ _ _ _ _ hK.ne']
    linarith

/-- The default factor is allowed. -/
theorem polya_default : (1 : ℝ) / 2 ≤ 2 / Real.pi := by
  rw [le_div_iff₀ Real.pi_pos]
  have := Real.pi_le_four
  linarith

/-- The option of C42: strike 110, forward 100, two years. -/
example : ∃ v, approxImpliedVol exIv = .ok v ∧ 0 < v ∧
      9 / 10 * blackWith (polyaCdf (2 / Real.pi)) true 100 110 (v * Real.sqrt 2) = exIv.price := by
  have h := exIv_valid.1
  have hp : optionPrice (withVolatility exIv (1 / 5)) = .ok exIv.price := by
    rw [optionPrice_with h (by norm_num), exIv_valid.2]
    simp [callOf, parityOf, exIv, ivForwardPrice, forward, withVolatility]
  have hb : WithinBounds exIv := (C42_exists_unique exIv h).2 ⟨1 / 5, by norm_num, hp⟩
  exact C43_inverse exIv h rfl hb _ polya_default

end Props
