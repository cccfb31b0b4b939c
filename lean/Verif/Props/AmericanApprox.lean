import Verif.Model.AmericanApprox
import Verif.Lemmas.BlackScholesEquation
import Verif.Props.VanillaPrices

/-!
# Property theorems C76: the Bjerksund-Stensland approximations of American options
-/

namespace Props
open Model Spec Lemmas Filter Topology

/-! ## The exercise boundary -/

theorem discriminant_gt (r b sigma : ℝ) (hs : 0 < sigma) (h : b < r) :
    (b / sigma ^ 2 + 0.5) ^ 2 < (b / sigma ^ 2 - 0.5) ^ 2 + 2 * r / sigma ^ 2 := by
  have h2 : 0 < sigma ^ 2 := by positivity
  have h3 : b / sigma ^ 2 < r / sigma ^ 2 := div_lt_div_of_pos_right h h2
  have e : 2 * r / sigma ^ 2 = 2 * (r / sigma ^ 2) := by ring
  rw [e]
  nlinarith

/-- C76: `beta` is a root of the characteristic polynomial of the Black-Scholes operator, and larger than one if the cost of carry is
smaller than the rate. -/
theorem C76_beta (r b sigma : ℝ) (hs : 0 < sigma) :
    (0 ≤ (b / sigma ^ 2 - 0.5) ^ 2 + 2 * r / sigma ^ 2 →
      sigma ^ 2 / 2 * (bsBeta r b sigma * (bsBeta r b sigma - 1)) + b * bsBeta r b sigma - r = 0) ∧
    (b < r → 0 < (b / sigma ^ 2 - 0.5) ^ 2 + 2 * r / sigma ^ 2 ∧ 1 < bsBeta r b sigma) := by
  constructor
  · intro h
    have hq := Real.sq_sqrt h
    unfold bsBeta
    generalize Real.sqrt ((b / sigma ^ 2 - 0.5) ^ 2 + 2 * r / sigma ^ 2) = q at hq
    have h2 : sigma ^ 2 ≠ 0 := by positivity
    have e : b = b / sigma ^ 2 * sigma ^ 2 := by field_simp
    have e2 : r = r / sigma ^ 2 * sigma ^ 2 := by field_simp
    have e3 : 2 * r / sigma ^ 2 = 2 * (r / sigma ^ 2) := by ring
    rw [e3] at hq
    generalize b / sigma ^ 2 = B at hq e
    generalize r / sigma ^ 2 = R at hq e2
    rw [e, e2]
    linear_combination sigma ^ 2 / 2 * hq
  · intro h
    have h1 := discriminant_gt r b sigma hs h
    have h2 : 0 < (b / sigma ^ 2 - 0.5) ^ 2 + 2 * r / sigma ^ 2 := lt_of_le_of_lt (sq_nonneg _) h1
    refine ⟨h2, ?_⟩
    have h3 := Real.lt_sqrt_of_sq_lt h1
    unfold bsBeta
    have e : (1 : ℝ) = (0.5 - b / sigma ^ 2) + (b / sigma ^ 2 + 0.5) := by ring
    rw [e]
    linarith

/-- C76: the time is split by the golden section, the first part being the longer one. -/
theorem C76_split (t : ℝ) (ht : 0 < t) : 0 < bsT1 t ∧ bsT1 t < t ∧ t - bsT1 t < bsT1 t ∧ bsT1 t ^ 2 = t * (t - bsT1 t) := by
  have h5 : Real.sqrt 5 ^ 2 = 5 := Real.sq_sqrt (by norm_num)
  have h2 : 2 < Real.sqrt 5 := by rw [Real.lt_sqrt] <;> norm_num
  have h3 : Real.sqrt 5 < 3 := by rw [Real.sqrt_lt'] <;> norm_num
  unfold bsT1
  refine ⟨?_, ?_, ?_, ?_⟩
  · have : 0 < Real.sqrt 5 - 1 := by linarith
    positivity
  · nlinarith
  · nlinarith
  · linear_combination (t ^ 2 / 4) * h5

/-- C76: the exercise boundary exists if the cost of carry is smaller than the rate; it is then below the boundary of the perpetual
option, the limit for expiry zero is below it too and is at least the strike. -/
theorem C76_boundary (k t r b sigma : ℝ) (hk : 0 < k) (hs : 0 < sigma) (h : b < r) :
    k ≤ bsB0 k r b ∧ bsB0 k r b < bsBInf k (bsBeta r b sigma) ∧
    ∃ x, bsBoundary k t r b sigma (bsBeta r b sigma) = some x ∧ x < bsBInf k (bsBeta r b sigma) ∧
      (bsB0 k r b ≤ x ↔ 0 ≤ b * t + 2 * sigma * Real.sqrt t) := by
  obtain ⟨hd, hbeta⟩ := (C76_beta r b sigma hs).2 h
  have hroot := (C76_beta r b sigma hs).1 hd.le
  set beta := bsBeta r b sigma with hbd
  have hb1 : 0 < beta - 1 := by linarith
  have h0 : k ≤ bsB0 k r b := le_max_left _ _
  have hlt : bsB0 k r b < bsBInf k beta := by
    unfold bsB0 bsBInf
    refine max_lt ?_ ?_
    · have : 1 < beta / (beta - 1) := by rw [lt_div_iff₀ hb1]; linarith
      nlinarith
    · refine mul_lt_mul_of_pos_right ?_ hk
      have hrb : 0 < r - b := by linarith
      rw [div_lt_div_iff₀ hrb hb1]
      have : b * beta < r := by
        have : 0 < sigma ^ 2 / 2 * (beta * (beta - 1)) := by positivity
        linarith
      linarith
  refine ⟨h0, hlt, ?_⟩
  unfold bsBoundary
  rw [if_neg (by push Not; exact ⟨hd.le, by linarith⟩)]
  dsimp only
  refine ⟨_, rfl, ?_, ?_⟩
  · have := Real.exp_pos (-(b * t + 2 * sigma * Real.sqrt t) * (k ^ 2 / ((bsBInf k beta - bsB0 k r b) * bsB0 k r b)))
    have hgap : 0 < bsBInf k beta - bsB0 k r b := by linarith
    nlinarith
  · have hgap : 0 < bsBInf k beta - bsB0 k r b := by linarith
    have hc : 0 < k ^ 2 / ((bsBInf k beta - bsB0 k r b) * bsB0 k r b) := by
      have : 0 < bsB0 k r b := by linarith
      positivity
    rw [le_add_iff_nonneg_right, mul_nonneg_iff_of_pos_left hgap, sub_nonneg, Real.exp_le_one_iff, neg_mul, Left.neg_nonpos_iff,
      mul_nonneg_iff_of_pos_right hc]

/-! ## The functions `phi` and `psi` -/

theorem bsPhi_eq (s t gamma h x r b sigma : ℝ) (hsig : 0 < sigma) (hs : 0 < s) (hh : 0 < h) (hx : 0 < x) :
    bsPhi s t gamma h x r b sigma = powerBinary r b sigma gamma (Real.log h) (-1) s t -
      x ^ (2 * b / sigma ^ 2 + (2 * gamma - 1)) *
        powerBinary r b sigma (1 - gamma - 2 * b / sigma ^ 2) (2 * Real.log x - Real.log h) 1 s t := by
  unfold bsPhi powerBinary
  dsimp only
  rw [ncdf_eq, ncdf_eq, Real.log_div hs.ne' hh.ne', Real.log_div (by positivity) (by positivity), Real.log_pow, Real.log_mul hs.ne' hh.ne',
    Real.div_rpow hx.le hs.le]
  have hS : s ^ (1 - gamma - 2 * b / sigma ^ 2) = s ^ gamma / s ^ (2 * b / sigma ^ 2 + (2 * gamma - 1)) := by
    rw [← Real.rpow_sub hs]; congr 1; ring
  rw [hS]
  have e1 : -r + (1 - gamma - 2 * b / sigma ^ 2) * b + (1 - gamma - 2 * b / sigma ^ 2) * (1 - gamma - 2 * b / sigma ^ 2 - 1) * sigma ^ 2 / 2 =
      -r + gamma * b + gamma * (gamma - 1) * sigma ^ 2 / 2 := by
    field_simp; ring
  have e2 : -r + gamma * b + 0.5 * gamma * (gamma - 1) * sigma ^ 2 = -r + gamma * b + gamma * (gamma - 1) * sigma ^ 2 / 2 := by ring
  have e3 : -(Real.log s - Real.log h + (b + (gamma - 0.5) * sigma ^ 2) * t) / (sigma * Real.sqrt t) =
      -1 * (Real.log s - Real.log h + (b + (gamma - 1 / 2) * sigma ^ 2) * t) / (sigma * Real.sqrt t) := by ring
  have e4 : -((2 : ℕ) * Real.log x - (Real.log s + Real.log h) + (b + (gamma - 0.5) * sigma ^ 2) * t) / (sigma * Real.sqrt t) =
      1 * (Real.log s - (2 * Real.log x - Real.log h) + (b + (1 - gamma - 2 * b / sigma ^ 2 - 1 / 2) * sigma ^ 2) * t) /
        (sigma * Real.sqrt t) := by
    congr 1
    push_cast
    field_simp
    ring
  rw [e1, e2, e3, e4]
  have : s ^ (2 * b / sigma ^ 2 + (2 * gamma - 1)) ≠ 0 := (Real.rpow_pos_of_pos hs _).ne'
  field_simp

/-- C76: `phi` with level `h` and barrier `x` is the value of a contract that pays the power `gamma` of the spot at expiry if it is then
below `h` and has stayed below the barrier: it solves the Black-Scholes equation, vanishes at the barrier, and tends to this payoff. -/
theorem C76_phi (gamma h x r b sigma : ℝ) (hsig : 0 < sigma) (hh : 0 < h) (hx : 0 < x) :
    (∀ s t, 0 < s → 0 < t → BlackScholesAt r b sigma (fun s t => bsPhi s t gamma h x r b sigma) s t) ∧
    (∀ t, bsPhi x t gamma h x r b sigma = 0) ∧
    (∀ s, 0 < s → s < x → h ≤ x → s ≠ h →
      Tendsto (fun t => bsPhi s t gamma h x r b sigma) (𝓝[>] 0) (𝓝 (if s < h then s ^ gamma else 0))) := by
  refine ⟨?_, ?_, ?_⟩
  · intro s t hs ht
    refine bsAt_congr hs ht (fun s t hs _ => bsPhi_eq s t gamma h x r b sigma hsig hs hh hx) ?_
    exact bsAt_sub (powerBinary_solves r b sigma gamma (Real.log h) (-1) s t hsig (by norm_num) hs ht)
      (bsAt_const_mul _ (powerBinary_solves r b sigma _ _ 1 s t hsig (by norm_num) hs ht))
  · intro t
    unfold bsPhi
    dsimp only
    have e : x ^ 2 / (x * h) = x / h := by field_simp
    rw [e, div_self hx.ne', Real.one_rpow, one_mul, sub_self, mul_zero]
  · intro s hs hsx hhx hne
    have e : (fun t => bsPhi s t gamma h x r b sigma) = fun t => powerBinary r b sigma gamma (Real.log h) (-1) s t -
      x ^ (2 * b / sigma ^ 2 + (2 * gamma - 1)) *
        powerBinary r b sigma (1 - gamma - 2 * b / sigma ^ 2) (2 * Real.log x - Real.log h) 1 s t :=
      funext fun t => bsPhi_eq s t gamma h x r b sigma hsig hs hh hx
    rw [e]
    have l1 := Real.log_lt_log hs hsx
    have l2 := Real.log_le_log hh hhx
    have t2 := (powerBinary_out r b sigma (1 - gamma - 2 * b / sigma ^ 2) (2 * Real.log x - Real.log h) 1 s hsig (by linarith)).const_mul
      (x ^ (2 * b / sigma ^ 2 + (2 * gamma - 1)))
    by_cases hlt : s < h
    · rw [if_pos hlt]
      have l3 := Real.log_lt_log hs hlt
      have := (powerBinary_in r b sigma gamma (Real.log h) (-1) s hsig (by linarith)).sub t2
      simpa using this
    · rw [if_neg hlt]
      have l3 := Real.log_lt_log hh (lt_of_le_of_ne (not_lt.1 hlt) (Ne.symm hne))
      have := (powerBinary_out r b sigma gamma (Real.log h) (-1) s hsig (by linarith)).sub t2
      simpa using this

/-- C76: the 1993 value below the boundary `x` is the value of a call that is exercised as soon as the spot reaches `x`: it solves the
Black-Scholes equation, is the exercise value at the boundary, and tends to the payoff at expiry. -/
theorem C76_1993 (k x r b sigma : ℝ) (hsig : 0 < sigma) (hk : 0 < k) (hx : k ≤ x)
    (hd : 0 ≤ (b / sigma ^ 2 - 0.5) ^ 2 + 2 * r / sigma ^ 2) :
    (∀ s t, 0 < s → 0 < t →
      BlackScholesAt r b sigma (fun s t => bsContinuation1993 s k t r b sigma (bsBeta r b sigma) x) s t) ∧
    (∀ t, bsContinuation1993 x k t r b sigma (bsBeta r b sigma) x = x - k) ∧
    (∀ s, 0 < s → s < x → s ≠ k →
      Tendsto (fun t => bsContinuation1993 s k t r b sigma (bsBeta r b sigma) x) (𝓝[>] 0) (𝓝 (max (s - k) 0))) := by
  have hx0 : 0 < x := by linarith
  set beta := bsBeta r b sigma with hbeta
  refine ⟨?_, ?_, ?_⟩
  · intro s t hs ht
    have p := fun gamma h hh => (C76_phi gamma h x r b sigma hsig hh hx0).1 s t hs ht
    have hpow := bsAt_rpow r b sigma beta s t hs ((C76_beta r b sigma hsig).1 hd)
    unfold bsContinuation1993
    exact bsAt_add (bsAt_sub (bsAt_sub (bsAt_add (bsAt_sub (bsAt_const_mul _ hpow) (bsAt_const_mul _ (p beta x hx0))) (p 1 x hx0))
      (p 1 k hk)) (bsAt_const_mul k (p 0 x hx0))) (bsAt_const_mul k (p 0 k hk))
  · intro t
    have p := fun gamma h hh => (C76_phi gamma h x r b sigma hsig hh hx0).2.1 t
    unfold bsContinuation1993
    dsimp only
    rw [p beta x hx0, p 1 x hx0, p 1 k hk, p 0 x hx0, p 0 k hk, mul_assoc, ← Real.rpow_add hx0]
    simp
  · intro s hs hsx hne
    have p := fun gamma h hh hhx hneq => (C76_phi gamma h x r b sigma hsig hh hx0).2.2 s hs hsx hhx hneq
    have a1 := p beta x hx0 le_rfl hsx.ne
    have a2 := p 1 x hx0 le_rfl hsx.ne
    have a3 := p 1 k hk hx hne
    have a4 := p 0 x hx0 le_rfl hsx.ne
    have a5 := p 0 k hk hx hne
    unfold bsContinuation1993
    dsimp only
    have := ((((((tendsto_const_nhds (x := (x - k) * x ^ (-beta) * s ^ beta)).sub (a1.const_mul ((x - k) * x ^ (-beta)))).add a2).sub a3).sub
      (a4.const_mul k))).add (a5.const_mul k)
    refine this.trans (le_of_eq ?_)
    congr 1
    rw [if_pos hsx, if_pos hsx, if_pos hsx]
    by_cases hlt : s < k
    · rw [if_pos hlt, if_pos hlt, max_eq_right (by linarith)]
      ring
    · rw [if_neg hlt, if_neg hlt, max_eq_left (by linarith)]
      simp

/-- C76: in the 2002 formula, for every level `h` and every approximation of the bivariate distribution, `psi` vanishes at the second
boundary, and the value there is the exercise value. -/
theorem C76_2002_boundary (k t r b sigma beta x1 x2 : ℝ) (hk : 0 < k) (hsig : 0 < sigma) (h1 : 0 < x1) (h2 : 0 < x2) :
    (∀ t gamma h t1, bsPsi x2 t gamma h x2 x1 t1 r b sigma = 0) ∧ bsContinuation2002 x2 k t r b sigma beta x1 x2 = x2 - k := by
  have hpsi : ∀ t gamma h t1, bsPsi x2 t gamma h x2 x1 t1 r b sigma = 0 := by
    intro t gamma h t1
    unfold bsPsi
    dsimp only
    have e1 : x2 ^ 2 / (x2 * x1) = x2 / x1 := by field_simp
    have e2 : x2 ^ 2 / (x2 * h) = x2 / h := by
      by_cases hh : h = 0
      · simp [hh]
      · field_simp
    have e3 : x2 * x1 ^ 2 / (h * x2 ^ 2) = x1 ^ 2 / (x2 * h) := by
      by_cases hh : h = 0
      · simp [hh]
      · field_simp
    rw [e1, e2, e3, div_self h2.ne', Real.one_rpow]
    ring
  refine ⟨hpsi, ?_⟩
  have p := fun gamma h hh => (C76_phi gamma h x2 r b sigma hsig hh h2).2.1 (bsT1 t)
  unfold bsContinuation2002
  dsimp only
  rw [hpsi, hpsi, hpsi, hpsi, hpsi, p beta x2 h2, p 1 x2 h2, p 1 x1 h1, p 0 x2 h2, p 0 x1 h1, p beta x1 h1, mul_assoc, ← Real.rpow_add h2]
  simp

/-! ## Prices -/

theorem bsBoundary_scale (c k t r b sigma beta : ℝ) (hc : 0 < c) :
    bsBoundary (c * k) t r b sigma beta = (bsBoundary k t r b sigma beta).map (fun x => c * x) := by
  unfold bsBoundary
  have e0 : bsB0 (c * k) r b = c * bsB0 k r b := by
    unfold bsB0
    rw [mul_max_of_nonneg _ _ hc.le]
    congr 1
    ring
  have e1 : bsBInf (c * k) beta = c * bsBInf k beta := by unfold bsBInf; ring
  split
  · rfl
  · dsimp only
    rw [e0, e1, Option.map_some]
    congr 1
    have : (c * k) ^ 2 / ((c * bsBInf k beta - c * bsB0 k r b) * (c * bsB0 k r b)) = k ^ 2 / ((bsBInf k beta - bsB0 k r b) * bsB0 k r b) := by
      rw [show (c * k) ^ 2 = c ^ 2 * k ^ 2 by ring,
        show (c * bsBInf k beta - c * bsB0 k r b) * (c * bsB0 k r b) = c ^ 2 * ((bsBInf k beta - bsB0 k r b) * bsB0 k r b) by ring,
        mul_div_mul_left _ _ (by positivity)]
    rw [this]
    ring

theorem bsPhi_scale (c s t gamma h x r b sigma : ℝ) (hc : 0 < c) (hs : 0 ≤ s) :
    bsPhi (c * s) t gamma (c * h) (c * x) r b sigma = c ^ gamma * bsPhi s t gamma h x r b sigma := by
  unfold bsPhi
  dsimp only
  rw [mul_div_mul_left _ _ hc.ne', mul_div_mul_left _ _ hc.ne', Real.mul_rpow hc.le hs,
    show (c * x) ^ 2 = c ^ 2 * x ^ 2 by ring, show c * s * (c * h) = c ^ 2 * (s * h) by ring, mul_div_mul_left _ _ (by positivity)]
  ring

theorem bsPsi_scale (c s t gamma h x2 x1 t1 r b sigma : ℝ) (hc : 0 < c) (hs : 0 ≤ s) :
    bsPsi (c * s) t gamma (c * h) (c * x2) (c * x1) t1 r b sigma = c ^ gamma * bsPsi s t gamma h x2 x1 t1 r b sigma := by
  unfold bsPsi
  dsimp only
  have sq : ∀ y : ℝ, (c * y) ^ 2 = c ^ 2 * y ^ 2 := fun y => by ring
  have pr : ∀ y : ℝ, c * s * (c * y) = c ^ 2 * (s * y) := fun y => by ring
  rw [sq x1, sq x2, pr x1, pr h, show c * s * (c ^ 2 * x1 ^ 2) = c ^ 3 * (s * x1 ^ 2) by ring,
    show c * h * (c ^ 2 * x2 ^ 2) = c ^ 3 * (h * x2 ^ 2) by ring]
  have h2 : c ^ 2 ≠ 0 := by positivity
  have h3 : c ^ 3 ≠ 0 := by positivity
  simp only [mul_div_mul_left _ _ hc.ne', mul_div_mul_left _ _ h2, mul_div_mul_left _ _ h3]
  rw [Real.mul_rpow hc.le hs]
  ring

theorem alpha_scale (c k beta x s : ℝ) (hc : 0 < c) (hx : 0 ≤ x) :
    ((c * x - c * k) * (c * x) ^ (-beta)) * (c ^ beta * s) = c * ((x - k) * x ^ (-beta) * s) := by
  rw [Real.mul_rpow hc.le hx, Real.rpow_neg hc.le]
  have := (Real.rpow_pos_of_pos hc beta).ne'
  field_simp

/-- C76: prices are homogeneous in spot and strike, in both variants, as long as the boundaries are not negative. -/
theorem C76_homogeneous (modified : Bool) (c s k t r b sigma : ℝ) (hc : 0 < c) (hs : 0 ≤ s)
    (h1 : ∀ x, bsBoundary k t r b sigma (bsBeta r b sigma) = some x → 0 ≤ x)
    (h2 : ∀ x, bsBoundary1 k t r b sigma (bsBeta r b sigma) = some x → 0 ≤ x) :
    bsCall modified (c * s) (c * k) t r b sigma = (bsCall modified s k t r b sigma).map (fun p => c * p) := by
  have hle : ∀ x : ℝ, (c * x ≤ c * s ↔ x ≤ s) := fun x => mul_le_mul_iff_right₀ hc
  have h0 := fun h x => bsPhi_scale c s t 0 h x r b sigma hc hs
  cases modified with
  | false =>
    change bsCall1993 _ _ _ _ _ _ = (bsCall1993 _ _ _ _ _ _).map _
    unfold bsCall1993
    dsimp only
    rw [bsBoundary_scale _ _ _ _ _ _ _ hc]
    cases hx : bsBoundary k t r b sigma (bsBeta r b sigma) with
    | none => rfl
    | some x =>
      have hx0 := h1 x hx
      simp only [Option.map_some, Option.some.injEq, ge_iff_le, hle]
      split
      · ring
      · unfold bsContinuation1993
        dsimp only
        rw [bsPhi_scale _ _ _ _ _ _ _ _ _ hc hs, bsPhi_scale _ _ _ _ _ _ _ _ _ hc hs, bsPhi_scale _ _ _ _ _ _ _ _ _ hc hs,
          bsPhi_scale _ _ _ _ _ _ _ _ _ hc hs, bsPhi_scale _ _ _ _ _ _ _ _ _ hc hs, Real.mul_rpow hc.le hs,
          alpha_scale _ _ _ _ _ hc hx0, alpha_scale _ _ _ _ _ hc hx0, Real.rpow_zero, Real.rpow_one]
        ring
  | true =>
    change bsCall2002 _ _ _ _ _ _ = (bsCall2002 _ _ _ _ _ _).map _
    unfold bsCall2002
    unfold bsBoundary1 at h2 ⊢
    dsimp only
    rw [bsBoundary_scale _ _ _ _ _ _ _ hc, bsBoundary_scale _ _ _ _ _ _ _ hc]
    cases hx1 : bsBoundary k (t - bsT1 t) r b sigma (bsBeta r b sigma) with
    | none => rfl
    | some x1 =>
      cases hx : bsBoundary k t r b sigma (bsBeta r b sigma) with
      | none => rfl
      | some x2 =>
        have hx0 := h1 x2 hx
        have hx10 := h2 x1 hx1
        simp only [Option.map_some, Option.bind_some, Option.some.injEq, ge_iff_le, hle]
        split
        · ring
        · unfold bsContinuation2002
          dsimp only
          simp only [bsPhi_scale _ _ _ _ _ _ _ _ _ hc hs, bsPsi_scale _ _ _ _ _ _ _ _ _ _ _ hc hs, Real.mul_rpow hc.le hs,
            alpha_scale _ _ _ _ _ hc hx0, alpha_scale _ _ _ _ _ hc hx10, Real.rpow_zero, Real.rpow_one]
          ring

theorem amEuropean_eq (a : BsArgs) (h : ValidArgs a) (hdf : a.discountFactor.isSome = true → a.expiry ≠ 0) (hn : a.isNormal = false) :
    amEuropean a.volatility a.strike a.expiry (amSpot a) (amRate a) (a.dividendRate.getD 0) a.isCall = optionPrice a := by
  have hd : Real.exp (-amRate a * a.expiry) = (bsDiscounting a).2 := by
    unfold amRate bsDiscounting
    have h2 := h.factor
    rcases hr : a.discountRate with _ | r
    · rcases hf : a.discountFactor with _ | df
      · simp
      · have h3 := (h2 df hf).1
        have h4 := hdf (by simp [hf])
        have e : -(-Real.log df / a.expiry) * a.expiry = Real.log df := by field_simp
        simp only [e, Real.exp_log h3]
    · rfl
  have hf : amSpot a * Real.exp ((amRate a - a.dividendRate.getD 0) * a.expiry) = bsForward a := by
    unfold amSpot bsForward
    rcases a.forward with _ | f
    · rfl
    · simp only
      rw [mul_assoc, ← Real.exp_add, neg_mul, neg_add_cancel, Real.exp_zero, mul_one]
  have hc := bsCheck_ok a h
  unfold amEuropean
  generalize ha : ({ volatility := a.volatility, strike := a.strike, expiry := a.expiry, spot := some (amSpot a), discountRate := some (amRate a), dividendRate := some (a.dividendRate.getD 0), isCall := a.isCall } : BsArgs) = a'
  have e1 : bsCheck a' = .ok () := by rw [← ha]; rfl
  have e2 : bsForward a' = bsForward a := by rw [← ha, ← hf]; rfl
  have e3 : (bsDiscounting a').2 = (bsDiscounting a).2 := by rw [← ha, ← hd]; rfl
  unfold optionPrice
  rw [hc, e1, e2, e3, hn]
  rw [← ha]

/-- C76: with a dividend rate that is not positive a call is priced as the European call. -/
theorem C76_european (a : BsArgs) (modified : Bool) (h : ValidArgs a) (hdf : a.discountFactor.isSome = true → a.expiry ≠ 0)
    (hcall : a.isCall.getD true = true) (hd : a.dividendRate.getD 0 ≤ 0) :
    bjerksundStensland a modified = (optionPrice { a with isCall := some true, isNormal := false }).map some := by
  unfold bjerksundStensland
  rw [bsCheck_ok a h]
  change (if amRate a - a.dividendRate.getD 0 ≥ amRate a ∧ a.isCall.getD true = true then _ else _ : Except String (Option ℝ)) = _
  rw [if_pos ⟨by linarith, hcall⟩, hcall]
  have h' : ValidArgs { a with isCall := some true, isNormal := false } := ⟨h.one, h.atMostOne, h.volatility, h.expiry, h.factor⟩
  have e := amEuropean_eq { a with isCall := some true, isNormal := false } h' hdf rfl
  rw [← e]
  change (do let price ← amEuropean a.volatility a.strike a.expiry (amSpot a) (amRate a) (a.dividendRate.getD 0) (some true); return some price) =
    (amEuropean a.volatility a.strike a.expiry (amSpot a) (amRate a) (a.dividendRate.getD 0) (some true)).map some
  cases amEuropean a.volatility a.strike a.expiry (amSpot a) (amRate a) (a.dividendRate.getD 0) (some true) <;> rfl

/-- C76: at expiry the price is the payoff. -/
theorem C76_expiry (a : BsArgs) (modified : Bool) (h : ValidArgs a) (ht : a.expiry = 0) (hdf : a.discountFactor = none)
    (hn : ¬ (a.dividendRate.getD 0 ≤ 0 ∧ a.isCall.getD true = true)) :
    bjerksundStensland a modified = .ok (some (vanillaPayoff (a.isCall.getD true) a.strike (forward a))) := by
  unfold bjerksundStensland
  rw [bsCheck_ok a h]
  change (if amRate a - a.dividendRate.getD 0 ≥ amRate a ∧ a.isCall.getD true = true then _ else _ : Except String (Option ℝ)) = _
  rw [if_neg (by intro hc; exact hn ⟨by linarith [hc.1], hc.2⟩)]
  have hs : amSpot a = forward a := by
    unfold amSpot forward discount
    rw [ht, hdf]
    rcases a.forward with _ | f <;> rcases a.discountRate with _ | r <;> simp
  have h0 : ¬ (a.expiry > 0) := by rw [ht]; exact lt_irrefl _
  rw [if_neg h0, if_neg h0, hs]
  unfold vanillaPayoff
  split <;> rfl

/-- C76: the arguments are rejected exactly when both or neither of spot and forward, or both rate and factor are given. -/
theorem C76_rejects (a : BsArgs) (modified : Bool) :
    (∃ e, bjerksundStensland a modified = .error e) ↔
      (a.spot.isSome = a.forward.isSome ∨ (a.discountRate.isSome = true ∧ a.discountFactor.isSome = true)) := by
  have hE : ∀ x y z w u v c, ∃ p, amEuropean x y z w u v c = .ok p := by
    intro x y z w u v c
    unfold amEuropean
    cases hp : optionPrice { volatility := x, strike := y, expiry := z, spot := some w, discountRate := some u, dividendRate := some v, isCall := c } with
    | ok p => exact ⟨p, rfl⟩
    | error e =>
      have := (C31_rejects _).1 ⟨e, hp⟩
      simp at this
  have hok : bsCheck a = .ok () → ∃ p, bjerksundStensland a modified = .ok p := by
    intro hc
    unfold bjerksundStensland
    rw [hc]
    change ∃ p, (if amRate a - a.dividendRate.getD 0 ≥ amRate a ∧ a.isCall.getD true = true then _ else _ : Except String (Option ℝ)) = .ok p
    split
    · obtain ⟨p, hp⟩ := hE a.volatility a.strike a.expiry (amSpot a) (amRate a) (a.dividendRate.getD 0) (some (a.isCall.getD true))
      rw [hp]
      exact ⟨_, rfl⟩
    · split <;> exact ⟨_, rfl⟩
  have herr : ∀ e, bsCheck a = .error e → bjerksundStensland a modified = .error e := by
    intro e hc
    unfold bjerksundStensland
    rw [hc]
    rfl
  have hchk : (∃ e, bsCheck a = .error e) ↔
      (a.spot.isSome = a.forward.isSome ∨ (a.discountRate.isSome = true ∧ a.discountFactor.isSome = true)) := by
    unfold bsCheck
    rcases a.spot with _ | s <;> rcases a.forward with _ | f <;> rcases a.discountRate with _ | r <;>
      rcases a.discountFactor with _ | df <;> simp
  rw [← hchk]
  constructor
  · rintro ⟨e, he⟩
    cases hc : bsCheck a with
    | ok u =>
      obtain ⟨p, hp⟩ := hok hc
      rw [hp] at he
      cases he
    | error e' => exact ⟨e', rfl⟩
  · rintro ⟨e, he⟩
    exact ⟨e, herr e he⟩

/-- C76: at or above the boundary a call is worth its exercise value, in both variants. -/
theorem C76_exercise (modified : Bool) (s k t r b sigma x : ℝ) (hk : 0 < k) (hsig : 0 < sigma) (h : b < r)
    (hx : bsBoundary k t r b sigma (bsBeta r b sigma) = some x) (hs : x ≤ s) : bsCall modified s k t r b sigma = some (s - k) := by
  cases modified with
  | false =>
    change bsCall1993 _ _ _ _ _ _ = _
    unfold bsCall1993
    dsimp only
    rw [hx, Option.map_some, if_pos hs]
  | true =>
    change bsCall2002 _ _ _ _ _ _ = _
    unfold bsCall2002
    dsimp only
    obtain ⟨_, _, x1, hx1, _⟩ := C76_boundary k (t - bsT1 t) r b sigma hk hsig h
    unfold bsBoundary1
    rw [hx, hx1, Option.bind_some, Option.map_some, if_pos hs]

/-- C76: put-call symmetry. For a positive rate a put is the call with spot and strike, and rate and dividend rate exchanged. -/
theorem C76_put_call_symmetry (modified : Bool) (volatility strike expiry spot rate dividend : ℝ) (hr : 0 < rate) :
    bjerksundStensland { volatility := volatility, strike := strike, expiry := expiry, spot := some spot, discountRate := some rate, dividendRate := some dividend, isCall := some false } modified =
    bjerksundStensland { volatility := volatility, strike := spot, expiry := expiry, spot := some strike, discountRate := some dividend, dividendRate := some rate, isCall := some true } modified := by
  unfold bjerksundStensland
  change (if rate - dividend ≥ rate ∧ false = true then _ else if false = true then _ else
    (Except.ok (if expiry > 0 then bsCall modified strike spot expiry (rate - (rate - dividend)) (-(rate - dividend)) volatility
      else some (max (strike - spot) 0))) : Except String (Option ℝ)) =
    (if dividend - rate ≥ dividend ∧ true = true then _ else if true = true then
    (Except.ok (if expiry > 0 then bsCall modified strike spot expiry dividend (dividend - rate) volatility
      else some (max (strike - spot) 0))) else _ : Except String (Option ℝ))
  rw [if_neg (by simp), if_neg (by simp), if_neg (c := dividend - rate ≥ dividend ∧ true = true) (by intro h; linarith [h.1]), if_pos (c := true = true) rfl]
  have e1 : rate - (rate - dividend) = dividend := by ring
  have e2 : -(rate - dividend) = dividend - rate := by ring
  rw [e1, e2]

/-! ## Where the approximation fails -/

/-- Deviation: with the rate zero, which is the default, no put with time to expiry has a price (not a number), whatever the
dividend rate, if it is not negative. -/
theorem C76_put_zero_rate_nan (a : BsArgs) (modified : Bool) (h : ValidArgs a) (hs : 0 < a.volatility) (ht : 0 < a.expiry)
    (hput : a.isCall = some false) (hr : amRate a = 0) (hd : 0 ≤ a.dividendRate.getD 0) :
    bjerksundStensland a modified = .ok none := by
  unfold bjerksundStensland
  rw [bsCheck_ok a h]
  change (if amRate a - a.dividendRate.getD 0 ≥ amRate a ∧ a.isCall.getD true = true then _ else _ : Except String (Option ℝ)) = _
  rw [hput]
  change (if amRate a - a.dividendRate.getD 0 ≥ amRate a ∧ false = true then _ else if false = true then _ else
    (Except.ok (if a.expiry > 0 then bsCall modified a.strike (amSpot a) a.expiry (amRate a - (amRate a - a.dividendRate.getD 0))
      (-(amRate a - a.dividendRate.getD 0)) a.volatility else some (max (a.strike - amSpot a) 0))) : Except String (Option ℝ)) = _
  rw [if_neg (by simp), if_neg (by simp), if_pos ht, hr]
  generalize a.dividendRate.getD 0 = d at hd
  have e1 : (0 : ℝ) - (0 - d) = d := by ring
  have e2 : -((0 : ℝ) - d) = d := by ring
  rw [e1, e2]
  have hbeta : bsBeta d d a.volatility = 1 := by
    unfold bsBeta
    have h2 : 0 < a.volatility ^ 2 := by positivity
    have h3 : 0 ≤ d / a.volatility ^ 2 := by positivity
    have e : (d / a.volatility ^ 2 - 0.5) ^ 2 + 2 * d / a.volatility ^ 2 = (d / a.volatility ^ 2 + 0.5) ^ 2 := by ring
    rw [e, Real.sqrt_sq (by positivity)]
    ring
  have hn : ∀ k t, bsBoundary k t d d a.volatility (bsBeta d d a.volatility) = none := by
    intro k t
    unfold bsBoundary
    rw [if_pos (Or.inr hbeta)]
  cases modified with
  | false =>
    change Except.ok (bsCall1993 _ _ _ _ _ _) = _
    unfold bsCall1993
    dsimp only
    rw [hn]
    rfl
  | true =>
    change Except.ok (bsCall2002 _ _ _ _ _ _) = _
    unfold bsCall2002 bsBoundary1
    dsimp only
    rw [hn]
    rfl

/-- Deviation: for a negative cost of carry and a long time to expiry, `b t + 2 sigma √t < 0`, the boundary is below the strike, and
between them the price of the call is negative. -/
theorem C76_negative_prices (modified : Bool) (k t r b sigma : ℝ) (hk : 0 < k) (hsig : 0 < sigma) (h : b < r) (hb : b ≤ 0)
    (hbt : b * t + 2 * sigma * Real.sqrt t < 0) :
    ∃ x, x < k ∧ ∀ s, x ≤ s → s < k → ∃ p, bsCall modified s k t r b sigma = some p ∧ p < 0 := by
  obtain ⟨_, _, x, hx, _, hiff⟩ := C76_boundary k t r b sigma hk hsig h
  have hb0 : bsB0 k r b = k := by
    unfold bsB0
    refine max_eq_left ?_
    have : r / (r - b) ≤ 1 := by rw [div_le_one (by linarith)]; linarith
    nlinarith
  rw [hb0] at hiff
  refine ⟨x, ?_, ?_⟩
  · by_contra hc
    have := hiff.1 (not_lt.1 hc)
    linarith
  · intro s hs hsk
    exact ⟨s - k, C76_exercise modified s k t r b sigma x hk hsig h hx hs, by linarith⟩

/-- Deviation: the price of a put with strike 95 on a spot of 100 with volatility 10% and rate 10%, expiring in five years, is -5. -/
theorem C76_negative_put (modified : Bool) :
    bjerksundStensland { volatility := 1 / 10, strike := 95, expiry := 5, spot := some 100, discountRate := some (1 / 10), isCall := some false } modified =
      .ok (some (-5)) := by
  unfold bjerksundStensland
  change (if (1 / 10 : ℝ) - 0 ≥ 1 / 10 ∧ false = true then _ else if false = true then _ else
    (Except.ok (if (5 : ℝ) > 0 then bsCall modified 95 100 5 (1 / 10 - (1 / 10 - 0)) (-(1 / 10 - 0)) (1 / 10)
      else some (max (95 - 100) 0))) : Except String (Option ℝ)) = _
  rw [if_neg (by simp), if_neg (by simp), if_pos (by norm_num)]
  have e1 : (1 : ℝ) / 10 - (1 / 10 - 0) = 0 := by norm_num
  have e2 : -((1 : ℝ) / 10 - 0) = -(1 / 10) := by norm_num
  rw [e1, e2]
  obtain ⟨_, _, x, hx, _, _⟩ := C76_boundary 100 5 0 (-(1 / 10)) (1 / 10) (by norm_num) (by norm_num) (by norm_num)
  have hbeta : bsBeta 0 (-(1 / 10)) (1 / 10) = 21 := by
    unfold bsBeta
    have : ((-(1 / 10) : ℝ) / (1 / 10) ^ 2 - 0.5) ^ 2 + 2 * 0 / (1 / 10) ^ 2 = 10.5 ^ 2 := by norm_num
    rw [this, Real.sqrt_sq (by norm_num)]
    norm_num
  have hle : x ≤ 95 := by
    have hx' := hx
    unfold bsBoundary at hx'
    split at hx'
    · cases hx'
    · dsimp only at hx'
      have hb0 : bsB0 100 0 (-(1 / 10)) = 100 := by unfold bsB0; norm_num
      have hbi : bsBInf 100 21 = 105 := by unfold bsBInf; norm_num
      rw [hbeta, hb0, hbi, Option.some.injEq] at hx'
      have h5 : Real.sqrt 5 ≤ 9 / 4 := by
        rw [Real.sqrt_le_left (by norm_num)]
        norm_num
      have hexp := Real.add_one_le_exp (-(-(1 / 10) * 5 + 2 * (1 / 10) * Real.sqrt 5) * (100 ^ 2 / ((105 - 100) * 100)))
      norm_num at hexp hx'
      linarith
  rw [C76_exercise modified 95 100 5 0 (-(1 / 10)) (1 / 10) x (by norm_num) (by norm_num) (by norm_num) hx hle]
  norm_num

/-- A put with strike 100 at the default rate has no price. -/
example : bjerksundStensland { volatility := 1 / 5, strike := 100, expiry := 1, spot := some 90, isCall := some false } = .ok none :=
  C76_put_zero_rate_nan _ _ ⟨by simp, by simp, by norm_num, by norm_num, by simp⟩ (by norm_num) (by norm_num) rfl rfl (by simp)

/-- The exponent for rate 4%, cost of carry -2% and volatility 20%: `beta = 1 + √3`, and the boundary of the perpetual option. -/
example : bsBeta (4 / 100) (-2 / 100) (2 / 10) = 1 + Real.sqrt 3 ∧ bsB0 100 (4 / 100) (-2 / 100) = 100 ∧
    100 < bsBInf 100 (bsBeta (4 / 100) (-2 / 100) (2 / 10)) := by
  refine ⟨?_, ?_, ?_⟩
  · unfold bsBeta; norm_num
  · unfold bsB0; norm_num
  · have := (C76_boundary 100 1 (4 / 100) (-2 / 100) (2 / 10) (by norm_num) (by norm_num) (by norm_num)).2.1
    refine lt_of_le_of_lt ?_ this
    exact le_max_left _ _

end Props
