import Verif.Model.ImpliedVolLib
import Verif.Props.ImpliedVolConvergence

/-! # C147 What the implied volatility function returns -/

namespace Spec
open Model

/-- A bound for the vega handed to the root finder. -/
noncomputable def vegaBound (a : IvArgs) : ℝ := max 1 (ivUnit a) * Real.sqrt a.expiry / ivDiscount a / ivUnit a

end Spec

namespace Lemmas
open Model Spec Set

variable {a : IvArgs}

theorem phi_le_one (x : ℝ) : phi x ≤ 1 := by
  rw [phi_eq]
  have h1 : (1 : ℝ) ≤ Real.sqrt (2 * Real.pi) := by
    rw [Real.one_le_sqrt]
    linarith [Real.pi_gt_three]
  have h2 : Real.exp (-x ^ 2 / 2) ≤ 1 := Real.exp_le_one_iff.mpr (by linarith [sq_nonneg x])
  calc (Real.sqrt (2 * Real.pi))⁻¹ * Real.exp (-x ^ 2 / 2) ≤ 1 * 1 :=
        mul_le_mul (inv_le_one_of_one_le₀ h1) h2 (Real.exp_pos _).le zero_le_one
    _ = 1 := by ring

theorem vegaOf_le (h : ValidIvArgs a) (s : ℝ) : vegaOf a s ≤ max 1 (ivUnit a) := by
  unfold vegaOf
  rcases hn : a.isNormal with _ | _
  · obtain ⟨hF, hK⟩ := h.positive hn
    simp only [Bool.false_eq_true, if_false]
    have hu : ivForwardPrice a ≤ ivUnit a := by
      unfold ivUnit
      rw [if_neg (lt_max_of_lt_left (abs_pos.mpr hK.ne')).ne']
      exact (le_abs_self _).trans (le_max_right _ _)
    refine le_trans ?_ (hu.trans (le_max_right _ _))
    exact mul_le_of_le_one_right hF.le (phi_le_one _)
  · simp only [if_true]
    exact (phi_le_one _).trans (le_max_left _ _)

theorem ivF_strictMonoOn (h : ValidIvArgs a) : StrictMonoOn (ivF a) (Ioi 0) := by
  intro u hu v hv huv
  have hT := sqrtT_pos h
  unfold ivF
  have := callOf_strictMonoOn h (mul_pos hu hT) (mul_pos hv hT) (mul_lt_mul_of_pos_right huv hT)
  exact div_lt_div_of_pos_right (by linarith) ivUnit_pos

end Lemmas

namespace Props
open Model Spec Lemmas Set

/-- C147: if the search reports convergence, the result is as close to the implied volatility as one likes for small
tolerances, from whatever start. -/
theorem C147_accuracy (a : IvArgs) (h : ValidIvArgs a) (hb : WithinBounds a) (v : ℝ) (hv : 0 < v)
    (hp : optionPrice (withVolatility a v) = .ok a.price) (ε : ℝ) (hε : 0 < ε) :
    ∃ tol0 : ℝ, 0 < tol0 ∧ ∀ (rel tol : ℝ) (N : ℕ) (start : Option ℝ) cells c,
      0 ≤ rel → rel * vegaBound a ≤ 1 / 2 → tol ≤ tol0 → impliedVolNewton a start rel tol N = .ok cells →
      cells[0]? = some c → c.converged = true → ∃ y, c.parameter = some y ∧ 0 < y ∧ |y - v| < ε := by
  have hT := sqrtT_pos h
  have hD := ivDiscount_pos h
  have hu := ivUnit_pos (a := a)
  have hM : 0 < vegaBound a :=
    div_pos (div_pos (mul_pos (lt_max_of_lt_left one_pos) hT) hD) hu
  have hprice : 0 < a.price := by
    have hpay : 0 ≤ vanillaPayoff (a.isCall.getD true) a.strike (ivForwardPrice a) := by
      unfold vanillaPayoff
      split <;> exact le_max_right _ _
    exact (mul_nonneg hD.le hpay).trans_lt hb.1
  have hroot := ivF_root h hv hp
  have hmono := ivF_strictMonoOn h
  set w := max (v - ε) (v / 2) with hw
  have hw0 : 0 < w := lt_max_of_lt_right (by linarith)
  have hwv : w < v := max_lt (by linarith) (by linarith)
  have h1 : ivF a w < 0 := by rw [← hroot]; exact hmono hw0 hv hwv
  have h2 : 0 < ivF a (v + ε) := by
    rw [← hroot]; exact hmono hv (show 0 < v + ε by linarith) (by linarith)
  have h3 : 0 < a.price / ivDiscount a / ivUnit a := div_pos (div_pos hprice hD) hu
  set m := min (min (-ivF a w) (ivF a (v + ε))) (a.price / ivDiscount a / ivUnit a) with hm
  have hm0 : 0 < m := lt_min (lt_min (by linarith) h2) h3
  refine ⟨m / (4 * vegaBound a), by positivity, ?_⟩
  intro rel tol N start cells c hrel hrelM htol hok hc hconv
  obtain ⟨s, hs⟩ : ∃ s, cells = newtonImpliedVol rel tol N [a] [some s] := by
    unfold impliedVolNewton at hok
    rw [show ivCheck a = .ok () from by
      unfold ivCheck
      rw [if_neg]
      have := h.one
      revert this
      rcases a.spot with _ | _ <;> rcases a.forward with _ | _ <;> simp] at hok
    rcases start with _ | s
    · rcases hn : a.isNormal with _ | _
      · rw [hn] at hok
        rcases hx : approxImpliedVol a with e | x
        · rw [hx] at hok; cases hok
        · rw [hx] at hok; exact ⟨x, (Except.ok.inj hok).symm⟩
      · rw [hn] at hok; exact ⟨_, (Except.ok.inj hok).symm⟩
    · exact ⟨s, (Except.ok.inj hok).symm⟩
  obtain ⟨c', hc1, _, hc3⟩ := C29_converged rel tol N ([a].map ivObjectiveAndVega) [some s] rfl 0
    (ivObjectiveAndVega a) (some s) rfl rfl
  have hcc : c' = c := by
    rw [hs] at hc
    unfold newtonImpliedVol at hc
    rw [hc1] at hc; exact Option.some.inj hc
  subst hcc
  obtain ⟨_, j, y, _, hy, _, ⟨o, g, hog, hg0, hlt⟩, _⟩ := hc3 hconv
  have hy0 : y ≠ 0 := by
    rintro rfl
    rw [objective_zero h] at hog
    simp at hog
  rw [objective_eq h hy0, Prod.mk.injEq, Option.some.injEq, Option.some.injEq] at hog
  obtain ⟨ho, hg⟩ := hog
  have ho' : ivF a y = o := ho
  have hgpos : 0 < g := by
    rw [← hg]
    exact div_pos (div_pos (mul_pos (vegaOf_pos h _) hT) hD) hu
  have hgM : g ≤ vegaBound a := by
    rw [← hg]
    unfold vegaBound
    exact div_le_div_of_nonneg_right (div_le_div_of_nonneg_right
      (mul_le_mul_of_nonneg_right (vegaOf_le h _) hT.le) hD.le) hu.le
  have hsmall : |o| < m := by
    rw [abs_div, abs_of_pos hgpos, div_lt_iff₀ hgpos] at hlt
    have hA := abs_nonneg o
    have e1 : rel * |o| * g ≤ |o| / 2 := by
      have : rel * g ≤ 1 / 2 := (mul_le_mul_of_nonneg_left hgM hrel).trans hrelM
      nlinarith
    have e2 : tol * g ≤ m / 4 := by
      calc tol * g ≤ m / (4 * vegaBound a) * g := mul_le_mul_of_nonneg_right htol hgpos.le
        _ ≤ m / (4 * vegaBound a) * vegaBound a := mul_le_mul_of_nonneg_left hgM (by positivity)
        _ = m / 4 := by field_simp
    nlinarith
  have hypos : 0 < y := by
    rcases lt_or_gt_of_ne hy0 with hneg | hpos
    · have hn := callOf_parity_neg h (mul_neg_of_neg_of_pos hneg hT)
      have : o ≤ -(a.price / ivDiscount a / ivUnit a) := by
        rw [← ho', ← neg_div]
        unfold ivF
        exact div_le_div_of_nonneg_right (by linarith) hu.le
      have h5 : m ≤ a.price / ivDiscount a / ivUnit a := min_le_right _ _
      have h6 := neg_abs_le o
      linarith
    · exact hpos
  refine ⟨y, hy, hypos, ?_⟩
  obtain ⟨h5, h6⟩ := abs_lt.mp hsmall
  have h7 : m ≤ -ivF a w := (min_le_left _ _).trans (min_le_left _ _)
  have h8 : m ≤ ivF a (v + ε) := (min_le_left _ _).trans (min_le_right _ _)
  have hlow : w < y := (hmono.lt_iff_lt hw0 hypos).1 (by rw [ho']; linarith)
  have hup : y < v + ε := (hmono.lt_iff_lt hypos (show 0 < v + ε by linarith)).1 (by rw [ho']; linarith)
  have : v - ε ≤ w := le_max_left _ _
  rw [abs_lt]
  constructor <;> linarith

/-- C147: the choice of the method. The fast approximation refuses the normal model and otherwise returns its value; Newton's
method is the one of C42 and C146 without its flags. -/
theorem C147_methods (a : IvArgs) (polya : ℝ) (start : Option ℝ) (rel tol : ℝ) (N : Nat) :
    (a.isNormal = true → ∀ validate, ∃ e, impliedVol a .fastApprox validate polya start rel tol N = .error e) ∧
    (a.isNormal = false →
      impliedVol a .fastApprox false polya start rel tol N = (approxImpliedVol a polya).map (fun v => some v)) ∧
    (impliedVol a .newton false polya start rel tol N =
      (impliedVolNewton a start rel tol N).map (fun cells => (cells[0]?).bind (fun c => c.parameter))) ∧
    (∀ method v, impliedVol a method true polya start rel tol N = .ok v →
      impliedVol a method false polya start rel tol N = .ok v) := by
  have happ : ∀ p, approxImpliedVolChecked a p false = approxImpliedVol a p := by
    intro p
    unfold approxImpliedVolChecked approxImpliedVol
    cases h : ivCheck a with
    | error e => rfl
    | ok u => rfl
  have htrue : ∀ p v, approxImpliedVolChecked a p true = .ok v → approxImpliedVolChecked a p false = .ok v := by
    intro p v hv
    rw [happ]
    unfold approxImpliedVolChecked at hv
    cases h : ivCheck a with
    | error e => rw [h] at hv; cases hv
    | ok u =>
      rw [h, if_pos rfl] at hv
      cases hx : ivAssertions a.price (ivForward a) a.strike a.expiry (ivDiscountFactor a) a.isCall with
      | error e => rw [hx] at hv; cases hv
      | ok u' => rw [hx] at hv; exact hv
  refine ⟨fun hn validate => ?_, fun hn => ?_, ?_, ?_⟩
  · unfold impliedVol; rw [hn]; exact ⟨_, rfl⟩
  · unfold impliedVol; rw [hn]; dsimp only; rw [happ]
  · unfold impliedVol
    dsimp only
    congr 1
    unfold impliedVolNewtonChecked impliedVolNewton
    simp only [happ]
    rcases start with _ | s <;> rfl
  · intro method v hv
    rcases method with _ | _
    · unfold impliedVol at hv ⊢
      rcases hn : a.isNormal with _ | _
      · rw [hn] at hv
        dsimp only at hv ⊢
        rcases hx : approxImpliedVolChecked a polya true with e | x
        · rw [hx] at hv; cases hv
        · rw [hx] at hv; rw [htrue _ _ hx]; exact hv
      · rw [hn] at hv; cases hv
    · unfold impliedVol at hv ⊢
      dsimp only at hv ⊢
      unfold impliedVolNewtonChecked at hv ⊢
      cases h : ivCheck a with
      | error e => rw [h] at hv; cases hv
      | ok u =>
        rw [h] at hv
        rcases start with _ | s
        · rcases hn : a.isNormal with _ | _
          · rw [hn] at hv
            rcases hx : approxImpliedVolChecked a (2 / Real.pi) true with e | x
            · rw [hx] at hv; cases hv
            · rw [hx] at hv; rw [htrue _ _ hx]; exact hv
          · rw [hn] at hv; exact hv
        · exact hv

/-- C147: in the normal model the function returns the implied volatility up to any error, with small tolerance and enough
iterations, for every price that has one. -/
theorem C147_normal (a : IvArgs) (h : ValidIvArgs a) (hn : a.isNormal = true) (hD : ivDiscount a ≤ 1)
    (hb : WithinBounds a) (v : ℝ) (hv : 0 < v) (hp : optionPrice (withVolatility a v) = .ok a.price)
    (start : Option ℝ) (hs : ∀ v0, start = some v0 → 0 < v0) (ε : ℝ) (hε : 0 < ε) :
    ∃ tol0 : ℝ, 0 < tol0 ∧ ∀ polya rel tol : ℝ, 0 ≤ rel → rel * vegaBound a ≤ 1 / 2 → 0 < tol → tol ≤ tol0 →
      ∃ N0 : ℕ, ∀ N, N0 ≤ N → ∃ y, |y - v| < ε ∧ impliedVol a .newton false polya start rel tol N = .ok (some y) := by
  obtain ⟨tol0, h0, hacc⟩ := C147_accuracy a h hb v hv hp ε hε
  refine ⟨tol0, h0, fun polya rel tol hrel hrelM htol htol0 => ?_⟩
  have hkey : ∃ N0 : ℕ, ∀ N, N0 ≤ N → ∃ cells c, impliedVolNewton a start rel tol N = .ok cells ∧
      cells[0]? = some c ∧ c.converged = true := by
    rcases start with _ | v0
    · obtain ⟨_, h2, h3⟩ := C146_default a h hn hD hb
      obtain ⟨N0, hN⟩ := (h2 v hv hp).reported rel tol hrel htol
      refine ⟨N0, fun N hle => ?_⟩
      obtain ⟨cells, c, y, h4, h5, h6, _⟩ := hN N hle
      exact ⟨cells, c, by rw [h3]; exact h4, h5, h6⟩
    · obtain ⟨N0, hN⟩ := (C146_normal a h hn hD v hv hp v0 (hs v0 rfl)).reported rel tol hrel htol
      refine ⟨N0, fun N hle => ?_⟩
      obtain ⟨cells, c, y, h4, h5, h6, _⟩ := hN N hle
      exact ⟨cells, c, h4, h5, h6⟩
  obtain ⟨N0, hN⟩ := hkey
  refine ⟨N0, fun N hle => ?_⟩
  obtain ⟨cells, c, h4, h5, h6⟩ := hN N hle
  obtain ⟨y, hy, _, hclose⟩ := hacc rel tol N start cells c hrel hrelM htol0 h4 h5 h6
  refine ⟨y, hclose, ?_⟩
  rw [(C147_methods a polya start rel tol N).2.2.1, h4]
  show Except.ok ((cells[0]?).bind _) = _
  rw [h5, Option.bind_some, hy]

/-- A Bachelier put with forward 1, strike 2, one year and price 5: the error is below a thousandth from the default start. -/
example : ∃ v tol0 : ℝ, 0 < v ∧ 0 < tol0 ∧ ∃ N0 : ℕ, ∀ N, N0 ≤ N → ∃ y, |y - v| < 1 / 1000 ∧
    impliedVol { price := 5, strike := 2, expiry := 1, forward := some 1, isCall := some false, isNormal := true } .newton
      false 1 none 0 tol0 N = .ok (some y) := by
  have h : ValidIvArgs
      { price := 5, strike := 2, expiry := 1, forward := some 1, isCall := some false, isNormal := true } :=
    ⟨by simp, by norm_num, by simp, by simp⟩
  have hb : WithinBounds
      { price := 5, strike := 2, expiry := 1, forward := some 1, isCall := some false, isNormal := true } :=
    ⟨by norm_num [ivDiscount, discount, withVolatility, vanillaPayoff, ivForwardPrice, forward], by simp⟩
  obtain ⟨v, ⟨hv, hp⟩, _⟩ := (C42_exists_unique _ h).1 hb
  obtain ⟨tol0, h0, hN⟩ := C147_normal _ h rfl (by norm_num [ivDiscount, discount, withVolatility]) hb v hv hp none
    (by simp) (1 / 1000) (by norm_num)
  exact ⟨v, tol0, hv, h0, hN 1 0 tol0 le_rfl (by norm_num) h0 le_rfl⟩

end Props
