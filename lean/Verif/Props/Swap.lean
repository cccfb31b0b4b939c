import Verif.Model.Swap
import Mathlib.Tactic.Ring
import Mathlib.Tactic.LinearCombination
import Mathlib.Tactic.FieldSimp
import Mathlib.Tactic.NormNum

/-! # C37 Swaps -/

namespace Spec

/-- Simple forward rate over a period, from the discount factors at its start and end. -/
noncomputable def simpleForward (startDf endDf daycount : ℝ) : ℝ := (startDf / endDf - 1) / daycount

/-- Discount factor of a continuously compounded curve. -/
noncomputable def curveDf (rate : ℝ → ℝ) (t : ℝ) : ℝ := Real.exp (-(rate t * t))

/-- Consecutive periods: each one starts when the one before ends. -/
def Consecutive : List ℝ → List ℝ → Prop
  | _ :: s' :: ss, e :: es => s' = e ∧ Consecutive (s' :: ss) es
  | [_], [_] => True
  | _, _ => False

end Spec

namespace Lemmas
open Model Spec

section
variable {K : Type} [Field K]

theorem presentValue_nil (d : List K) : presentValue [] d = 0 := by simp [presentValue]

theorem presentValue_cons (c d : K) (cs ds : List K) : presentValue (c :: cs) (d :: ds) = c * d + presentValue cs ds := by
  simp [presentValue]

theorem presentValue_smul (a : K) (cs ds : List K) : presentValue (cs.map (a * ·)) ds = a * presentValue cs ds := by
  induction cs generalizing ds with
  | nil => simp [presentValue]
  | cons c cs ih =>
    rcases ds with _ | ⟨d, ds⟩
    · simp [presentValue]
    · rw [List.map_cons, presentValue_cons, presentValue_cons, ih]; ring

theorem presentValue_add (cs cs' ds : List K) (h : cs.length = cs'.length) :
    presentValue (List.zipWith (· + ·) cs cs') ds = presentValue cs ds + presentValue cs' ds := by
  induction cs generalizing cs' ds with
  | nil => rcases cs' with _ | _ <;> simp_all [presentValue]
  | cons c cs ih =>
    rcases cs' with _ | ⟨c', cs'⟩
    · simp at h
    · rcases ds with _ | ⟨d, ds⟩
      · simp [presentValue]
      · rw [List.zipWith_cons_cons, presentValue_cons, presentValue_cons, presentValue_cons, ih _ _ (by simpa using h)]; ring

theorem rateLeg_scale (a n : K) (ds cs : List K) :
    List.zipWith (fun d c => rateLegCashflow (a * n) d c) ds cs =
      (List.zipWith (fun d c => rateLegCashflow n d c) ds cs).map (a * ·) := by
  rw [List.map_zipWith]
  congr 1
  funext d c
  simp [rateLegCashflow]; ring

end

theorem floating_leg (N : ℝ) (rate : ℝ → ℝ) (starts ends dcs : List ℝ) (hl : starts.length = ends.length)
    (hd : dcs.length = ends.length) (h0 : ∀ d ∈ dcs, d ≠ 0) :
    presentValue (List.zipWith (fun d c => rateLegCashflow N d c) dcs
        (List.zipWith (fun p d => simpleForward (curveDf rate p.1) (curveDf rate p.2) d) (List.zip starts ends) dcs))
      (ends.map (curveDf rate)) =
      N * (List.zipWith (fun a b => a - b) (starts.map (curveDf rate)) (ends.map (curveDf rate))).sum := by
  induction starts generalizing ends dcs with
  | nil => rcases dcs with _ | _ <;> simp [presentValue]
  | cons s starts ih =>
    rcases ends with _ | ⟨e, ends⟩
    · simp at hl
    · rcases dcs with _ | ⟨d, dcs⟩
      · simp at hd
      · have := ih ends dcs (by simpa using hl) (by simpa using hd) (fun x hx => h0 x (List.mem_cons_of_mem _ hx))
        simp only [List.zip_cons_cons, List.zipWith_cons_cons, List.map_cons, presentValue_cons, List.sum_cons, this]
        have hd0 := h0 d List.mem_cons_self
        have he : curveDf rate e ≠ 0 := (Real.exp_pos _).ne'
        unfold rateLegCashflow simpleForward
        field_simp

theorem fixed_leg (N c : ℝ) (dcs dfs : List ℝ) :
    presentValue (List.zipWith (fun d c => rateLegCashflow N d c) dcs (dcs.map fun _ => c)) dfs =
      N * c * (List.zipWith (fun a b => a * b) dfs dcs).sum := by
  induction dcs generalizing dfs with
  | nil => simp [presentValue]
  | cons d dcs ih =>
    rcases dfs with _ | ⟨f, dfs⟩
    · simp [presentValue]
    · simp only [List.map_cons, List.zipWith_cons_cons, presentValue_cons, List.sum_cons, ih]
      unfold rateLegCashflow
      ring

end Lemmas

namespace Props
open Model Lemmas Spec

section
variable {K : Type} [Field K]

/-- C37: exchanging the legs flips the sign, and a swap of equal legs is worth nothing. -/
theorem C37_exchange (p r pd rd : List K) : swapPrice r p rd pd = -swapPrice p r pd rd ∧ swapPrice p p pd pd = 0 := by
  simp [swapPrice]

/-- C37: exchanging the legs of an interest rate swap flips the sign. -/
theorem C37_ir_exchange (pc rc : List K) (pn rn : K) (pdc rdc pd rd : List K) :
    irSwapPrice rc pc rn pn rdc pdc rd pd = -irSwapPrice pc rc pn rn pdc rdc pd rd := by
  simp [irSwapPrice, swapPrice]

/-- C37: swap prices are additive in the cashflows. -/
theorem C37_additive (p p' r r' pd rd : List K) (hp : p.length = p'.length) (hr : r.length = r'.length) :
    swapPrice (List.zipWith (· + ·) p p') (List.zipWith (· + ·) r r') pd rd = swapPrice p r pd rd + swapPrice p' r' pd rd := by
  unfold swapPrice
  simp only
  rw [presentValue_add _ _ _ hp, presentValue_add _ _ _ hr]; ring

/-- C37: interest rate swap prices are homogeneous in the notionals. -/
theorem C37_homogeneous (a : K) (pc rc : List K) (pn rn : K) (pdc rdc pd rd : List K) :
    irSwapPrice pc rc (a * pn) (a * rn) pdc rdc pd rd = a * irSwapPrice pc rc pn rn pdc rdc pd rd := by
  unfold irSwapPrice swapPrice
  simp only [rateLeg_scale, presentValue_smul]
  ring

/-- C37: the receiver of the equity leg is the counterparty of its payer. -/
theorem C37_equity_exchange (cr f : List K) (s rn en : K) (dc rd ed div : List K) :
    equitySwapPrice cr f s rn en dc rd ed div (some false) = -equitySwapPrice cr f s rn en dc rd ed div (some true) ∧
    equitySwapPrice cr f s rn en dc rd ed div none = equitySwapPrice cr f s rn en dc rd ed div (some true) := by
  simp [equitySwapPrice]

/-- C37: without dividends the equity leg is homogeneous in the notional. Missing: dividends, see
`C37_equity_dividends_not_scaled`. -/
theorem C37_equity_homogeneous_partial (f : List K) (s n a : K) (div : List K) (h : ∀ d ∈ div, d = 0) :
    equityLegCashflows f s (a * n) div = (equityLegCashflows f s n div).map (a * ·) := by
  unfold equityLegCashflows
  simp only
  rw [List.map_zipWith]
  generalize List.zip (s :: f).dropLast ((s :: f).drop 1) = l
  induction l generalizing div with
  | nil => simp
  | cons p l ih =>
    rcases div with _ | ⟨d, div⟩
    · simp
    · rw [List.zipWith_cons_cons, List.zipWith_cons_cons, ih div (fun x hx => h x (List.mem_cons_of_mem _ hx)),
        h d List.mem_cons_self]
      congr 1
      ring

/-- C37 (deviation): a dividend is not multiplied with the notional, so a swap on twice the notional does not have twice the
cashflows. -/
theorem C37_equity_dividends_not_scaled (f s n a d : K) (hs : s ≠ 0) (hd : d ≠ 0) (ha : a ≠ 1) :
    equityLegCashflows [f] s (a * n) [d] ≠ (equityLegCashflows [f] s n [d]).map (a * ·) := by
  simp only [equityLegCashflows, List.dropLast_cons_of_ne_nil (List.cons_ne_nil _ _), List.dropLast_singleton,
    List.drop_succ_cons, List.drop_zero, List.zip_cons_cons, List.zip_nil_right, List.zipWith_cons_cons, List.zipWith_nil_right,
    List.map_cons, List.map_nil, ne_eq, List.cons.injEq, and_true]
  intro h
  have h2 : (a - 1) * d = 0 := by
    field_simp at h
    linear_combination -h
  rcases mul_eq_zero.mp h2 with h3 | h3
  · exact ha (sub_eq_zero.mp h3)
  · exact hd h3

/-- C37: without dividends and with unit notional, compounding the cashflows of the equity leg gives the total return. -/
theorem C37_equity_total_return (f : List K) (s : K) (hs : s ≠ 0) (hf : ∀ x ∈ f, x ≠ 0) :
    ((equityLegCashflows f s 1 (f.map fun _ => 0)).map (fun c => 1 + c)).prod = (s :: f).getLast (by simp) / s := by
  induction f generalizing s with
  | nil => simp [equityLegCashflows, hs]
  | cons a f ih =>
    have ha := hf a List.mem_cons_self
    have := ih a ha (fun x hx => hf x (List.mem_cons_of_mem _ hx))
    have e : equityLegCashflows (a :: f) s 1 ((a :: f).map fun _ => 0) =
        ((1 * (a - s) + 0) / s) :: equityLegCashflows f a 1 (f.map fun _ => 0) := by
      rcases f with _ | ⟨b, f⟩ <;> simp [equityLegCashflows]
    rw [e, List.map_cons, List.prod_cons, this, List.getLast_cons_cons]
    field_simp
    ring

end

/-- C37: the value of paying a fixed coupon and receiving the floating rate is the notional times the difference between par
rate and coupon times the annuity. In particular a swap at the par rate is worth nothing. -/
theorem C37_par (N c : ℝ) (rate : ℝ → ℝ) (starts ends floatDcs payments fixedDcs : List ℝ)
    (hl : starts.length = ends.length) (hd : floatDcs.length = ends.length) (h0 : ∀ d ∈ floatDcs, d ≠ 0)
    (ha : (parRateAndAnnuity starts ends payments fixedDcs rate).2 ≠ 0) :
    irSwapPrice (fixedDcs.map fun _ => c)
        (List.zipWith (fun p d => simpleForward (curveDf rate p.1) (curveDf rate p.2) d) (List.zip starts ends) floatDcs)
        N N fixedDcs floatDcs (payments.map (curveDf rate)) (ends.map (curveDf rate)) =
      N * ((parRateAndAnnuity starts ends payments fixedDcs rate).1 - c) *
        (parRateAndAnnuity starts ends payments fixedDcs rate).2 := by
  have hdf : (fun t => Real.exp (-rate t * t)) = curveDf rate := by funext t; simp [curveDf]
  unfold irSwapPrice swapPrice
  simp only
  rw [floating_leg N rate starts ends floatDcs hl hd h0, fixed_leg]
  unfold parRateAndAnnuity at *
  simp only [hdf] at *
  field_simp

/-- C37: the par rate makes the swap worthless. -/
theorem C37_par_zero (N : ℝ) (rate : ℝ → ℝ) (starts ends floatDcs payments fixedDcs : List ℝ)
    (hl : starts.length = ends.length) (hd : floatDcs.length = ends.length) (h0 : ∀ d ∈ floatDcs, d ≠ 0)
    (ha : (parRateAndAnnuity starts ends payments fixedDcs rate).2 ≠ 0) :
    irSwapPrice (fixedDcs.map fun _ => (parRateAndAnnuity starts ends payments fixedDcs rate).1)
        (List.zipWith (fun p d => simpleForward (curveDf rate p.1) (curveDf rate p.2) d) (List.zip starts ends) floatDcs)
        N N fixedDcs floatDcs (payments.map (curveDf rate)) (ends.map (curveDf rate)) = 0 := by
  rw [C37_par N _ rate starts ends floatDcs payments fixedDcs hl hd h0 ha]; ring

/-- C37: for consecutive periods the par rate times the annuity is the difference of the first and the last discount factor. -/
theorem C37_par_telescopes (rate : ℝ → ℝ) (s e : ℝ) (starts ends payments fixedDcs : List ℝ)
    (hc : Consecutive (s :: starts) (ends ++ [e]))
    (ha : (parRateAndAnnuity (s :: starts) (ends ++ [e]) payments fixedDcs rate).2 ≠ 0) :
    (parRateAndAnnuity (s :: starts) (ends ++ [e]) payments fixedDcs rate).1 *
      (parRateAndAnnuity (s :: starts) (ends ++ [e]) payments fixedDcs rate).2 = curveDf rate s - curveDf rate e := by
  have hdf : (fun t => Real.exp (-rate t * t)) = curveDf rate := by funext t; simp [curveDf]
  unfold parRateAndAnnuity at *
  simp only [hdf] at *
  rw [div_mul_cancel₀ _ ha]
  clear ha
  induction ends generalizing s starts with
  | nil =>
    rcases starts with _ | ⟨s', starts⟩
    · simp
    · simp [Consecutive] at hc
  | cons e' ends ih =>
    rcases starts with _ | ⟨s', starts⟩
    · rcases ends with _ | _ <;> simp [Consecutive] at hc
    · simp only [List.cons_append, Consecutive] at hc
      obtain ⟨rfl, hc⟩ := hc
      have := ih s' starts hc
      simp only [List.map_cons, List.cons_append, List.zipWith_cons_cons, List.sum_cons] at this ⊢
      rw [this]; ring

/-- The annuity is positive for positive day count fractions, and periods of a year are consecutive. -/
example : Consecutive [0, 1, 2] [1, 2, 3] ∧
    0 < (parRateAndAnnuity [0, 1, 2] [1, 2, 3] [1, 2, 3] [1, 1, 1] (fun _ => 1 / 20)).2 := by
  constructor
  · simp [Consecutive]
  · simp only [parRateAndAnnuity, List.map_cons, List.map_nil, List.zipWith_cons_cons, List.zipWith_nil_right, List.sum_cons,
      List.sum_nil]
    positivity

/-- Documented example: 1000.01 for a notional of 10000 and a dividend of 1. -/
example : equityLegCashflows ([110, 120, 140] : List Rat) 100 10000 [1, 1, 1] = [1000 + 1 / 100, 100001 / 110, 200001 / 120] := by
  decide +kernel

end Props
