import Verif.Lemmas.DateTensor
import Verif.Model.RateCurve
import Verif.Props.Dates
import Verif.Props.LinearInterpolation

/-!
# Property theorems C70: the rate curve of the instruments
-/

namespace Props
open Model Model.Instruments Spec Lemmas

/-- The time in years of 365 days between two dates. -/
noncomputable def years (v d : YMD) : ℝ := ((d.number - v.number : Int) : ℝ) / 365

theorem time_eq (v d : YMD) : actual365Fixed ℝ (Lemmas.repr v) (Lemmas.repr d) = years v d := by
  simp [actual365Fixed, DateT.daysUntil, Lemmas.repr, years]

/-- C70: discount factors are positive, and one on the valuation date, whatever the interpolation. -/
theorem C70_positive (c : RateCurve) (t : DateT) : 0 < c.discountFactor t ∧ c.discountFactor c.valuation = 1 := by
  refine ⟨Real.exp_pos _, ?_⟩
  unfold RateCurve.discountFactor RateCurve.time
  have : actual365Fixed ℝ c.valuation c.valuation = 0 := by simp [actual365Fixed, DateT.daysUntil]
  rw [this, mul_zero, Real.exp_zero]

/-- The converted rates of the maturities `ds`. -/
theorem curve_nodes (vd : YMD) (ds : List YMD) (rates : List ℝ) (n : Nat) (hlen : rates.length = ds.length)
    (hord : ds.Pairwise (fun d e => d.number < e.number)) (i : Nat) (d : YMD) (r : ℝ) (hd : ds[i]? = some d)
    (hr : rates[i]? = some r) :
    (RateCurve.setup (ds.map Lemmas.repr) rates (Lemmas.repr vd) n).rate (Lemmas.repr d) = convertRate n (years vd d) r := by
  unfold RateCurve.setup RateCurve.rate RateCurve.time defaultInterpolator
  dsimp only
  rw [time_eq, List.map_map]
  have hm : ds.map (actual365Fixed ℝ (Lemmas.repr vd) ∘ Lemmas.repr) = ds.map (years vd) :=
    List.map_congr_left (fun d _ => time_eq vd d)
  rw [hm]
  apply C21_knot _ _ _ _ i
  · rw [List.pairwise_map]
    refine hord.imp ?_
    intro a b h
    unfold years
    have : ((a.number - vd.number : Int) : ℝ) < ((b.number - vd.number : Int) : ℝ) := by exact_mod_cast (by omega)
    linarith
  · simp [hlen]
  · simp [hd]
  · rw [List.getElem?_zipWith, List.getElem?_map, hd, hr]
    rfl

/-- C70: the curve of continuously compounded rates discounts to every maturity with the rate given for it. -/
theorem C70_nodes (vd : YMD) (ds : List YMD) (rates : List ℝ) (hlen : rates.length = ds.length)
    (hord : ds.Pairwise (fun d e => d.number < e.number)) (i : Nat) (t : DateT) (d : YMD) (r : ℝ) (ht : Represents t d)
    (hd : ds[i]? = some d) (hr : rates[i]? = some r) :
    (RateCurve.setup (ds.map Lemmas.repr) rates (Lemmas.repr vd)).discountFactor t = Real.exp (-(r * years vd d)) := by
  obtain ⟨_, rfl⟩ := (represents_iff _ _).1 ht
  unfold RateCurve.discountFactor
  rw [curve_nodes vd ds rates 0 hlen hord i d r hd hr]
  unfold RateCurve.time RateCurve.setup
  dsimp only
  rw [time_eq, convertRate, if_neg (lt_irrefl _), neg_mul]

/-- C70: a flat curve of continuously compounded rates has the same rate for all dates. -/
theorem C70_flat (v t : DateT) (maturities : List DateT) (r : ℝ) (hne : maturities ≠ [])
    (hord : maturities.Pairwise (fun d e => d.ordinal ≤ e.ordinal)) :
    (RateCurve.setup maturities (maturities.map (fun _ => r)) v).rate t = r ∧
      (RateCurve.setup maturities (maturities.map (fun _ => r)) v).discountFactor t =
        Real.exp (-(r * (((t.ordinal - v.ordinal : Int) : ℝ) / 365))) := by
  have h : (RateCurve.setup maturities (maturities.map (fun _ => r)) v).rate t = r := by
    unfold RateCurve.setup RateCurve.rate RateCurve.time defaultInterpolator
    dsimp only
    obtain ⟨a, l, rfl⟩ := List.exists_cons_of_ne_nil hne
    have e : List.zipWith (convertRate 0) ((a :: l).map (actual365Fixed ℝ v)) ((a :: l).map (fun _ => r)) =
        ((a :: l).map (actual365Fixed ℝ v)).map (fun t => 0 * t + r) := by
      rw [List.zipWith_map, List.zipWith_self, List.map_map]
      apply List.map_congr_left
      intro x _
      simp [convertRate]
    rw [e, C21_affine _ (actual365Fixed ℝ v a) (((a :: l).map (actual365Fixed ℝ v)).getLast (by simp)) 0 r _ 0 0 ?_ (by simp)
      (List.getLast?_eq_some_getLast (by simp)) (fun _ => rfl) (fun _ => rfl)]
    · ring
    · rw [List.pairwise_map]
      refine hord.imp ?_
      intro x y h
      unfold actual365Fixed DateT.daysUntil
      have : ((x.ordinal - v.ordinal : Int) : ℝ) ≤ ((y.ordinal - v.ordinal : Int) : ℝ) := by exact_mod_cast (by omega)
      linarith
  refine ⟨h, ?_⟩
  unfold RateCurve.discountFactor
  rw [h, neg_mul]
  rfl

/-- C70: the forward rate is the rate for which the discount factor of the start is that of the maturity with simple interest. -/
theorem C70_forward (c : RateCurve) (start maturity : DateT) (daycount : Option ℝ) (τ : ℝ)
    (hτ : τ = daycount.getD (((maturity.ordinal - start.ordinal : Int) : ℝ) / 365)) (h0 : τ ≠ 0) :
    c.discountFactor start = c.discountFactor maturity * (1 + c.forward start maturity daycount * τ) := by
  have hm : c.discountFactor maturity ≠ 0 := (C70_positive c maturity).1.ne'
  have e : c.forward start maturity daycount =
      (c.discountFactor start / c.discountFactor maturity - 1) / τ := by
    unfold RateCurve.forward forwardRate
    rw [hτ]
    rfl
  rw [e]
  field_simp
  ring

/-- C70: rolling over at the forward rates of consecutive periods is the discount factor of the whole. -/
theorem C70_rollover (c : RateCurve) (d : Nat → DateT) (τ : Nat → ℝ) (n : Nat) (hτ : ∀ i, i < n → τ i ≠ 0) :
    c.discountFactor (d 0) = c.discountFactor (d n) *
      ∏ i ∈ Finset.range n, (1 + c.forward (d i) (d (i + 1)) (some (τ i)) * τ i) := by
  induction n with
  | zero => simp
  | succ n ih =>
    rw [Finset.prod_range_succ, ih (fun i hi => hτ i (by omega)),
      C70_forward c (d n) (d (n + 1)) (some (τ n)) (τ n) rfl (hτ n (by omega))]
    ring

/-- C70: interpolated rates stay between the bounds of the rates supplied. -/
theorem C70_bounds (v t : DateT) (maturities : List DateT) (rates : List ℝ) (lo hi : ℝ) (hlen : rates.length = maturities.length)
    (hne : maturities ≠ []) (hord : maturities.Pairwise (fun d e => d.ordinal ≤ e.ordinal))
    (hb : ∀ r ∈ rates, lo ≤ r ∧ r ≤ hi) :
    lo ≤ (RateCurve.setup maturities rates v).rate t ∧ (RateCurve.setup maturities rates v).rate t ≤ hi := by
  unfold RateCurve.setup RateCurve.rate RateCurve.time defaultInterpolator
  dsimp only
  have e : List.zipWith (convertRate 0) (maturities.map (actual365Fixed ℝ v)) rates = rates := by
    apply List.ext_getElem
    · simp [hlen]
    · intro i h1 h2
      simp [convertRate]
  have hs : (maturities.map (actual365Fixed ℝ v)).Pairwise (· ≤ ·) := by
    rw [List.pairwise_map]
    refine hord.imp ?_
    intro x y h
    unfold actual365Fixed DateT.daysUntil
    have : ((x.ordinal - v.ordinal : Int) : ℝ) ≤ ((y.ordinal - v.ordinal : Int) : ℝ) := by exact_mod_cast (by omega)
    linarith
  rw [e]
  have hl : rates.length = (maturities.map (actual365Fixed ℝ v)).length := by simp [hlen]
  have hne' : maturities.map (actual365Fixed ℝ v) ≠ [] := by simpa using hne
  generalize maturities.map (actual365Fixed ℝ v) = xs at hs hl hne'
  obtain ⟨x0, xt, rfl⟩ := List.exists_cons_of_ne_nil hne'
  obtain ⟨y0, yt, rfl⟩ : ∃ y0 yt, rates = y0 :: yt := by
    cases rates with
    | nil => simp at hl
    | cons y0 yt => exact ⟨_, _, rfl⟩
  rcases C21_cases (actual365Fixed ℝ v t) x0 ((x0 :: xt).getLast (by simp)) (x0 :: xt) hs rfl
    (List.getLast?_eq_some_getLast (by simp)) with h | h | ⟨i, a, b, ha, hb', h1, h2⟩
  · rw [C21_left _ _ _ _ _ _ _ hs h, zero_mul, add_zero]
    exact hb y0 List.mem_cons_self
  · rw [C21_right _ _ ((y0 :: yt).getLast (by simp)) _ _ _ _ hs (List.getLast?_eq_some_getLast (by simp))
      (List.getLast?_eq_some_getLast (by simp)) h, zero_mul, add_zero]
    exact hb _ (List.getLast_mem (by simp))
  · have hi1 : i + 1 < (x0 :: xt).length := (List.getElem?_eq_some_iff.1 hb').1
    have hc : (y0 :: yt)[i]? = some ((y0 :: yt)[i]'(by omega)) := List.getElem?_eq_getElem _
    have hd : (y0 :: yt)[i + 1]? = some ((y0 :: yt)[i + 1]'(by omega)) := List.getElem?_eq_getElem _
    obtain ⟨q1, q2⟩ := C21_between _ a b _ _ (x0 :: xt) (y0 :: yt) 0 0 i hs ha hb' hc hd h1 h2
    have m1 := hb _ (List.mem_of_getElem? hc)
    have m2 := hb _ (List.mem_of_getElem? hd)
    exact ⟨le_trans (le_min m1.1 m2.1) q1, le_trans q2 (max_le m1.2 m2.2)⟩

/-! ## Periodic compounding -/

/-- The discount factor for the rate `r` compounded `n` times a year, for `t` years. -/
noncomputable def compounded (n : Nat) (r t : ℝ) : ℝ := (1 + r / n) ^ (-(n * t))

/-- What the conversion computes: the rate takes the place of the time in the exponent. -/
theorem compounded_node (vd : YMD) (ds : List YMD) (rates : List ℝ) (n : Nat) (hn : 0 < n) (hlen : rates.length = ds.length)
    (hord : ds.Pairwise (fun d e => d.number < e.number)) (i : Nat) (d : YMD) (r : ℝ)
    (hd : ds[i]? = some d) (hr : rates[i]? = some r) (ht : 0 < years vd d) (hr0 : 0 < 1 + r / n) :
    (RateCurve.setup (ds.map Lemmas.repr) rates (Lemmas.repr vd) n).discountFactor (Lemmas.repr d) = compounded n r r := by
  unfold RateCurve.discountFactor
  rw [curve_nodes vd ds rates n hlen hord i d r hd hr]
  unfold RateCurve.time RateCurve.setup
  dsimp only
  rw [time_eq, convertRate, if_pos hn, if_pos ht, compounded, Real.rpow_neg hr0.le, ← Real.exp_log (Real.rpow_pos_of_pos hr0 _),
    ← Real.exp_neg, Real.log_exp]
  congr 1
  field_simp

/-- C70: deviation for periodically compounded rates: the discount factor of a maturity is right only if the rate is zero or
happens to be equal to the time in years. -/
theorem C70_compounding_deviation (vd : YMD) (ds : List YMD) (rates : List ℝ) (n : Nat) (hn : 0 < n)
    (hlen : rates.length = ds.length) (hord : ds.Pairwise (fun d e => d.number < e.number)) (i : Nat) (t : DateT) (d : YMD) (r : ℝ)
    (hrep : Represents t d) (hd : ds[i]? = some d) (hr : rates[i]? = some r) (ht : 0 < years vd d) (hr0 : 0 < 1 + r / n) :
    (RateCurve.setup (ds.map Lemmas.repr) rates (Lemmas.repr vd) n).discountFactor t = compounded n r r ∧
      ((RateCurve.setup (ds.map Lemmas.repr) rates (Lemmas.repr vd) n).discountFactor t = compounded n r (years vd d) ↔
        r = 0 ∨ r = years vd d) := by
  obtain ⟨_, rfl⟩ := (represents_iff _ _).1 hrep
  have h := compounded_node vd ds rates n hn hlen hord i d r hd hr ht hr0
  refine ⟨h, ?_⟩
  rw [h]
  unfold compounded
  have hn' : (0 : ℝ) < n := by exact_mod_cast hn
  constructor
  · intro e
    have e' := congrArg Real.log e
    rw [Real.log_rpow hr0, Real.log_rpow hr0] at e'
    have hz : (years vd d - r) * Real.log (1 + r / n) = 0 := by
      have : (n : ℝ) * ((years vd d - r) * Real.log (1 + r / n)) = 0 := by linarith
      exact (mul_eq_zero.1 this).resolve_left hn'.ne'
    rcases mul_eq_zero.1 hz with hz | hz
    · right; linarith
    · left
      rcases Real.log_eq_zero.1 hz with h0 | h0 | h0
      · exact absurd h0 hr0.ne'
      · have : r / n = 0 := by linarith
        exact (div_eq_zero_iff.1 this).resolve_right hn'.ne'
      · linarith
  · rintro (rfl | e)
    · simp
    · rw [← e]

/-! ## A curve from a discounting function -/

/-- C70: the curve made from a discounting function discounts with it, and its forward rates are consistent with it. -/
theorem C70_from_discounts (pseudo : DateT) (D : DateT → ℝ) (start maturity : DateT) (τ : ℝ) (hτ : τ ≠ 0) (hD : D maturity ≠ 0) :
    (curveFromDiscounts pseudo D).discountFactor start = D start ∧
      D start = D maturity * (1 + (curveFromDiscounts pseudo D).forward start maturity (some τ) * τ) := by
  refine ⟨rfl, ?_⟩
  show D start = D maturity * (1 + (D start / D maturity - 1) / τ * τ)
  field_simp
  ring

/-- Deviation: the rates of the curve made from a discounting function are all zero. -/
theorem C70_from_discounts_rate_deviation (pseudo : DateT) (D : DateT → ℝ) (t : DateT) :
    (curveFromDiscounts pseudo D).rate t = 0 :=
  (C70_flat pseudo t [pseudo] 0 (by simp) (by simp)).1

/-! ## Examples -/

/-- A curve with two maturities. -/
noncomputable def exCurve (compounding : Nat) : RateCurve :=
  RateCurve.setup [Lemmas.repr ⟨2021, 1, 1⟩, Lemmas.repr ⟨2022, 1, 1⟩] [2 / 100, 3 / 100] (Lemmas.repr ⟨2020, 1, 1⟩) compounding

example : (exCurve 0).discountFactor (Lemmas.repr ⟨2022, 1, 1⟩) = Real.exp (-(3 / 100 * (731 / 365))) := by
  have h := C70_nodes ⟨2020, 1, 1⟩ [⟨2021, 1, 1⟩, ⟨2022, 1, 1⟩] [2 / 100, 3 / 100] rfl (by decide) 1 (Lemmas.repr ⟨2022, 1, 1⟩)
    ⟨2022, 1, 1⟩ (3 / 100) ⟨by decide, rfl, rfl, rfl, by decide⟩ rfl rfl
  have hy : years ⟨2020, 1, 1⟩ ⟨2022, 1, 1⟩ = 731 / 365 := by
    have : YMD.number ⟨2022, 1, 1⟩ - YMD.number ⟨2020, 1, 1⟩ = 731 := by decide
    unfold years
    rw [this]
    norm_num
  rw [hy] at h
  exact h

/-- With annual compounding at three percent for two years the factor should be about `1 / 1.03 ^ 2`, and is `1 / 1.03 ^ 0.03`. -/
example : (exCurve 1).discountFactor (Lemmas.repr ⟨2022, 1, 1⟩) ≠ compounded 1 (3 / 100) (731 / 365) := by
  have hy : years ⟨2020, 1, 1⟩ ⟨2022, 1, 1⟩ = 731 / 365 := by
    have : YMD.number ⟨2022, 1, 1⟩ - YMD.number ⟨2020, 1, 1⟩ = 731 := by decide
    unfold years
    rw [this]
    norm_num
  have h := (C70_compounding_deviation ⟨2020, 1, 1⟩ [⟨2021, 1, 1⟩, ⟨2022, 1, 1⟩] [2 / 100, 3 / 100] 1 one_pos rfl (by decide) 1
    (Lemmas.repr ⟨2022, 1, 1⟩) ⟨2022, 1, 1⟩ (3 / 100) ⟨by decide, rfl, rfl, rfl, by decide⟩ rfl rfl (by rw [hy]; norm_num)
    (by norm_num)).2
  rw [hy] at h
  intro e
  rcases h.1 e with h | h <;> norm_num at h

end Props
