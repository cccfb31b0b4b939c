import Mathlib.Tactic.FieldSimp
import Mathlib.Tactic.NormNum
import Mathlib.Tactic.Linarith
import Mathlib.Data.String.Basic
import Verif.Model.PlatformMarket
import Verif.Props.ConstantForward
import Verif.Props.CubicSpline
import Verif.Props.Daycounts
import Verif.Props.LinearInterpolation
import Verif.Props.Pad
import Verif.Spec.Instruments

/-!
# Property theorems C88: market data of the pricing platform
-/

namespace Props
open Model Model.Platform Spec Lemmas

/-- What an interpolation method needs for its nodes to be reproduced: two nodes for the spline, no node at time zero for the
constant forward rates. -/
def MethodOk (m : Method) (n : Nat) (t : ℝ) : Prop :=
  (m = .CUBIC → 2 ≤ n) ∧ (m = .CONSTANT_FORWARD → t ≠ 0)

theorem cubic_two (x0 x1 y0 y1 : ℝ) : splineBuild [x0, x1] [y0, y1] none none none = some [0, 0] := by
  simp [splineBuild, splineCoeffs, splineNatural, tridiagonalSolve, selectWhere, thomas]

theorem method_knot (m : Method) (xs ys : List ℝ) (i : Nat) (x y : ℝ) (hs : xs.Pairwise (· < ·)) (hl : ys.length = xs.length)
    (hx : xs[i]? = some x) (hy : ys[i]? = some y) (hm : MethodOk m xs.length x) : m.interpolate x xs ys = some y := by
  cases m with
  | LINEAR => exact congrArg some (C21_knot xs ys 0 0 i x y hs hl hx hy)
  | CONSTANT_FORWARD => exact C36_knot xs ys i x y hs hl hx hy (hm.2 rfl)
  | CUBIC =>
    have h2 := hm.1 rfl
    simp only [Method.interpolate]
    by_cases h3 : 3 ≤ xs.length
    · obtain ⟨a, ha⟩ : ∃ a, xs.head? = some a := by
        rcases xs with _ | ⟨a, l⟩
        · simp at h2
        · exact ⟨a, rfl⟩
      obtain ⟨b, hb⟩ : ∃ b, xs.getLast? = some b := ⟨_, List.getLast?_eq_some_getLast (by intro h; simp [h] at h2)⟩
      obtain ⟨c, hc, _, s1, s2, hsp, _⟩ := C38_natural xs ys h3 hl hs a b ha hb false
      rw [hc]
      exact congrArg some (hsp.knots i x y hx hy)
    · obtain ⟨x0, x1, rfl⟩ := List.length_eq_two.1 (show xs.length = 2 by omega)
      obtain ⟨y0, y1, rfl⟩ := List.length_eq_two.1 hl
      rw [cubic_two]
      obtain ⟨s1, s2, hsp, _⟩ := spline_of_equations [x0, x1] [y0, y1] [0, 0] 0 rfl hs false rfl (by intro i hi; omega)
      exact congrArg some (hsp.knots i x y hx hy)

/-- C88.  The discount factor of a node date is the given one, for every interpolation method and for both kinds of
interpolation.  A node on the valuation date must have the discount factor one if rates are interpolated. -/
theorem C88_nodes (c : Curve) (i : Nat) (d : DateT) (D : ℝ) (hs : c.times.Pairwise (· < ·))
    (hlen : c.discounts.length = c.dates.length) (hd : c.dates[i]? = some d) (hD : c.discounts[i]? = some D) (hpos : 0 < D)
    (hm : MethodOk c.method c.dates.length (c.time d)) (h0 : c.interpolateRates = true → c.time d = 0 → D = 1) :
    c.discountFactor (some d) none = .ok (some D) := by
  have ht : c.times[i]? = some (c.time d) := by simp [Curve.times, hd]
  have hn : c.times.length = c.dates.length := by simp [Curve.times]
  have hm' : MethodOk c.method c.times.length (c.time d) := by rw [hn]; exact hm
  simp only [Curve.discountFactor, Curve.queryTime, bind, Except.bind, pure, Except.pure, Curve.discountAt]
  congr 1
  by_cases hr : c.interpolateRates = true
  · rw [if_pos hr]
    have hk : c.rateNodes[i]? = some (-Real.log D / c.time d) := by
      simp [Curve.rateNodes, List.getElem?_zipWith, ht, hD]
    rw [method_knot c.method c.times c.rateNodes i _ _ hs (by simp [Curve.rateNodes, hlen, hn]) ht hk hm']
    simp only [Option.map_some, Option.some.injEq]
    by_cases hz : c.time d = 0
    · rw [hz, mul_zero, Real.exp_zero, h0 hr hz]
    · rw [show -(-Real.log D / c.time d) * c.time d = Real.log D by field_simp, Real.exp_log hpos]
  · rw [if_neg hr]
    exact method_knot c.method c.times c.discounts i _ _ hs (by rw [hlen, hn]) ht hD hm'

/-- C88.  Rates and discount factors agree: the discount factor is the exponential of minus the rate times the time. -/
theorem C88_rate_and_factor (c : Curve) (date : Option DateT) (time : Option ℝ) (t r D : ℝ)
    (ht : c.queryTime date time = .ok t) (hr : c.discountRate date time = .ok (some r))
    (hD : c.discountFactor date time = .ok (some D)) (hpos : c.interpolateRates = false → 0 < D ∧ t ≠ 0) :
    D = Real.exp (-r * t) := by
  simp only [Curve.discountRate, Curve.discountFactor, ht, bind, Except.bind, pure, Except.pure, Except.ok.injEq,
    Curve.rateAt, Curve.discountAt] at hr hD
  by_cases hi : c.interpolateRates = true
  · rw [if_pos hi] at hr hD
    rw [hr] at hD
    simpa using hD.symm
  · rw [if_neg hi] at hr hD
    rw [hD] at hr
    obtain ⟨h1, h2⟩ := hpos (by simpa using hi)
    simp only [Option.map_some, Option.some.injEq] at hr
    rw [← hr, show -(-(Real.log D / t)) * t = Real.log D by field_simp, Real.exp_log h1]

/-- C88.  The forward rate between two dates accrues over the given year fraction to the ratio of the discount factors. -/
theorem C88_forward (c : Curve) (s m : DateT) (τ : Option ℝ) (S M F : ℝ) (hS : c.discountFactor (some s) none = .ok (some S))
    (hM : c.discountFactor (some m) none = .ok (some M)) (hM0 : M ≠ 0) (hτ : τ.getD (c.daycount s m) ≠ 0)
    (hF : c.forwardRate (some s) (some m) none none τ = .ok (some F)) :
    (1 + τ.getD (c.daycount s m) * F) * M = S := by
  simp only [Curve.discountFactor, Curve.queryTime, bind, Except.bind, pure, Except.pure, Except.ok.injEq] at hS hM
  simp only [Curve.forwardRate, Curve.discountFactor, Curve.queryTime, bind, Except.bind, pure, Except.pure,
    Option.isNone_some, Bool.false_and, hS, hM, Option.bind, Except.ok.injEq, Option.some.injEq] at hF
  simp only [Bool.false_eq_true, if_false, Except.ok.injEq, Option.some.injEq] at hF
  rw [← hF]
  field_simp
  ring

/-- C88.  Times instead of dates: the year fraction is the difference of the times and a given one is ignored. -/
theorem C88_forward_times (c : Curve) (s m : ℝ) (τ : Option ℝ) (S M F : ℝ) (hS : c.discountFactor none (some s) = .ok (some S))
    (hM : c.discountFactor none (some m) = .ok (some M)) (hM0 : M ≠ 0) (hτ : m ≠ s)
    (hF : c.forwardRate none none (some s) (some m) τ = .ok (some F)) :
    (1 + (m - s) * F) * M = S := by
  simp only [Curve.discountFactor, Curve.queryTime, bind, Except.bind, pure, Except.pure, Except.ok.injEq] at hS hM
  simp only [Curve.forwardRate, Curve.discountFactor, Curve.queryTime, bind, Except.bind, pure, Except.pure,
    Option.isNone_some, Bool.and_false, hS, hM, Option.bind, Except.ok.injEq, Option.some.injEq] at hF
  simp only [Bool.false_eq_true, if_false, Except.ok.injEq, Option.some.injEq] at hF
  have := sub_ne_zero.2 hτ
  rw [← hF]
  field_simp
  ring

/-- Deviation from C88: a date for one end and a time for the other is accepted by both checks but fails afterwards. -/
theorem C88_mixed_fails (c : Curve) (s : DateT) (m : ℝ) (τ : Option ℝ) :
    c.forwardRate (some s) none none (some m) τ = .error "None values not supported." := by
  simp [Curve.forwardRate, throw, throwThe, MonadExceptOf.throw, bind, Except.bind, pure, Except.pure]

/-- C88.  New discount factors are accepted exactly if there is one for each node, and nothing else changes. -/
theorem C88_set_nodes (c : Curve) (values : List ℝ) :
    (values.length = c.discounts.length → ∃ c', c.setNodes values = .ok c' ∧ c'.discounts = values ∧ c'.dates = c.dates ∧
      c'.valuation = c.valuation ∧ c'.method = c.method ∧ c'.interpolateRates = c.interpolateRates ∧ c'.daycount = c.daycount) ∧
    (values.length ≠ c.discounts.length → ∃ e, c.setNodes values = .error e) := by
  unfold Curve.setNodes
  constructor
  · intro h
    rw [if_neg (by simpa using h)]
    exact ⟨_, rfl, rfl, rfl, rfl, rfl, rfl, rfl⟩
  · intro h
    rw [if_pos h]
    exact ⟨_, rfl⟩

/-- C88.  The yield of a node is the annually compounded rate that gives its discount factor. -/
theorem C88_yield (c : Curve) (v d : DateT) (D : ℝ) (hD : 0 < D) (ht : c.daycount v d ≠ 0) :
    (1 + (yieldAndTime c v d D).1) ^ (-(yieldAndTime c v d D).2) = D := by
  simp only [yieldAndTime]
  rw [add_sub_cancel, ← Real.rpow_mul (by positivity), one_div, one_div,
    show (c.daycount v d)⁻¹ * -c.daycount v d = -1 by field_simp, Real.rpow_neg_one, inv_inv]

/-- C88.  The four conventions of the platform. -/
theorem C88_daycounts (s e : DateT) (ds de : YMD) (hs : Represents s ds) (he : Represents e de) :
    (∃ f, getDaycountFn ℝ .ACTUAL_360 = .ok f ∧ f s e = yearFraction .actual360 ds de) ∧
    (∃ f, getDaycountFn ℝ .ACTUAL_365 = .ok f ∧ f s e = yearFraction .actual365 ds de) ∧
    (∃ f, getDaycountFn ℝ .CONVENTION_30_360 = .ok f ∧ f s e = yearFraction .thirty360 ds de) ∧
    (∃ f, getDaycountFn ℝ .ACTUAL_ACTUAL_ISDA = .ok f ∧ (ds.number ≤ de.number → f s e =
      (ds.countDays (fun x => decide (Leap x.year)) (de.number - ds.number).toNat : ℝ) / 366 +
      (ds.countDays (fun x => !decide (Leap x.year)) (de.number - ds.number).toNat : ℝ) / 365)) ∧
    (∃ m, getDaycountFn ℝ .DAY_COUNT_CONVENTION_UNKNOWN = .error m) := by
  refine ⟨⟨_, rfl, C17_actual_360 ℝ s e ds de hs he⟩, ⟨_, rfl, C17_actual_365_fixed ℝ s e ds de hs he⟩,
    ⟨_, rfl, C17_thirty_360 ℝ s e ds de hs he⟩, ⟨_, rfl, ?_⟩, ⟨_, rfl⟩⟩
  intro hle
  simp only [C17_actual_actual_isda ℝ s e ds de hs he hle]

/-! ## Masks -/

section mask
variable {α : Type} [LinearOrder α]

theorem npUnique_mem (x : List α) (a : α) : a ∈ npUnique x ↔ a ∈ x := by
  simp [npUnique]

theorem npUnique_sorted (x : List α) : (npUnique x).Pairwise (· < ·) := by
  have h1 : (npUnique x).Pairwise (· ≤ ·) := List.pairwise_insertionSort _ _
  have h2 : (npUnique x).Nodup := (List.perm_insertionSort _ _).nodup_iff.2 (List.nodup_dedup x)
  exact (h1.and h2).imp (fun h => lt_of_le_of_ne h.1 h.2)

/-- C88.  The mask: the distinct values in increasing order, and every entry of the mask points to the value at its place. -/
theorem C88_mask (x : List α) :
    (createMask x).2.Pairwise (· < ·) ∧ (∀ a, a ∈ (createMask x).2 ↔ a ∈ x) ∧ (createMask x).1.length = x.length ∧
    ∀ (i : Nat) (a : α), x[i]? = some a → ∃ k, (createMask x).1[i]? = some k ∧ (createMask x).2[k]? = some a := by
  refine ⟨npUnique_sorted x, npUnique_mem x, by simp [createMask], ?_⟩
  intro i a h
  refine ⟨(npUnique x).idxOf a, by simp [createMask, h], ?_⟩
  have hm : a ∈ npUnique x := (npUnique_mem x a).2 (List.mem_of_getElem? h)
  have hl := List.idxOf_lt_length_of_mem hm
  simp only [createMask]
  rw [List.getElem?_eq_getElem hl, List.getElem_idxOf]

theorem filterMap_total {A B : Type} (f : A → Option B) (l : List A) (h : ∀ a ∈ l, ∃ b, f a = some b) (k : Nat) (a : A)
    (hk : l[k]? = some a) : (l.filterMap f)[k]? = f a := by
  induction l generalizing k with
  | nil => simp at hk
  | cons y l ih =>
    obtain ⟨b, hb⟩ := h y (by simp)
    rw [List.filterMap_cons_some hb]
    cases k with
    | zero =>
      simp only [List.getElem?_cons_zero, Option.some.injEq] at hk ⊢
      rw [← hk, hb]
    | succ k =>
      simp only [List.getElem?_cons_succ] at hk ⊢
      exact ih (fun a ha => h a (by simp [ha])) k hk

theorem find_sig {C : Type} (sig : C → α) (curves : List C) (s : α) (h : s ∈ curves.map sig) :
    ∃ c, curves.reverse.find? (fun c => decide (sig c = s)) = some c ∧ c ∈ curves ∧ sig c = s := by
  obtain ⟨c0, hc0, rfl⟩ := List.mem_map.1 h
  obtain ⟨c, hc⟩ : ∃ c, curves.reverse.find? (fun c => decide (sig c = sig c0)) = some c := by
    rw [← Option.isSome_iff_exists, List.find?_isSome]
    exact ⟨c0, by simpa using hc0, by simp⟩
  exact ⟨c, hc, by simpa using List.mem_of_find?_eq_some hc, by simpa using List.find?_some hc⟩

/-- C88.  Curve selection: the curves kept have strictly increasing signatures, and the mask sends every place to a given curve
with the signature of the curve at that place. -/
theorem C88_curve_types {C : Type} (sig : C → α) (curves : List C) :
    ((processCurveTypes sig curves).1.map sig).Pairwise (· < ·) ∧ (processCurveTypes sig curves).2.length = curves.length ∧
    ∀ (i : Nat) (c : C), curves[i]? = some c → ∃ k c', (processCurveTypes sig curves).2[i]? = some k ∧
      (processCurveTypes sig curves).1[k]? = some c' ∧ c' ∈ curves ∧ sig c' = sig c := by
  obtain ⟨h1, h2, h3, h4⟩ := C88_mask (curves.map sig)
  have hf : ∀ s ∈ (createMask (curves.map sig)).2, ∃ c, curves.reverse.find? (fun c => decide (sig c = s)) = some c :=
    fun s hs => (find_sig sig curves s ((h2 s).1 hs)).imp fun c hc => hc.1
  refine ⟨?_, by simpa [processCurveTypes] using h3, ?_⟩
  · have : (processCurveTypes sig curves).1.map sig = (createMask (curves.map sig)).2 := by
      simp only [processCurveTypes]
      have key : ∀ l : List α, (∀ s ∈ l, s ∈ curves.map sig) →
          (l.filterMap (fun s => curves.reverse.find? (fun c => decide (sig c = s)))).map sig = l := by
        intro l
        induction l with
        | nil => intro _; rfl
        | cons s l ih =>
          intro h
          obtain ⟨c, hc, _, hs⟩ := find_sig sig curves s (h s (by simp))
          rw [List.filterMap_cons_some (f := fun s => curves.reverse.find? (fun c => decide (sig c = s))) hc, List.map_cons, hs, ih (fun s hs => h s (by simp [hs]))]
      exact key _ (fun s hs => (h2 s).1 hs)
    rw [this]
    exact h1
  · intro i c hc
    obtain ⟨k, hk, hu⟩ := h4 i (sig c) (by simp [hc])
    obtain ⟨c', hc', hm, hs⟩ := find_sig sig curves (sig c) (List.mem_map.2 ⟨c, List.mem_of_getElem? hc, rfl⟩)
    refine ⟨k, c', hk, ?_, hm, hs⟩
    simp only [processCurveTypes]
    rw [filterMap_total _ _ hf k (sig c) hu, hc']

end mask

/-! ## Signatures -/

/-- The currencies of `instrument_protos/currencies.proto`. -/
def currencyNames : List String := ["CURRENCY_UNDEFINED", "USD", "GBP", "EUR", "JPY", "AUD", "NZD", "CAD", "CHF", "NOK", "SEK", "DKK", "MXN", "CNY", "RUB", "HKD", "SGD", "TRY", "KRW", "ZAR", "INR", "BRL"]

/-- The index types of `instrument_protos/rate_indices.proto`. -/
def indexTypeNames : List String :=
  ["RATE_INDEX_TYPE_UNKNOWN", "OIS", "SOFR", "SONIA", "ESTER", "SARON", "LIBOR_OVERNIGHT", "LIBOR_1W", "LIBOR_1M", "LIBOR_3M",
    "LIBOR_6M", "LIBOR_1Y", "EURIBOR_OVERNIGHT", "EURIBOR_1W", "EURIBOR_1M", "EURIBOR_3M", "EURIBOR_6M", "EURIBOR_1Y",
    "STIBOR_OVERNIGHT", "STIBOR_1W", "STIBOR_1M", "STIBOR_3M", "STIBOR_6M"]

/-- The currency and the index type are members of the enumerations. -/
def CurveType.Named : CurveType → Prop
  | .riskFree c => c ∈ currencyNames
  | .rateIndex c t _ _ => c ∈ currencyNames ∧ t ∈ indexTypeNames

/-- No name followed by an underscore starts another one followed by an underscore. -/
def Separated (l : List String) : Prop :=
  ∀ a ∈ l, ∀ b ∈ l, (a.toList ++ ['_']) <+: (b.toList ++ ['_']) → a = b

theorem separated_names : Separated currencyNames ∧ Separated indexTypeNames := by
  unfold Separated
  constructor <;> decide +kernel

theorem separated_cancel (l : List String) (h : Separated l) (a b : String) (ha : a ∈ l) (hb : b ∈ l) (x y : List Char)
    (e : a.toList ++ ['_'] ++ x = b.toList ++ ['_'] ++ y) : a = b ∧ x = y := by
  have key : a = b := by
    have p1 : (a.toList ++ ['_']) <+: (a.toList ++ ['_'] ++ x) := List.prefix_append _ _
    have p2 : (b.toList ++ ['_']) <+: (a.toList ++ ['_'] ++ x) := e ▸ List.prefix_append _ _
    rcases List.prefix_or_prefix_of_prefix p1 p2 with h1 | h1
    · exact h a ha b hb h1
    · exact (h b hb a ha h1).symm
  subst key
  exact ⟨rfl, List.append_cancel_left e⟩

/-- C88.  Curves with the same signature are looked up under the same keys of the market data. -/
theorem C88_signature (a b : CurveType) (ha : CurveType.Named a) (hb : CurveType.Named b) (h : a.signature = b.signature) :
    a.key = b.key := by
  have mixed : ∀ c ∈ currencyNames, ∀ c' ∈ currencyNames, ∀ x : List Char, c.toList ≠ c'.toList ++ ['_'] ++ x := by
    intro c hc c' hc' x e
    have h1 : (c'.toList ++ ['_']) <+: (c.toList ++ ['_']) := by
      rw [e, List.append_assoc]
      exact List.prefix_append _ _
    have := separated_names.1 c' hc' c hc h1
    subst this
    have := congrArg List.length e
    simp at this
  cases a with
  | riskFree c =>
    cases b with
    | riskFree c' => simp only [CurveType.signature] at h; simp only [CurveType.key]; rw [String.toList_injective h]
    | rateIndex c' t s n =>
      simp only [CurveType.signature, List.append_assoc] at h
      exact absurd (by rw [h]; simp [List.append_assoc]) (mixed c ha c' hb.1 (t.toList ++ (['_'] ++ (joinUnderscore s ++ (['_'] ++ joinUnderscore n)))))
  | rateIndex c t s n =>
    cases b with
    | riskFree c' =>
      simp only [CurveType.signature, List.append_assoc] at h
      exact absurd (by rw [← h]; simp [List.append_assoc]) (mixed c' hb c ha.1 (t.toList ++ (['_'] ++ (joinUnderscore s ++ (['_'] ++ joinUnderscore n)))))
    | rateIndex c' t' s' n' =>
      simp only [CurveType.signature, List.append_assoc] at h
      obtain ⟨rfl, h'⟩ := separated_cancel _ separated_names.1 c c' ha.1 hb.1
        (t.toList ++ (['_'] ++ (joinUnderscore s ++ (['_'] ++ joinUnderscore n))))
        (t'.toList ++ (['_'] ++ (joinUnderscore s' ++ (['_'] ++ joinUnderscore n')))) (by simpa [List.append_assoc] using h)
      obtain ⟨rfl, _⟩ := separated_cancel _ separated_names.2 t t' ha.2 hb.2
        (joinUnderscore s ++ (['_'] ++ joinUnderscore n)) (joinUnderscore s' ++ (['_'] ++ joinUnderscore n'))
        (by simpa [List.append_assoc] using h')
      rfl

/-! ## Fixings -/

/-- C88.  Past fixings are a left-continuous step function: the fixing of the first fixing date that is not before the date asked
for, and the last fixing after all of them. -/
theorem C88_fixings (dates : List DateT) (rates : List ℝ) (dc : Daycount) (date : DateT) (hne : dates ≠ [])
    (hs : (dates.map DateT.ordinal).Pairwise (· ≤ ·)) (hl : rates.length = dates.length) :
    ∃ i r, fixings (some ⟨some dates, some rates, some dc⟩) date = .ok (r, some dc) ∧ rates[i]? = some r ∧
      (∀ j x, j < i → dates[j]? = some x → x.ordinal < date.ordinal) ∧
      (∀ x, dates[i]? = some x → date.ordinal ≤ x.ordinal ∨ i + 1 = dates.length) := by
  obtain ⟨h1, h2⟩ := searchLeft_spec (dates.map DateT.ordinal) hs date.ordinal
  rw [List.length_map] at h1
  have hpos : 0 < dates.length := List.length_pos_of_ne_nil hne
  set k := searchLeft (dates.map DateT.ordinal) date.ordinal with hk
  have hi : (min (max (k : Int) 0) ((dates.length : Int) - 1)).toNat = min k (dates.length - 1) := by omega
  have hlt : min k (dates.length - 1) < rates.length := by omega
  refine ⟨min k (dates.length - 1), rates[min k (dates.length - 1)], ?_, List.getElem?_eq_getElem hlt, ?_, ?_⟩
  · simp only [fixings, ← hk, hi, List.getElem?_eq_getElem hlt]
  · intro j x hj hx
    exact (h2 j x.ordinal (by simp [hx])).1 (by omega)
  · intro x hx
    by_cases h : k ≤ dates.length - 1
    · left
      have := (h2 (min k (dates.length - 1)) x.ordinal (by simp [hx])).not
      omega
    · right; omega

/-- C88.  Without data the fixing is zero; without a day count convention there is an error. -/
theorem C88_fixings_missing (dates : List DateT) (rates : List ℝ) (dc : Option Daycount) (date : DateT) :
    fixings (K := ℝ) none date = .ok (0, none) ∧ fixings (K := ℝ) (some ⟨none, some rates, dc⟩) date = .ok (0, none) ∧
    fixings (K := ℝ) (some ⟨some dates, none, dc⟩) date = .ok (0, none) ∧
    ∃ e, fixings (some ⟨some dates, some rates, none⟩) date = .error e :=
  ⟨rfl, rfl, rfl, _, rfl⟩

/-! ## Batches of curves -/

theorem stackRows_ok {α : Type} (rows : List (List α)) (n : Nat) (hne : rows ≠ []) (h : ∀ r ∈ rows, r.length = n) :
    stackRows rows = .ok rows := by
  cases rows with
  | nil => exact absurd rfl hne
  | cons r rs =>
    simp only [stackRows]
    rw [if_pos]
    simp only [List.all_eq_true, decide_eq_true_eq]
    intro q hq
    rw [h q (by simp [hq]), h r (by simp)]

theorem stackRows_error {α : Type} (rows : List (List α)) (a b : List α) (ha : a ∈ rows) (hb : b ∈ rows)
    (h : a.length ≠ b.length) : ∃ e, stackRows rows = .error e := by
  cases rows with
  | nil => simp at ha
  | cons r rs =>
    simp only [stackRows]
    rw [if_neg]
    · exact ⟨_, rfl⟩
    · simp only [List.all_eq_true, decide_eq_true_eq]
      intro hall
      have : ∀ q ∈ r :: rs, q.length = r.length := by
        intro q hq
        rcases List.mem_cons.1 hq with rfl | hq
        · rfl
        · exact hall q hq
      exact h (by rw [this a ha, this b hb])

theorem gatherRows_ok {α : Type} (rows : List α) (mask : List Nat) (x0 : α) (h : ∀ k ∈ mask, k < rows.length) :
    gatherRows rows mask = .ok (mask.map (fun k => rows.getD k x0)) := by
  unfold gatherRows
  apply mapM_ok
  intro k hk
  have := h k hk
  simp [List.getElem?_eq_getElem this, List.getD_eq_getElem?_getD]

/-- What the curves of a batch must have in common. -/
structure Uniform (curves : List Curve) (valuation : DateT) (n : Nat) (m : Method) (b : Bool) : Prop where
  size : ∀ c ∈ curves, c.dates.length = n ∧ c.discounts.length = n
  dates : ∀ c ∈ curves, ∀ d ∈ c.dates, ∃ y : YMD, Represents d y ∧ 1 ≤ y.year
  valuation : ∀ c ∈ curves, c.valuation = valuation
  method : ∀ c ∈ curves, c.method = m ∧ c.interpolateRates = b

theorem batch_core (curves : List Curve) (valuation : DateT) (mask : List Nat) (n : Nat) (m : Method) (b : Bool)
    (hn : 0 < n) (hne : curves ≠ []) (hu : Uniform curves valuation n m b) (hm : ∀ k ∈ mask, k < curves.length) :
    ∃ rows, getDiscountCurve curves valuation mask = .ok rows ∧ rows.length = mask.length ∧
      ∀ (i k : Nat) (c : Curve), mask[i]? = some k → curves[k]? = some c →
        rows[i]? = some { c with daycount := actual365Fixed ℝ } := by
  have hsingle : ∀ (A : Type) (f : Curve → List A), (∀ c ∈ curves, (f c).length = n) →
      Rectangular (curves.map (fun c => [f c])) := by
    intro A f hf t ht
    obtain ⟨c, hc, rfl⟩ := List.mem_map.1 ht
    refine ⟨by simp, n, hn, ?_⟩
    intro row hrow
    rw [List.mem_singleton.1 hrow]
    exact hf c hc
  have hmax : ∀ (A : Type) (f : Curve → List A) (N : Nat), (∀ c ∈ curves, (f c).length = n) →
      IsMaxSize (curves.map (fun c => [f c])) N → N = n := by
    intro A f N hf hN
    obtain ⟨t, ht, row, hrow, hl⟩ := hN.2 (by simpa using hne)
    obtain ⟨c, hc, rfl⟩ := List.mem_map.1 ht
    rw [List.mem_singleton.1 hrow, hf c hc] at hl
    exact hl.symm
  have hd : padTensors (fun x : ℝ => x - 1) .default (curves.map (fun c => [c.discounts])) =
      some (curves.map (fun c => [c.discounts])) := by
    obtain ⟨N, hN, he⟩ := C20_pad_default (fun x : ℝ => x - 1) (fun x => by linarith) _
      (hsingle ℝ (fun c => c.discounts) (fun c hc => (hu.size c hc).2)) 0
    rw [he, hmax ℝ (fun c => c.discounts) N (fun c hc => (hu.size c hc).2) hN, List.map_map]
    refine congrArg some (List.map_congr_left ?_)
    intro c hc
    simp [padTo, (hu.size c hc).2]
  obtain ⟨ps, hps⟩ : ∃ ps, padDateTensors (curves.map (fun c => [c.dates])) = .ok ps := by
    obtain ⟨N, _, he⟩ := C20_pad_dates _ (hsingle DateT (fun c => c.dates) (fun c hc => (hu.size c hc).1)) (by
      intro t ht row hrow d hd
      obtain ⟨c, hc, rfl⟩ := List.mem_map.1 ht
      rw [List.mem_singleton.1 hrow] at hd
      exact hu.dates c hc d hd) ⟨0, 0, 0, 0⟩
    exact ⟨_, he⟩
  have hs1 : stackRows ((curves.map (fun c => [c.discounts])).map List.flatten) = .ok (curves.map (fun c => c.discounts)) := by
    have e : (curves.map (fun c => [c.discounts])).map List.flatten = curves.map (fun c => c.discounts) := by
      simp [List.map_map, Function.comp_def]
    rw [e]
    refine stackRows_ok _ n (by simpa using hne) ?_
    intro r hr
    obtain ⟨c, hc, rfl⟩ := List.mem_map.1 hr
    exact (hu.size c hc).2
  have hs2 : stackRows (curves.map (fun c => c.dates)) = .ok (curves.map (fun c => c.dates)) := by
    refine stackRows_ok _ n (by simpa using hne) ?_
    intro r hr
    obtain ⟨c, hc, rfl⟩ := List.mem_map.1 hr
    exact (hu.size c hc).1
  have hg1 := gatherRows_ok (curves.map (fun c => c.discounts)) mask [] (by simpa using hm)
  have hg2 := gatherRows_ok (curves.map (fun c => c.dates)) mask [] (by simpa using hm)
  have ho : (mask.map (fun k => (curves.map (fun c => c.dates)).getD k [])).mapM
      (fun row => row.mapM (fun t => fromOrdinals t.ordinal)) =
        .ok (mask.map (fun k => (curves.map (fun c => c.dates)).getD k [])) := by
    rw [mapM_ok _ id, List.map_id]
    intro row hrow
    obtain ⟨k, hk, rfl⟩ := List.mem_map.1 hrow
    rw [mapM_ok _ id, List.map_id]
    · rfl
    intro d hd
    have hk' := hm k hk
    simp only [List.getD_eq_getElem?_getD, List.getElem?_map, List.getElem?_eq_getElem hk', Option.map_some,
      Option.getD_some] at hd
    obtain ⟨y, hy, h1⟩ := hu.dates _ (List.getElem_mem hk') d hd
    obtain ⟨hv, rfl⟩ := (represents_iff d y).1 hy
    rw [repr_ordinal, fromOrdinals_pos _ ((number_pos_iff y hv).2 h1), dateOf_of_number y hv]
    rfl
  obtain ⟨last, hlast⟩ : ∃ last, curves.getLast? = some last := ⟨_, List.getLast?_eq_some_getLast hne⟩
  have hlm : last ∈ curves := List.mem_of_getLast? hlast
  refine ⟨_, by
    simp only [getDiscountCurve, hd, hps, hs1, hs2, hg1, hg2, ho, hlast, bind, Except.bind, pure, Except.pure]
    rfl, by simp, ?_⟩
  intro i k c hi hc
  have hmem := List.mem_of_getElem? hc
  simp only [List.getElem?_zipWith, List.getElem?_map, hi, Option.map_some, List.getD_eq_getElem?_getD, hc, Option.getD_some]
  obtain ⟨ds, xs, v, mm, ib, dc⟩ := c
  have e1 := hu.valuation _ hmem
  have e2 := hu.method _ hmem
  have e4 := hu.method _ hlm
  simp only at e1 e2
  rw [e1, e2.1, e2.2, e4.1, e4.2]

/-- C88, for curves with the same number of nodes, the same interpolation and the day count Actual/365 (see
`C88_padding_lost` and `C88_daycount_lost`): row `i` of the batched curve is the curve the mask selects. -/
theorem C88_batch_partial (curves : List Curve) (valuation : DateT) (mask : List Nat) (n : Nat) (m : Method) (b : Bool)
    (hn : 0 < n) (hne : curves ≠ []) (hu : Uniform curves valuation n m b) (hm : ∀ k ∈ mask, k < curves.length)
    (hdc : ∀ c ∈ curves, c.daycount = actual365Fixed ℝ) :
    ∃ rows, getDiscountCurve curves valuation mask = .ok rows ∧ rows.length = mask.length ∧
      ∀ (i k : Nat) (c : Curve), mask[i]? = some k → curves[k]? = some c → rows[i]? = some c := by
  obtain ⟨rows, h1, h2, h3⟩ := batch_core curves valuation mask n m b hn hne hu hm
  refine ⟨rows, h1, h2, fun i k c hi hc => ?_⟩
  rw [h3 i k c hi hc, ← hdc c (List.mem_of_getElem? hc)]

/-- Deviation from C88: two curves with different numbers of nodes cannot be used in one batch, although the discount factors are
padded for it (the padded dates are discarded). -/
theorem C88_padding_lost (curves : List Curve) (valuation : DateT) (mask : List Nat) (c c' : Curve) (hc : c ∈ curves)
    (hc' : c' ∈ curves) (h : c.dates.length ≠ c'.dates.length) : ∃ e, getDiscountCurve curves valuation mask = .error e := by
  obtain ⟨e, he⟩ := stackRows_error (curves.map (fun c => c.dates)) c.dates c'.dates (List.mem_map.2 ⟨c, hc, rfl⟩)
    (List.mem_map.2 ⟨c', hc', rfl⟩) h
  simp only [getDiscountCurve, bind, Except.bind, he]
  split
  · exact ⟨_, rfl⟩
  · split <;> exact ⟨_, rfl⟩

/-- 1 January 2021, 31 January 2021, 28 February 2021 and 1 March 2021. -/
def pJan1 : DateT := ⟨737791, 2021, 1, 1⟩
def pJan31 : DateT := ⟨737821, 2021, 1, 31⟩
def pFeb28 : DateT := ⟨737849, 2021, 2, 28⟩
def pMar1 : DateT := ⟨737850, 2021, 3, 1⟩

/-- A curve with the convention 30/360 and linearly interpolated discount factors. -/
noncomputable def curve30 : Curve := ⟨[pJan31, pMar1], [1, 9 / 10], pJan1, .LINEAR, false, thirty360Isda ℝ⟩

theorem linear_pair (x x0 x1 y0 y1 : ℝ) (h0 : x0 < x) (h1 : x ≤ x1) :
    linearInterpolate x [x0, x1] [y0, y1] = y0 + (x - x0) * ((y1 - y0) / (x1 - x0)) := by
  have hs : searchLeft [x0, x1] x = 1 := by
    simp [searchLeft, h0, not_lt.2 h1]
  simp [linearInterpolate, hs, getSlice]

/-- Deviation from C88: the day count convention of a curve is dropped when the batch is built, so the discount factor changes. -/
theorem C88_daycount_lost : ∃ r, getDiscountCurve [curve30] pJan1 [0] = .ok [r] ∧
    curve30.discountFactor (some pFeb28) none = .ok (some (91 / 100)) ∧
    r.discountFactor (some pFeb28) none = .ok (some (1 - 28 / 290)) ∧ (91 / 100 : ℝ) ≠ 1 - 28 / 290 := by
  have hu : Uniform [curve30] pJan1 2 .LINEAR false := by
    refine ⟨?_, ?_, ?_, ?_⟩
    · intro c hc; rw [List.mem_singleton.1 hc]; exact ⟨rfl, rfl⟩
    · intro c hc d hd
      rw [List.mem_singleton.1 hc] at hd
      have hd' : d = pJan31 ∨ d = pMar1 := by simpa [curve30] using hd
      rcases hd' with rfl | rfl
      · exact ⟨⟨2021, 1, 31⟩, by unfold Represents; decide +kernel, by decide⟩
      · exact ⟨⟨2021, 3, 1⟩, by unfold Represents; decide +kernel, by decide⟩
    · intro c hc; rw [List.mem_singleton.1 hc]; rfl
    · intro c hc; rw [List.mem_singleton.1 hc]; exact ⟨rfl, rfl⟩
  obtain ⟨rows, h1, h2, h3⟩ := batch_core [curve30] pJan1 [0] 2 .LINEAR false (by decide) (by simp) hu (by simp)
  obtain ⟨r, rfl⟩ := List.length_eq_one_iff.1 (h2.trans rfl)
  have hr : r = { curve30 with daycount := actual365Fixed ℝ } := by simpa using h3 0 0 curve30 rfl rfl
  refine ⟨r, h1, ?_, ?_, by norm_num⟩
  · simp only [Curve.discountFactor, Curve.queryTime, bind, Except.bind, pure, Except.pure, Curve.discountAt, curve30,
      Curve.times, Curve.time, List.map, Method.interpolate, Bool.false_eq_true, if_false]
    rw [linear_pair _ _ _ _ _ (by norm_num [thirty360Isda, pJan1, pJan31, pFeb28]) (by norm_num [thirty360Isda, pJan1, pMar1, pFeb28])]
    norm_num [thirty360Isda, pJan1, pJan31, pMar1, pFeb28]
  · rw [hr]
    simp only [Curve.discountFactor, Curve.queryTime, bind, Except.bind, pure, Except.pure, Curve.discountAt, curve30,
      Curve.times, Curve.time, List.map, Method.interpolate, Bool.false_eq_true, if_false]
    rw [linear_pair _ _ _ _ _ (by norm_num [actual365Fixed, DateT.daysUntil, pJan1, pJan31, pFeb28])
      (by norm_num [actual365Fixed, DateT.daysUntil, pJan1, pMar1, pFeb28])]
    norm_num [actual365Fixed, DateT.daysUntil, pJan1, pJan31, pMar1, pFeb28]

/-- C88.  Every known business day rule has a convention, and the end of month flag is set exactly by the `EOM` rules; periods keep
their unit and amount. -/
theorem C88_conventions :
    (∀ r, r ≠ .BUSINESS_DAY_CONVENTION_UNKNOWN → ∃ conv eom, getBusinessDayConvention r = .ok (conv, eom) ∧
      (eom = true ↔ r = .EOM_NO_ADJUSTMENT ∨ r = .EOM_PREVIOUS ∨ r = .EOM_FOLLOWING) ∧
      (conv = .NONE ↔ r = .NO_ADJUSTMENT ∨ r = .EOM_NO_ADJUSTMENT) ∧
      (conv = .FOLLOWING ↔ r = .FOLLOWING ∨ r = .EOM_FOLLOWING) ∧ (conv = .PRECEDING ↔ r = .PREVIOUS ∨ r = .EOM_PREVIOUS)) ∧
    (∃ e, getBusinessDayConvention .BUSINESS_DAY_CONVENTION_UNKNOWN = .error e) ∧
    (∀ n, getPeriod .DAY n = .ok ⟨n, .DAY⟩ ∧ getPeriod .WEEK n = .ok ⟨n, .WEEK⟩ ∧ getPeriod .MONTH n = .ok ⟨n, .MONTH⟩ ∧
      getPeriod .YEAR n = .ok ⟨n, .YEAR⟩) := by
  refine ⟨?_, ⟨_, rfl⟩, fun n => ⟨rfl, rfl, rfl, rfl⟩⟩
  intro r hr
  cases r <;> first | exact absurd rfl hr | exact ⟨_, _, rfl, by decide, by decide, by decide, by decide⟩

/-- Deviation from C88: quarters are a period type of the platform but have no counterpart in the library. -/
theorem C88_quarter_fails (n : Int) : ∃ e, getPeriod .QUARTER n = .error e := ⟨_, rfl⟩

/-! ## Examples -/

example : createMask ["USD", "AUD", "USD"] = ([1, 0, 1], ["AUD", "USD"]) := by decide +kernel

example : curve30.discountFactor (some pMar1) none = .ok (some (9 / 10)) := by
  refine C88_nodes curve30 1 pMar1 (9 / 10) ?_ rfl rfl rfl (by norm_num) ⟨by simp [curve30], by simp [curve30]⟩
    (by simp [curve30])
  norm_num [Curve.times, Curve.time, curve30, thirty360Isda, pJan1, pJan31, pMar1]

example : fixings (K := ℚ) (some ⟨some [pJan1, pJan31, pMar1], some [1 / 100, 2 / 100, 3 / 100], some .ACTUAL_365⟩) pFeb28 =
    .ok (3 / 100, some .ACTUAL_365) := by
  have : searchLeft ([pJan1, pJan31, pMar1].map DateT.ordinal) pFeb28.ordinal = 2 := by decide +kernel
  simp only [fixings, this]
  rfl

end Props
