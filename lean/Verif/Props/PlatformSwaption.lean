import Mathlib.Tactic.FieldSimp
import Mathlib.Tactic.Linarith
import Verif.Model.PlatformSwaption
import Verif.Props.PlatformSwap
import Verif.Props.HullWhiteOptions

/-!
# Property theorems C92: swaptions of the pricing platform
-/

namespace Props
open Model Model.Platform Spec Lemmas

section
variable {K : Type} [Field K] [LinearOrder K]

/-- C92.  The arguments for a swap with one fixed and one floating leg: times are days from the valuation divided by 365, the coupon is
the rate of the fixed leg for each of its payments, paying fixed is a payer swaption, paying floating a receiver swaption, and the notional
is the one of the leg that is paid. -/
theorem C92_args (f : FixedRow K) (g : FloatRow K) (c : Option (DateT → K)) (x v : DateT) :
    (∃ a, swaptionArgs ⟨.fixed f, .floating g, c⟩ x v = .ok a ∧ a.isPayer = true ∧ a.notional = f.notional ∧
      a.expiry = ((x.ordinal - v.ordinal : Int) : K) / 365 ∧ a.payments = (f.dates.drop 1).map (actual365Fixed K v) ∧
      a.floatStarts = g.dates.dropLast.map (actual365Fixed K v) ∧ a.floatEnds = (g.dates.drop 1).map (actual365Fixed K v) ∧
      a.coupons = List.replicate (f.dates.length - 1) f.rate ∧
      a.fixedFractions = List.zipWith f.daycount f.dates (f.dates.drop 1) ∧
      a.floatFractions = List.zipWith g.daycount g.dates (g.dates.drop 1)) ∧
    (∃ a b, swaptionArgs ⟨.fixed f, .floating g, c⟩ x v = .ok a ∧ swaptionArgs ⟨.floating g, .fixed f, c⟩ x v = .ok b ∧
      b = { a with isPayer := false, notional := g.notional }) := by
  have hz : ∀ (h : DateT → DateT → K) (l : List DateT), List.zipWith h l.dropLast (l.drop 1) = List.zipWith h l (l.drop 1) := by
    intro h l
    rw [List.dropLast_eq_take]
    conv_rhs => rw [← List.take_append_drop (l.length - 1) l]
    rw [List.zipWith_eq_zipWith_take_min]
    conv_rhs => rw [List.zipWith_eq_zipWith_take_min]
    simp [List.take_take]
  refine ⟨⟨_, rfl, rfl, rfl, ?_, rfl, rfl, rfl, ?_, ?_, ?_⟩, ⟨_, _, rfl, rfl, rfl⟩⟩
  · simp only [actual365Fixed, DateT.daysUntil]
  · simp [couponEnds, List.map_const']
  · exact hz _ _
  · exact hz _ _

end

section
variable {K : Type} [Field K] [LinearOrder K] [IsStrictOrderedRing K] [FloorRing K]

/-- C92.  Rounding is to a nearest integer, and to the even one if there are two. -/
theorem C92_round (x : K) : |x - roundHalfEven x| ≤ 1 / 2 ∧ (|x - roundHalfEven x| = 1 / 2 → roundHalfEven x % 2 = 0) := by
  have h1 := Int.floor_le x
  have h2 := Int.lt_floor_add_one x
  unfold roundHalfEven
  simp only
  split_ifs with h h' h''
  · rw [abs_of_nonneg (by linarith)]
    exact ⟨h.le, fun e => absurd e h.ne⟩
  · push_cast
    rw [abs_of_nonpos (by linarith)]
    constructor
    · linarith
    · intro e; linarith
  · rw [abs_of_nonneg (by linarith)]
    exact ⟨not_lt.1 h', fun _ => h''⟩
  · push_cast
    rw [abs_of_nonpos (by linarith)]
    constructor
    · linarith [not_lt.1 h]
    · intro _; omega

/-- C92.  The rate for the time of a date is read at that date. -/
theorem C92_rate_date (v d : DateT) : rateOrdinal (actual365Fixed K v d) v = d.ordinal := by
  have h : actual365Fixed K v d * 365 + (v.ordinal : K) = ((d.ordinal : Int) : K) := by
    simp only [actual365Fixed, DateT.daysUntil]
    push_cast
    field_simp
    ring
  unfold rateOrdinal
  rw [h]
  have h1 : ⌊((d.ordinal : Int) : K)⌋ = d.ordinal := Int.floor_intCast _
  unfold roundHalfEven
  simp only
  rw [h1, sub_self, if_pos (by norm_num)]

end

section
variable {K : Type} [Field K]

theorem keys_v1_v2 (s t : SwapProto K) (h : (getHashV1 s).1 = (getHashV1 t).1) : (getHash s).1 = (getHash t).1 := by
  cases hs : s.pay <;> cases hs' : s.receive <;> cases ht : t.pay <;> cases ht' : t.receive <;>
    simp [getHashV1, getKeysV1, getHash, legsHashKey, getKeys, hs, hs', ht, ht', ← frequency_value] at h ⊢ <;>
    simp [h]

/-- C92.  Swaptions from protocol buffers: one instrument for each key of the underlying swaps, with the expiries, names and swaps of all
swaptions of this key, in order (the first batch of swaps is the only one). -/
theorem C92_batches (l : List (SwaptionProto K)) :
    ∃ keys d, swaptionFromProtos l = .ok d ∧ keys.Nodup ∧ (∀ p ∈ l, (getHashV1 p.swap).1 ∈ keys) ∧
      List.Forall₂ (fun k q => ∃ ps, ps = l.filter (fun p => decide ((getHashV1 p.swap).1 = k)) ∧ ps ≠ [] ∧
        IsSwapBatch (ps.map (fun p => p.swap)) q.1 ∧ q.2.1 = ps.map (fun p => p.expiry) ∧
        q.2.2 = ps.map (fun p => (p.id, p.instrumentType))) keys d := by
  obtain ⟨g, h1, h2, h3, h4⟩ := C90_groups (fun p : SwaptionProto K => (getHashV1 p.swap).1) l
  have hone : ∀ k ps, (k, ps) ∈ g → ∃ k' b, fromProtos (ps.map (fun p : SwaptionProto K => p.swap)) = .ok [(k', b)] ∧
      IsSwapBatch (ps.map (fun p => p.swap)) b := by
    intro k ps hm
    obtain ⟨e, hne⟩ := h4 k ps hm
    obtain ⟨d, c1, c2, c3, c4⟩ := C90_batches (ps.map (fun p => p.swap))
    obtain ⟨p0, hp0⟩ := List.exists_mem_of_ne_nil ps hne
    have hk : ∀ p ∈ ps, (getHashV1 p.swap).1 = k := by
      intro p hp; rw [e] at hp; simpa using (List.mem_filter.1 hp).2
    have hk2 : ∀ p ∈ ps, (getHash p.swap).1 = (getHash p0.swap).1 := fun p hp =>
      keys_v1_v2 _ _ ((hk p hp).trans (hk p0 hp0).symm)
    have hall : ∀ k' ∈ d.map Prod.fst, k' = (getHash p0.swap).1 := by
      intro k' hk'
      obtain ⟨q, hq, rfl⟩ := (c3 k').1 hk'
      obtain ⟨p, hp, rfl⟩ := List.mem_map.1 hq
      exact hk2 p hp
    have hex : (getHash p0.swap).1 ∈ d.map Prod.fst := (c3 _).2 ⟨_, List.mem_map_of_mem hp0, rfl⟩
    rcases d with _ | ⟨⟨k1, b1⟩, _ | ⟨⟨k2, b2⟩, d⟩⟩
    · simp at hex
    · refine ⟨k1, b1, c1, ?_⟩
      have := c4 k1 b1 (by simp)
      rwa [List.filter_eq_self.2 ?_] at this
      intro q hq
      obtain ⟨p, hp, rfl⟩ := List.mem_map.1 hq
      simp [hk2 p hp, hall k1 (by simp)]
    · exfalso
      have e1 := hall k1 (by simp)
      have e2 := hall k2 (by simp)
      simp [e1, e2] at c2
  have hmap : ∀ g' : List (List (Option Int) × List (SwaptionProto K)), (∀ q ∈ g', q ∈ g) →
      ∃ d, g'.mapM (fun g => do
          let batches ← fromProtos (g.2.map (fun p => p.swap))
          match batches with
          | [] => throw "list index out of range"
          | b :: _ => return (b.2, g.2.map (fun p => p.expiry), g.2.map (fun p => (p.id, p.instrumentType)))) = Except.ok d ∧
        List.Forall₂ (fun q r => IsSwapBatch (q.2.map (fun p : SwaptionProto K => p.swap)) r.1 ∧ r.2.1 = q.2.map (fun p => p.expiry) ∧
          r.2.2 = q.2.map (fun p => (p.id, p.instrumentType))) g' d := by
    intro g'
    induction g' with
    | nil => intro _; exact ⟨[], rfl, .nil⟩
    | cons q g' ih =>
      intro hq
      obtain ⟨d, e1, e2⟩ := ih (fun x hx => hq x (by simp [hx]))
      obtain ⟨k', b, f1, f2⟩ := hone q.1 q.2 (hq q (by simp))
      refine ⟨(b, q.2.map (fun p => p.expiry), q.2.map (fun p => (p.id, p.instrumentType))) :: d, ?_, .cons ⟨f2, rfl, rfl⟩ e2⟩
      rw [List.mapM_cons, e1, f1]
      rfl
  obtain ⟨d, e1, e2⟩ := hmap g (fun _ h => h)
  refine ⟨g.map Prod.fst, d, ?_, h2, fun p hp => (h3 _).2 ⟨p, hp, rfl⟩, ?_⟩
  · unfold swaptionFromProtos
    rw [h1]
    exact e1
  · rw [List.forall₂_map_left_iff]
    have h5 := (List.forall₂_and_left (p := fun q => q ∈ g) g d).2 ⟨fun _ h => h, e2⟩
    refine h5.imp ?_
    rintro ⟨k, ps⟩ r ⟨hm, r1, r2, r3⟩
    obtain ⟨c1, c2⟩ := h4 k ps hm
    exact ⟨ps, c1, c2, r1, r2, r3⟩

end

/-- Deviation from C92: a swaption to receive the fixed rate has a value of at least zero, but made from a protocol buffer it is stored
with exchanged legs and negated amounts (C90) and priced as a short payer swaption, which is worth at most zero. -/
theorem C92_receiver (m : HullWhite) (hm : HullWhiteOk m) (f : FixedRow ℝ) (g : FloatRow ℝ) (c c' : Option (DateT → ℝ)) (x v : DateT)
    (a p b : SwaptionArgs ℝ) (hf : 0 ≤ f.notional) (hfg : g.notional = f.notional)
    (ha : swaptionArgs ⟨.floating g, .fixed f, c⟩ x v = .ok a) (hp : swaptionArgs ⟨.fixed f, .floating g, c⟩ x v = .ok p)
    (hb : swaptionArgs ⟨negLeg (.fixed f), negLeg (.floating g), c'⟩ x v = .ok b) (root : ℝ) (h0 : 0 ≤ a.expiry)
    (hy : 0 < convexity m.meanReversion m.volatility a.expiry)
    (hpay : ∀ q ∈ List.zip a.payments (List.zip a.fixedFractions a.coupons), a.expiry < q.1 ∧ 0 ≤ q.2.1 * q.2.2)
    (hne : List.zip a.payments (List.zip a.fixedFractions a.coupons) ≠ [])
    (hroot : m.jamshidianFunction a.expiry (List.zip a.payments (List.zip a.fixedFractions a.coupons)) root = 0) :
    0 ≤ swaptionValue m a root ∧ swaptionValue m b root ≤ 0 ∧ swaptionValue m b root = -swaptionValue m p root ∧ b.isPayer = true := by
  have hpa : p = { a with isPayer := true, notional := f.notional } := by
    simp only [swaptionArgs, Except.ok.injEq] at ha hp
    rw [← ha, ← hp]
  have hba : b = { a with isPayer := true, notional := -f.notional } := by
    simp only [swaptionArgs, negLeg, Except.ok.injEq] at ha hb
    rw [← ha, ← hb]
  have haa : a.isPayer = false ∧ a.notional = g.notional := by
    simp only [swaptionArgs, Except.ok.injEq] at ha
    rw [← ha]
    exact ⟨rfl, rfl⟩
  have h1 := C55_swaption_partial m hm _ g.notional false _ hne h0 hy hpay root hroot
  have h2 := C55_swaption_partial m hm _ f.notional true _ hne h0 hy hpay root hroot
  have h3 := C55_swaption_partial m hm _ (-f.notional) true _ hne h0 hy hpay root hroot
  have hnn : ∀ u : ℝ → ℝ, (∀ r, 0 ≤ u r) → ∀ mean s, 0 ≤ normalExpectation mean s u := fun u hu mean s =>
    MeasureTheory.integral_nonneg hu
  rw [← haa.1, ← haa.2] at h1
  have v1 := (show swaptionValue m a root = _ from h1)
  have v2 := (show swaptionValue m p root = _ from (by rw [hpa]; rfl : swaptionValue m p root = _).trans h2)
  have v3 := (show swaptionValue m b root = _ from (by rw [hba]; rfl : swaptionValue m b root = _).trans h3)
  have n2 : 0 ≤ swaptionValue m p root := by
    rw [v2]
    refine mul_nonneg hf (mul_nonneg (Real.exp_pos _).le (hnn _ (fun r => ?_) _ _))
    rw [if_pos rfl]
    exact le_max_right _ _
  have e3 : swaptionValue m b root = -swaptionValue m p root := by rw [v3, v2, neg_mul]
  refine ⟨?_, ?_, e3, by rw [hba]⟩
  · rw [v1, haa.2, hfg]
    refine mul_nonneg hf (mul_nonneg (Real.exp_pos _).le (hnn _ (fun r => ?_) _ _))
    rw [haa.1, if_neg (by simp)]
    exact le_max_right _ _
  · rw [e3]; exact neg_nonpos.2 n2

/-- The stored form of a receiver swap. -/
example : (swaptionFromProtos [(⟨pSwaps[1], (2021, 1, 1), "s", "swaption"⟩ : SwaptionProto ℚ)]).toOption.map
    (fun d => d.map (fun q => q.1.pay)) = some [.fixed ⟨["EUR"], (.MONTH, [1]), [-200], [6 / 100], [2], .FOLLOWING, .ACTUAL_365, 2⟩] := by
  decide +kernel

/-- Two swaptions on the swap of the example, the expiry one year from the valuation. -/
example : (swaptionArgs (⟨.fixed pFixedLeg, .floating pFloatLeg, none⟩ : Swap ℚ) (pDate 2021 1 1) (pDate 2020 1 1)).toOption =
    some ⟨366 / 365, [366 / 365, 456 / 365], [456 / 365, 547 / 365], [547 / 365], [90 / 365, 91 / 365], [181 / 365], [5 / 100], true, 100⟩ ∧
    (swaptionArgs (⟨.floating pFloatLeg, .fixed pFixedLeg, none⟩ : Swap ℚ) (pDate 2021 1 1) (pDate 2020 1 1)).toOption.map
      (fun a => a.isPayer) = some false := by
  decide +kernel

example : roundHalfEven (5 / 2 : ℚ) = 2 ∧ roundHalfEven (7 / 2 : ℚ) = 4 ∧ roundHalfEven (-8 / 3 : ℚ) = -3 := by decide +kernel

end Props
