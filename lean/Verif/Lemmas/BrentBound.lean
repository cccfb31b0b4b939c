import Verif.Lemmas.Brent

/-! The steps of Brent's method: each is a bisection or at most half as long as the step before the last one. -/

namespace Lemmas
open Model
variable {K : Type} [Field K] [LinearOrder K] [IsStrictOrderedRing K]

/-- What a step of an unfinished search does, by its kind. -/
theorem move_kind (p : BrentParams K) (lo hi W : K) (f : K → K) (s : BrentState K) (h : BrentMid f lo hi W p.absTol s)
    (ha : 0 < p.absTol) (hr : 0 ≤ p.relTol) (hf : (brentMove p s).finished = false) :
    ∃ δ, (brentMove p s).best = s.best + δ ∧ 0 < δ * (s.contra - s.best) ∧
      |δ| + rootTolerance p s ≤ |s.contra - s.best| ∧
      ((δ = bisectionStep s ∧ (brentMove p s).stepToBest = bisectionStep s ∧ (brentMove p s).stepToLast = bisectionStep s) ∨
       (rootTolerance p s < |s.stepToLast| ∧ 2 * |(brentMove p s).stepToBest| < |s.stepToLast| ∧
        (brentMove p s).stepToLast = s.stepToBest ∧
        (δ = (brentMove p s).stepToBest ∨ |δ| = rootTolerance p s))) := by
  have hfin := hf
  rw [move_finished] at hfin
  simp only [Bool.or_eq_false_iff, decide_eq_false_iff_not, not_le, not_lt] at hfin
  obtain ⟨hs, ⟨hmax, hbis⟩, hfun⟩ := hfin
  have hat : p.absTol / 2 ≤ rootTolerance p s := by
    unfold rootTolerance
    have := mul_nonneg hr (abs_nonneg s.best)
    linarith
  have ht0 : 0 < rootTolerance p s := by linarith
  have hw : |s.contra - s.best| = 2 * |bisectionStep s| := by
    unfold bisectionStep
    rw [abs_mul, abs_of_pos (by norm_num : (0 : K) < 1 / 2)]; ring
  have hcb : s.contra - s.best ≠ 0 := by
    intro h0; rw [h0, abs_zero] at hw; linarith
  have hff : (s.finished || (decide (p.maxIterations ≤ s.numIterations) ||
    decide (|bisectionStep s| < rootTolerance p s) || decide (|s.vBest| ≤ p.funTol))) = false := hf
  obtain ⟨cs, hcs⟩ : ∃ cs, cs = (decide (rootTolerance p s < |s.stepToLast|) && decide (|s.vBest| < |s.vLast|)) := ⟨_, rfl⟩
  obtain ⟨short, hsh⟩ : ∃ short, short = (if cs = true then (if s.last = s.contra then secantStep s.best s.last s.vBest s.vLast
             else quadraticStep s.vBest s.vLast s.vContra s.best s.last s.contra) else 0) := ⟨_, rfl⟩
  obtain ⟨us, hus⟩ : ∃ us, us = (if cs = true then decide (2 * |short| < min (3 * |bisectionStep s| - rootTolerance p s) |s.stepToLast|)
           else false) := ⟨_, rfl⟩
  have hstep : (brentMove p s).stepToBest = if us = true then short else bisectionStep s := by
    conv_lhs => unfold brentMove
    simp only [hff]
    rw [hus, hsh, hcs]
    simp
  have hlast : (brentMove p s).stepToLast = if us = true then s.stepToBest else bisectionStep s := by
    conv_lhs => unfold brentMove
    simp only [hff]
    rw [hus, hsh, hcs]
    simp
  have hbest : (brentMove p s).best = s.best + (if rootTolerance p s < |(brentMove p s).stepToBest| then (brentMove p s).stepToBest
         else if 0 < bisectionStep s then rootTolerance p s else -rootTolerance p s) := by
    rw [hstep]
    conv_lhs => unfold brentMove
    simp only [hff]
    rw [hus, hsh, hcs]
    simp
  generalize brentMove p s = s' at *
  set t := rootTolerance p s with ht
  have htol : 0 < (if 0 < bisectionStep s then t else -t) * (s.contra - s.best) ∧
      |if 0 < bisectionStep s then t else -t| = t := by
    have hbe : s.contra - s.best = 2 * bisectionStep s := by unfold bisectionStep; ring
    split
    · rename_i h0
      exact ⟨by rw [hbe]; positivity, abs_of_pos ht0⟩
    · rename_i h0
      have hneg : bisectionStep s < 0 := by
        rcases lt_trichotomy (bisectionStep s) 0 with h | h | h
        · exact h
        · exact absurd (by rw [hbe, h, mul_zero]) hcb
        · exact absurd h h0
      refine ⟨?_, by rw [abs_neg, abs_of_pos ht0]⟩
      rw [hbe]
      have := mul_pos_of_neg_of_neg (neg_lt_zero.2 ht0) hneg
      linarith
  have hbisdir : 0 < bisectionStep s * (s.contra - s.best) := by
    have hbe : bisectionStep s * (s.contra - s.best) = 1 / 2 * ((s.contra - s.best) * (s.contra - s.best)) := by
      unfold bisectionStep; ring
    rw [hbe]
    have := mul_self_pos.2 hcb
    linarith
  by_cases hu : us = true
  · rw [if_pos hu] at hstep hlast
    have hc : cs = true := by
      by_contra hc; rw [hus, if_neg hc] at hu; exact absurd hu (by decide)
    rw [hus, if_pos hc, decide_eq_true_eq] at hu
    rw [hc] at hcs
    have hcs' := hcs.symm
    simp only [Bool.and_eq_true, decide_eq_true_eq] at hcs'
    have hu1 := lt_of_lt_of_le hu (min_le_left _ _)
    have hu2 := lt_of_lt_of_le hu (min_le_right _ _)
    rw [hstep] at hbest
    by_cases hbig : t < |short|
    · rw [if_pos hbig] at hbest
      refine ⟨short, hbest, ?_, by rw [hw]; linarith, Or.inr ⟨hcs'.1, by rw [hstep]; exact hu2, hlast, Or.inl hstep.symm⟩⟩
      rw [if_pos hc] at hsh
      by_cases hlc : s.last = s.contra
      · rw [if_pos hlc] at hsh
        rw [hsh]
        rcases secant_direction s.best s.last s.vBest s.vLast (by rw [h.vb, h.vl, hlc]; exact h.sign) with hd | hd
        · rw [← hlc]; exact hd
        · exfalso; apply hcb; rw [← hlc, hd, sub_self]
      · rw [if_neg hlc] at hsh
        rw [hsh]
        rcases h.side with h' | ⟨h', h''⟩
        · exact absurd h' hlc
        · apply quadratic_direction _ _ _ _ _ _ h'
          · rw [h.vb, h.vc]; exact h.sign
          · rw [h.vb, h.vl]; exact h''
          · exact hcs'.2
    · rw [if_neg hbig] at hbest
      exact ⟨_, hbest, htol.1, by rw [htol.2, hw]; linarith,
        Or.inr ⟨hcs'.1, by rw [hstep]; exact hu2, hlast, Or.inr htol.2⟩⟩
  · rw [if_neg hu] at hstep hlast
    rw [hstep] at hbest
    refine ⟨bisectionStep s, ?_, hbisdir, by rw [hw]; linarith, Or.inl ⟨rfl, hstep, hlast⟩⟩
    by_cases hbig : t < |bisectionStep s|
    · rw [if_pos hbig] at hbest; exact hbest
    · rw [if_neg hbig] at hbest
      have he : |bisectionStep s| = t := le_antisymm (not_lt.1 hbig) hbis
      rw [hbest]
      congr 1
      split
      · rename_i h0; rw [← he, abs_of_pos h0]
      · rename_i h0; rw [← he, abs_of_nonpos (not_lt.1 h0), neg_neg]

omit [IsStrictOrderedRing K] in
/-- The replacements of the next iteration: the steps are kept, or both are the last move. -/
theorem replace_kind (s : BrentState K) (hf : s.finished = false) :
    ((brentSwap (brentReplaceContra s)).stepToLast = s.stepToLast ∧
      (brentSwap (brentReplaceContra s)).stepToBest = s.stepToBest ∧
      |(brentSwap (brentReplaceContra s)).contra - (brentSwap (brentReplaceContra s)).best| = |s.contra - s.best| ∧
      ¬ s.vLast * s.vBest < 0) ∨
    ((brentSwap (brentReplaceContra s)).stepToLast = s.best - s.last ∧
      (brentSwap (brentReplaceContra s)).stepToBest = s.best - s.last ∧
      |(brentSwap (brentReplaceContra s)).contra - (brentSwap (brentReplaceContra s)).best| = |s.best - s.last| ∧
      ((brentSwap (brentReplaceContra s)).best = s.best ∨ (brentSwap (brentReplaceContra s)).best = s.last)) := by
  have key : ∀ t : BrentState K, t.finished = false → (brentSwap t).stepToLast = t.stepToLast ∧
      (brentSwap t).stepToBest = t.stepToBest ∧
      |(brentSwap t).contra - (brentSwap t).best| = |t.contra - t.best| ∧
      ((brentSwap t).best = t.best ∨ (brentSwap t).best = t.contra) := by
    intro t tf
    by_cases hc : |t.vContra| < |t.vBest|
    · have he : brentSwap t = { t with
          last := t.best
          best := t.contra
          contra := t.best
          vLast := t.vBest
          vBest := t.vContra
          vContra := t.vBest } := by
        unfold brentSwap; simp [tf, hc]
      rw [he]
      exact ⟨rfl, rfl, abs_sub_comm _ _, Or.inr rfl⟩
    · have he : brentSwap t = t := by
        unfold brentSwap; simp [tf, hc]; rw [← tf]
      rw [he]
      exact ⟨rfl, rfl, rfl, Or.inl rfl⟩
  by_cases hc : s.vLast * s.vBest < 0
  · right
    have he : brentReplaceContra s = { s with
        contra := s.last
        vContra := s.vLast
        stepToLast := s.best - s.last
        stepToBest := s.best - s.last } := by
      unfold brentReplaceContra; simp [hf, hc]
    rw [he]
    obtain ⟨k1, k2, k3, k4⟩ := key { s with
        contra := s.last
        vContra := s.vLast
        stepToLast := s.best - s.last
        stepToBest := s.best - s.last } hf
    exact ⟨k1, k2, by rw [k3, abs_sub_comm], k4⟩
  · left
    have he : brentReplaceContra s = s := by
      unfold brentReplaceContra; simp [hf, hc]; rw [← hf]
    rw [he]
    obtain ⟨k1, k2, k3, k4⟩ := key s hf
    exact ⟨k1, k2, k3, hc⟩

/-- Two successive iterations of an unfinished search: the bracket is halved and no step is longer than half of the bracket, or
the bracket does not grow and the newest step is less than half of the step before the last one. -/
theorem two_moves (p : BrentParams K) (lo hi W : K) (f : K → K) (m : BrentState K) (h : BrentMid f lo hi W p.absTol m)
    (ha : 0 < p.absTol) (hr : 0 ≤ p.relTol) (hr1 : p.relTol < 1) (hf : (brentMove p m).finished = false)
    (m' : BrentState K) (hm' : m' = brentSwap (brentReplaceContra (brentMove p m)))
    (hf' : (brentMove p m').finished = false) :
    (2 * |m'.contra - m'.best| ≤ |m.contra - m.best| ∧ 2 * |m'.stepToLast| ≤ |m.contra - m.best| ∧
      2 * |m'.stepToBest| ≤ |m.contra - m.best|) ∨
    (|m'.contra - m'.best| ≤ |m.contra - m.best| ∧ p.absTol / 2 < |m.stepToLast| ∧
      2 * |m'.stepToBest| ≤ |m.stepToLast| ∧ (|m'.stepToLast| ≤ |m.stepToBest| ∨ 2 * |m'.stepToLast| ≤ |m.stepToLast|)) := by
  obtain ⟨δ, d1, d2, d3, d4⟩ := move_kind p lo hi W f m h ha hr hf
  have hat : p.absTol / 2 ≤ rootTolerance p m := by
    unfold rootTolerance
    have := mul_nonneg hr (abs_nonneg m.best)
    linarith
  have ht0 : 0 < rootTolerance p m := by linarith
  have hw : |m.contra - m.best| = 2 * |bisectionStep m| := by
    unfold bisectionStep
    rw [abs_mul, abs_of_pos (by norm_num : (0 : K) < 1 / 2)]; ring
  have hcon : (brentMove p m).contra = m.contra := rfl
  have hff : (m.finished || (decide (p.maxIterations ≤ m.numIterations) ||
      decide (|bisectionStep m| < rootTolerance p m) || decide (|m.vBest| ≤ p.funTol))) = false := hf
  have hlst : (brentMove p m).last = m.best := by unfold brentMove; simp only [hff]; simp
  -- the other part of the bracket
  have hrest : |m.contra - (m.best + δ)| = |m.contra - m.best| - |δ| := by
    rcases mul_pos_iff.1 d2 with ⟨p1, p2⟩ | ⟨p1, p2⟩
    · rw [abs_of_pos p1, abs_of_pos p2] at d3 ⊢
      rw [abs_of_nonneg (by linarith)]; ring
    · rw [abs_of_neg p1, abs_of_neg p2] at d3 ⊢
      rw [abs_of_nonpos (by linarith)]; ring
  have hδ0 := abs_nonneg δ
  have hkind := replace_kind (brentMove p m) hf
  rw [← hm', hcon, hlst, d1] at hkind
  have hdiff : m.best + δ - m.best = δ := by ring
  rw [hdiff] at hkind
  rcases d4 with ⟨e1, e2, e3⟩ | ⟨e0, e1, e2, e3⟩
  · left
    rw [e2, e3] at hkind
    rcases hkind with ⟨k1, k2, k3, _⟩ | ⟨k1, k2, k3, _⟩
    · rw [k1, k2, k3, hrest, hw, e1]
      exact ⟨by linarith, le_refl _, le_refl _⟩
    · rw [k1, k2, k3, hw, e1]
      exact ⟨le_refl _, le_refl _, le_refl _⟩
  · right
    rw [e2] at hkind
    rcases hkind with ⟨k1, k2, k3, _⟩ | ⟨k1, k2, k3, k4⟩
    · rw [k1, k2, k3, hrest]
      exact ⟨by linarith, by linarith, e1.le, Or.inl (le_refl _)⟩
    · rcases e3 with e3 | e3
      · rw [k1, k2, k3, e3]
        rw [e3] at d3
        exact ⟨by linarith, by linarith, e1.le, Or.inr e1.le⟩
      · -- a step of the length of the tolerance over the root ends the search
        exfalso
        rw [move_finished] at hf'
        simp only [Bool.or_eq_false_iff, decide_eq_false_iff_not, not_le, not_lt] at hf'
        have hb := hf'.2.1.2
        unfold bisectionStep at hb
        rw [abs_mul, abs_of_pos (by norm_num : (0 : K) < 1 / 2), k3, e3] at hb
        have hnear : rootTolerance p m - p.relTol * rootTolerance p m / 2 ≤ rootTolerance p m' := by
          rcases k4 with k4 | k4
          · have : |m.best| - |δ| ≤ |m'.best| := by
              rw [k4]
              have := abs_sub_abs_le_abs_sub m.best (m.best + δ)
              rw [show m.best - (m.best + δ) = -δ by ring, abs_neg] at this
              linarith
            rw [e3] at this
            have := mul_le_mul_of_nonneg_left this hr
            unfold rootTolerance at this ⊢
            linarith
          · have : rootTolerance p m' = rootTolerance p m := by unfold rootTolerance; rw [k4]
            rw [this]
            have := mul_nonneg hr ht0.le
            linarith
        have : p.relTol * rootTolerance p m < 1 * rootTolerance p m := mul_lt_mul_of_pos_right hr1 ht0
        linarith

/-- The iterates: number of bisections `i` so far, number `j` of steps since. -/
theorem iterate_log (p : BrentParams K) (left right : K) (L : Nat) (ha : 0 < p.absTol) (hr : 0 ≤ p.relTol) (hr1 : p.relTol < 1)
    (hft : 0 ≤ p.funTol) (hL : max left right - min left right ≤ p.absTol * 2 ^ L)
    (hinv : ∀ k, BrentLoopInv p p.objective (min left right) (max left right) ((brentBody p)^[k] (brentInit p left right)))
    (k : Nat) (hk : ((brentBody p)^[k + 1] (brentInit p left right)).finished = false) :
    ∃ i j : Nat, i ≤ L ∧ 2 * i + j ≤ 2 * L + 2 ∧ k + i * i ≤ i * (2 * L + 4) + j ∧
      |(brentSwap (brentReplaceContra ((brentBody p)^[k] (brentInit p left right)))).contra -
        (brentSwap (brentReplaceContra ((brentBody p)^[k] (brentInit p left right)))).best| * 2 ^ i ≤ p.absTol * 2 ^ L ∧
      |(brentSwap (brentReplaceContra ((brentBody p)^[k] (brentInit p left right)))).stepToLast| * 2 ^ (i + j / 2) ≤ p.absTol * 2 ^ L ∧
      |(brentSwap (brentReplaceContra ((brentBody p)^[k] (brentInit p left right)))).stepToBest| * 2 ^ (i + (j + 1) / 2) ≤ p.absTol * 2 ^ L := by
  have hlive : ∀ k, ((brentBody p)^[k + 1] (brentInit p left right)).finished = false →
      ((brentBody p)^[k] (brentInit p left right)).finished = false := by
    intro k hk
    by_contra hc
    rw [Function.iterate_succ_apply'] at hk
    have := (body_of_finished p _ (by simpa using hc)).1
    rw [this] at hk; exact absurd hk (by decide)
  have hmid : ∀ k, ((brentBody p)^[k + 1] (brentInit p left right)).finished = false →
      BrentMid p.objective (min left right) (max left right) (max left right - min left right) p.absTol
        (brentSwap (brentReplaceContra ((brentBody p)^[k] (brentInit p left right)))) := by
    intro k hk
    have hl := hlive k hk
    have hv := (hinv k).live hl
    apply mid_of_inv _ _ _ _ _ _ hv hl
    intro h0
    have hv0 : ((brentBody p)^[k] (brentInit p left right)).vBest = 0 := by rw [hv.vb, h0]
    rw [Function.iterate_succ_apply'] at hk
    obtain ⟨_, r2, _⟩ := replace_of_root _ hv0
    unfold brentBody at hk
    rw [move_finished] at hk
    simp only [Bool.or_eq_false_iff, decide_eq_false_iff_not] at hk
    apply hk.2.2
    have := r2
    unfold brentBody at this hv0
    rw [this, hv0, abs_zero]
    exact hft
  -- the bracket of an unfinished search is not shorter than the tolerance
  have hwide : ∀ m : BrentState K, (brentMove p m).finished = false → p.absTol ≤ |m.contra - m.best| := by
    intro m hm
    rw [move_finished] at hm
    simp only [Bool.or_eq_false_iff, decide_eq_false_iff_not, not_le, not_lt] at hm
    have hb := hm.2.1.2
    unfold bisectionStep rootTolerance at hb
    rw [abs_mul, abs_of_pos (by norm_num : (0 : K) < 1 / 2)] at hb
    have := mul_nonneg hr (abs_nonneg m.best)
    linarith
  have hpow : ∀ a b : Nat, p.absTol * 2 ^ a ≤ p.absTol * 2 ^ b → a ≤ b := by
    intro a b hab
    have := le_of_mul_le_mul_left hab ha
    exact (pow_le_pow_iff_right₀ (by norm_num : (1 : K) < 2)).1 this
  have hpow' : ∀ a b : Nat, p.absTol * 2 ^ a < p.absTol * 2 ^ b → a < b := by
    intro a b hab
    have := lt_of_mul_lt_mul_left hab ha.le
    exact (pow_lt_pow_iff_right₀ (by norm_num : (1 : K) < 2)).1 this
  induction k with
  | zero =>
    have hl := hlive 0 hk
    have hm := hmid 0 hk
    have hv := (hinv 0).live hl
    simp only [Function.iterate_zero, id_eq] at hm hl hv ⊢
    have hw := hm.width
    rw [replace_num] at hw
    have h0 : (brentInit p left right).numIterations = 0 := rfl
    rw [h0] at hw
    simp only [Nat.cast_zero, zero_mul, zero_add] at hw
    have hle := le_trans hw hL
    refine ⟨0, 0, Nat.zero_le _, by omega, by omega, by simpa using hle, ?_, ?_⟩
    all_goals simp only [Nat.zero_div, add_zero, pow_zero, mul_one, zero_add]
    all_goals
      rcases replace_kind _ hl with ⟨k1, k2, k3, k4⟩ | ⟨k1, k2, k3, k4⟩
    · rw [k1]; show |(0 : K)| ≤ _; rw [abs_zero]; positivity
    · rw [k1, ← k3]; exact hle
    · rw [k2]; show |(0 : K)| * _ ≤ _; rw [abs_zero, zero_mul]; positivity
    · rw [k2, ← k3]; simpa using hle
  | succ k ih =>
    have hk1 := hlive (k + 1) hk
    obtain ⟨i, j, i1, i2, i3, i4, i5, i6⟩ := ih hk1
    have hm := hmid k hk1
    have e1 : (brentBody p)^[k + 1] (brentInit p left right) = brentMove p (brentSwap (brentReplaceContra ((brentBody p)^[k] (brentInit p left right)))) := by
      rw [Function.iterate_succ_apply']; rfl
    have e2 : (brentBody p)^[k + 1 + 1] (brentInit p left right) = brentMove p (brentSwap (brentReplaceContra ((brentBody p)^[k + 1] (brentInit p left right)))) := by
      rw [Function.iterate_succ_apply']; rfl
    have hf1 : (brentMove p (brentSwap (brentReplaceContra ((brentBody p)^[k] (brentInit p left right))))).finished = false := by
      rw [← e1]; exact hk1
    have hf2 : (brentMove p (brentSwap (brentReplaceContra ((brentBody p)^[k + 1] (brentInit p left right))))).finished = false := by
      rw [← e2]; exact hk
    have htwo := two_moves p _ _ _ _ _ hm ha hr hr1 hf1 _ (by rw [← e1]) hf2
    have hw1 := hwide _ hf1
    have hw2 := hwide _ hf2
    generalize brentSwap (brentReplaceContra ((brentBody p)^[k] (brentInit p left right))) = m at *
    generalize brentSwap (brentReplaceContra ((brentBody p)^[k + 1] (brentInit p left right))) = m' at *
    have two_pos : ∀ n : Nat, (0 : K) < 2 ^ n := fun n => by positivity
    rcases htwo with ⟨t1, t2, t3⟩ | ⟨t1, t2, t3, t4⟩
    · have b1 : |m'.contra - m'.best| * 2 ^ (i + 1) ≤ p.absTol * 2 ^ L := by
        have := mul_le_mul_of_nonneg_right t1 (two_pos i).le
        rw [pow_succ]; linarith
      have b2 : |m'.stepToLast| * 2 ^ (i + 1) ≤ p.absTol * 2 ^ L := by
        have := mul_le_mul_of_nonneg_right t2 (two_pos i).le
        rw [pow_succ]; linarith
      have b3 : |m'.stepToBest| * 2 ^ (i + 1) ≤ p.absTol * 2 ^ L := by
        have := mul_le_mul_of_nonneg_right t3 (two_pos i).le
        rw [pow_succ]; linarith
      have hi' : i + 1 ≤ L := by
        apply hpow
        have := mul_le_mul_of_nonneg_right hw2 (two_pos (i + 1)).le
        linarith
      refine ⟨i + 1, 0, hi', by omega, ?_, b1, by simpa using b2, by simpa using b3⟩
      nlinarith
    · have b1 : |m'.contra - m'.best| * 2 ^ i ≤ p.absTol * 2 ^ L := by
        have := mul_le_mul_of_nonneg_right t1 (two_pos i).le
        linarith
      have hij : i + j / 2 ≤ L := by
        have : i + j / 2 < L + 1 := by
          apply hpow'
          have := mul_lt_mul_of_pos_right t2 (two_pos (i + j / 2))
          rw [pow_succ]; linarith
        omega
      have b3 : |m'.stepToBest| * 2 ^ (i + (j + 1 + 1) / 2) ≤ p.absTol * 2 ^ L := by
        have := mul_le_mul_of_nonneg_right t3 (two_pos (i + j / 2)).le
        rw [show i + (j + 1 + 1) / 2 = i + j / 2 + 1 by omega, pow_succ]; linarith
      have b2 : |m'.stepToLast| * 2 ^ (i + (j + 1) / 2) ≤ p.absTol * 2 ^ L := by
        rcases t4 with t4 | t4
        · have := mul_le_mul_of_nonneg_right t4 (two_pos (i + (j + 1) / 2)).le
          linarith
        · have h1 := mul_le_mul_of_nonneg_right t4 (two_pos (i + j / 2)).le
          have h2 : |m'.stepToLast| * 2 ^ (i + (j + 1) / 2) ≤ |m'.stepToLast| * 2 ^ (i + j / 2 + 1) := by
            apply mul_le_mul_of_nonneg_left _ (abs_nonneg _)
            exact pow_le_pow_right₀ (by norm_num) (by omega)
          rw [pow_succ] at h2; linarith
      exact ⟨i, j + 1, i1, by omega, by omega, b1, b2, b3⟩

/-- A search that is still going on has made at most `(L + 1) * (L + 3)` iterations. -/
theorem iterate_bound (p : BrentParams K) (left right : K) (L : Nat) (ha : 0 < p.absTol) (hr : 0 ≤ p.relTol) (hr1 : p.relTol < 1)
    (hft : 0 ≤ p.funTol) (hL : max left right - min left right ≤ p.absTol * 2 ^ L)
    (hinv : ∀ k, BrentLoopInv p p.objective (min left right) (max left right) ((brentBody p)^[k] (brentInit p left right)))
    (k : Nat) (hk : ((brentBody p)^[k] (brentInit p left right)).finished = false) :
    k ≤ (L + 1) * (L + 3) := by
  cases k with
  | zero => exact Nat.zero_le _
  | succ k =>
    obtain ⟨i, j, i1, i2, i3, _⟩ := iterate_log p left right L ha hr hr1 hft hL hinv k hk
    obtain ⟨d, rfl⟩ := Nat.exists_eq_add_of_le i1
    nlinarith [mul_self_nonneg (d : ℤ)]

end Lemmas
