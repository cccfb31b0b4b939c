import Verif.Model.Brent
import Mathlib.Algebra.Order.Field.Basic
import Mathlib.Logic.Function.Iterate
import Mathlib.Tactic.Linarith
import Mathlib.Tactic.Ring
import Mathlib.Tactic.FieldSimp
import Mathlib.Tactic.Positivity
import Mathlib.Tactic.LinearCombination
import Mathlib.Tactic.ByContra

/-! Loop invariant of Brent's method. -/

namespace Lemmas
open Model
variable {K : Type} [Field K] [LinearOrder K] [IsStrictOrderedRing K]

/-- `b` lies strictly between `l` and `c`. -/
def Btw (l b c : K) : Prop := (l < b ∧ b < c) ∨ (c < b ∧ b < l)

/-- The state after the replacements, before the move. -/
structure BrentMid (f : K → K) (lo hi W a : K) (s : BrentState K) : Prop where
  vb : s.vBest = f s.best
  vl : s.vLast = f s.last
  vc : s.vContra = f s.contra
  b : lo ≤ s.best ∧ s.best ≤ hi
  l : lo ≤ s.last ∧ s.last ≤ hi
  c : lo ≤ s.contra ∧ s.contra ≤ hi
  sign : f s.best * f s.contra < 0
  smaller : |f s.best| ≤ |f s.contra|
  side : s.last = s.contra ∨ (Btw s.last s.best s.contra ∧ 0 < f s.last * f s.best)
  width : s.numIterations * (a / 2) + |s.contra - s.best| ≤ W

/-- The state at the start of the loop body. -/
structure BrentInv (f : K → K) (lo hi W a : K) (s : BrentState K) : Prop where
  vb : s.vBest = f s.best
  vl : s.vLast = f s.last
  b : lo ≤ s.best ∧ s.best ≤ hi
  l : lo ≤ s.last ∧ s.last ≤ hi
  bracket : f s.best = 0 ∨
    (f s.last * f s.best < 0 ∧ s.numIterations * (a / 2) + |s.last - s.best| ≤ W) ∨
    (s.vContra = f s.contra ∧ (lo ≤ s.contra ∧ s.contra ≤ hi) ∧ f s.last * f s.contra < 0 ∧ Btw s.last s.best s.contra ∧
      s.numIterations * (a / 2) + |s.last - s.best| ≤ W ∧ s.numIterations * (a / 2) + |s.contra - s.best| ≤ W)

theorem replace_finished (s : BrentState K) : (brentSwap (brentReplaceContra s)).finished = s.finished := by
  unfold brentSwap brentReplaceContra; rfl

theorem replace_num (s : BrentState K) : (brentSwap (brentReplaceContra s)).numIterations = s.numIterations := by
  unfold brentSwap brentReplaceContra; rfl

/-- On a finished search the replacements do nothing visible. -/
theorem replace_of_finished (s : BrentState K) (h : s.finished = true) :
    (brentSwap (brentReplaceContra s)).best = s.best ∧ (brentSwap (brentReplaceContra s)).vBest = s.vBest ∧
    (brentSwap (brentReplaceContra s)).last = s.last ∧ (brentSwap (brentReplaceContra s)).vLast = s.vLast ∧
    (brentSwap (brentReplaceContra s)).contra = s.contra ∧ (brentSwap (brentReplaceContra s)).vContra = s.vContra := by
  unfold brentSwap brentReplaceContra
  simp [h]

/-- With a root at the best estimate, the replacements keep it. -/
theorem replace_of_root (s : BrentState K) (h : s.vBest = 0) :
    (brentSwap (brentReplaceContra s)).best = s.best ∧ (brentSwap (brentReplaceContra s)).vBest = s.vBest ∧
    (brentSwap (brentReplaceContra s)).last = s.last ∧ (brentSwap (brentReplaceContra s)).vLast = s.vLast := by
  have h1 : ¬ (|s.vContra| < 0) := not_lt.2 (abs_nonneg _)
  have h2 : ¬ (|s.vContra| < |s.vBest|) := by rw [h, abs_zero]; exact h1
  unfold brentSwap brentReplaceContra
  simp [h, h1]

theorem btw_symm {l b c : K} (h : Btw l b c) : Btw c b l := by
  rcases h with ⟨h1, h2⟩ | ⟨h1, h2⟩
  · exact Or.inr ⟨h1, h2⟩
  · exact Or.inl ⟨h1, h2⟩

/-- The replacements establish the bracket between best estimate and contrapoint. -/
theorem mid_of_inv (f : K → K) (lo hi W a : K) (s : BrentState K) (h : BrentInv f lo hi W a s) (hf : s.finished = false)
    (hb : f s.best ≠ 0) : BrentMid f lo hi W a (brentSwap (brentReplaceContra s)) := by
  -- after the first phase
  have key : ∀ t : BrentState K, t.finished = false → t.vBest = f t.best → t.vLast = f t.last → t.vContra = f t.contra →
      (lo ≤ t.best ∧ t.best ≤ hi) → (lo ≤ t.last ∧ t.last ≤ hi) → (lo ≤ t.contra ∧ t.contra ≤ hi) →
      f t.best * f t.contra < 0 →
      (t.last = t.contra ∨ (Btw t.last t.best t.contra ∧ 0 < f t.last * f t.best)) →
      t.numIterations * (a / 2) + |t.contra - t.best| ≤ W → BrentMid f lo hi W a (brentSwap t) := by
    intro t tf t1 t2 t3 t4 t5 t6 t7 t8 t9
    by_cases hc : |t.vContra| < |t.vBest|
    · have he : brentSwap t = { t with
          last := t.best
          best := t.contra
          contra := t.best
          vLast := t.vBest
          vBest := t.vContra
          vContra := t.vBest } := by
        unfold brentSwap; simp [tf, hc]
      rw [he]
      refine ⟨t3, t1, t1, t6, t4, t4, by simpa [mul_comm] using t7, ?_, Or.inl rfl, ?_⟩
      · show |f t.contra| ≤ |f t.best|
        rw [← t3, ← t1]; exact hc.le
      · show t.numIterations * (a / 2) + |t.best - t.contra| ≤ W
        rw [abs_sub_comm]; exact t9
    · have he : brentSwap t = t := by
        unfold brentSwap; simp [tf, hc]; rw [← tf]
      rw [he]
      exact ⟨t1, t2, t3, t4, t5, t6, t7, by rw [← t1, ← t3]; exact not_lt.1 hc, t8, t9⟩
  by_cases hc : s.vLast * s.vBest < 0
  · have he : brentReplaceContra s = { s with
        contra := s.last
        vContra := s.vLast
        stepToLast := s.best - s.last
        stepToBest := s.best - s.last } := by
      unfold brentReplaceContra; simp [hf, hc]
    have hw : s.numIterations * (a / 2) + |s.last - s.best| ≤ W := by
      rcases h.bracket with h0 | h1 | h2
      · exact absurd h0 hb
      · exact h1.2
      · exact h2.2.2.2.2.1
    rw [he]
    apply key
    · exact hf
    · exact h.vb
    · exact h.vl
    · exact h.vl
    · exact h.b
    · exact h.l
    · exact h.l
    · show f s.best * f s.last < 0
      rw [mul_comm, ← h.vb, ← h.vl]; exact hc
    · exact Or.inl rfl
    · exact hw
  · have he : brentReplaceContra s = s := by
      unfold brentReplaceContra; simp [hf, hc]; rw [← hf]
    rw [he]
    rw [h.vb, h.vl] at hc
    rcases h.bracket with h0 | h1 | ⟨g1, g2, g3, g4, g5, g6⟩
    · exact absurd h0 hb
    · exact absurd h1.1 hc
    · have hl : f s.last ≠ 0 := by
        intro h0; rw [h0, zero_mul] at g3; exact lt_irrefl _ g3
      have hpos : 0 < f s.last * f s.best := lt_of_le_of_ne (not_lt.1 hc) (Ne.symm (mul_ne_zero hl hb))
      apply key s hf h.vb h.vl g1 h.b h.l g2 _ (Or.inr ⟨g4, hpos⟩) g6
      rcases mul_pos_iff.1 hpos with ⟨p1, p2⟩ | ⟨p1, p2⟩
      · have : f s.contra < 0 := by
          by_contra hcc
          have := mul_nonneg p1.le (not_lt.1 hcc)
          linarith
        exact mul_neg_of_pos_of_neg p2 this
      · have : 0 < f s.contra := by
          by_contra hcc
          have := mul_nonneg_of_nonpos_of_nonpos p1.le (not_lt.1 hcc)
          linarith
        exact mul_neg_of_neg_of_pos p2 this

/-- The secant step goes towards the contrapoint. -/
theorem secant_direction (x1 x2 y1 y2 : K) (h : y1 * y2 < 0) : 0 < secantStep x1 x2 y1 y2 * (x2 - x1) ∨ x1 = x2 := by
  by_cases hx : x1 = x2
  · right; exact hx
  · left
    unfold secantStep
    have hd : y1 - y2 ≠ 0 := by
      intro h0
      have : y1 = y2 := by linear_combination h0
      rw [this] at h
      nlinarith [mul_self_nonneg y2]
    have e : -y1 * (x1 - x2) / (y1 - y2) * (x2 - x1) = (x1 - x2) ^ 2 * (y1 * (y1 - y2)) / (y1 - y2) ^ 2 := by
      field_simp; ring
    rw [e]
    apply div_pos _ (by positivity)
    apply mul_pos
    · have := sub_ne_zero.2 hx; positivity
    · nlinarith [mul_self_nonneg y1]

/-- The step of inverse quadratic interpolation goes towards the contrapoint when the best estimate lies between the last
estimate and the contrapoint. -/
theorem quadratic_direction (b l c fb fl fc : K) (hbtw : Btw l b c) (h1 : fb * fc < 0) (h2 : 0 < fl * fb)
    (h3 : |fb| < |fl|) : 0 < quadraticStep fb fl fc b l c * (c - b) := by
  unfold quadraticStep
  simp only []
  have hlb : l - b ≠ 0 := by rcases hbtw with h | h <;> (intro h0; linarith [h.1, h.2])
  have hcb : c - b ≠ 0 := by rcases hbtw with h | h <;> (intro h0; linarith [h.1, h.2])
  have hprod : (l - b) * (c - b) < 0 := by
    rcases hbtw with h | h
    · nlinarith [h.1, h.2, mul_pos (sub_pos.2 h.1) (sub_pos.2 h.2)]
    · nlinarith [h.1, h.2, mul_pos (sub_pos.2 h.1) (sub_pos.2 h.2)]
  have hfb : fb ≠ 0 := by rintro rfl; simp at h1
  -- signs relative to fb
  have hl1 : 0 < (fl - fb) * fb := by
    have : fb * fb < fl * fb := by
      have e1 : |fl| * |fb| = fl * fb := by rw [← abs_mul, abs_of_pos h2]
      have e2 : |fb| * |fb| = fb * fb := abs_mul_abs_self fb
      rw [← e1, ← e2]
      exact mul_lt_mul_of_pos_right h3 (abs_pos.2 hfb)
    linarith
  have hc1 : (fc - fb) * fb < 0 := by nlinarith [mul_self_pos.2 hfb]
  have hcl : (fc - fl) * fb < 0 := by nlinarith
  have hc0 : fc - fb ≠ 0 := by rintro h; rw [h] at hc1; simp at hc1
  have hl0 : fl - fb ≠ 0 := by rintro h; rw [h] at hl1; simp at hl1
  have hcl0 : fc - fl ≠ 0 := by rintro h; rw [h] at hcl; simp at hcl
  have e : -fb * ((fc * ((fc - fb) / (c - b)) - fl * ((fl - fb) / (l - b))) /
      ((fc - fb) / (c - b) * ((fl - fb) / (l - b)) * (fc - fl))) * (c - b) =
      -fb * (fc * (fc - fb) * (l - b) - fl * (fl - fb) * (c - b)) * (c - b) / ((fc - fb) * (fl - fb) * (fc - fl)) := by
    field_simp
  rw [e]
  -- multiply numerator and denominator by fb^3
  have hden : 0 < (fc - fb) * (fl - fb) * (fc - fl) * fb := by
    have := mul_pos (mul_pos_of_neg_of_neg hc1 hcl) hl1
    have e2 : (fc - fb) * fb * ((fc - fl) * fb) * ((fl - fb) * fb) = (fc - fb) * (fl - fb) * (fc - fl) * fb * fb ^ 2 := by ring
    rw [e2] at this
    exact pos_of_mul_pos_left this (by positivity)
  have hnum : 0 < -fb * (fc * (fc - fb) * (l - b) - fl * (fl - fb) * (c - b)) * (c - b) * fb := by
    have t1 : 0 < fc * (fc - fb) := by
      have : 0 < (fb * fc) * ((fc - fb) * fb) := mul_pos_of_neg_of_neg h1 hc1
      have e3 : (fb * fc) * ((fc - fb) * fb) = fc * (fc - fb) * fb ^ 2 := by ring
      rw [e3] at this
      exact pos_of_mul_pos_left this (by positivity)
    have t2 : 0 < fl * (fl - fb) := by
      have : 0 < (fl * fb) * ((fl - fb) * fb) := mul_pos h2 hl1
      have e3 : (fl * fb) * ((fl - fb) * fb) = fl * (fl - fb) * fb ^ 2 := by ring
      rw [e3] at this
      exact pos_of_mul_pos_left this (by positivity)
    have t3 : 0 < (c - b) * (c - b) := mul_self_pos.2 hcb
    have e4 : -fb * (fc * (fc - fb) * (l - b) - fl * (fl - fb) * (c - b)) * (c - b) * fb =
        fb ^ 2 * (fc * (fc - fb) * (-((l - b) * (c - b))) + fl * (fl - fb) * ((c - b) * (c - b))) := by ring
    rw [e4]
    apply mul_pos (by positivity)
    have := mul_pos t1 (neg_pos.2 hprod)
    have := mul_pos t2 t3
    linarith
  have e5 : -fb * (fc * (fc - fb) * (l - b) - fl * (fl - fb) * (c - b)) * (c - b) / ((fc - fb) * (fl - fb) * (fc - fl)) =
      (-fb * (fc * (fc - fb) * (l - b) - fl * (fl - fb) * (c - b)) * (c - b) * fb) /
        ((fc - fb) * (fl - fb) * (fc - fl) * fb) := by
    field_simp
  rw [e5]
  exact div_pos hnum hden

/-- A step towards the contrapoint that is neither too short nor too long. -/
theorem step_between (b c δ t : K) (hdir : 0 < δ * (c - b)) (ht : 0 < t) (h1 : t ≤ |δ|) (h2 : |δ| + t ≤ |c - b|) :
    Btw b (b + δ) c ∧ |b - (b + δ)| + t ≤ |c - b| ∧ |c - (b + δ)| + t ≤ |c - b| := by
  have e1 : |b - (b + δ)| = |δ| := by rw [show b - (b + δ) = -δ by ring, abs_neg]
  refine ⟨?_, by rw [e1]; exact h2, ?_⟩
  · rcases mul_pos_iff.1 hdir with ⟨p1, p2⟩ | ⟨p1, p2⟩
    · left
      rw [abs_of_pos p1, abs_of_pos p2] at h2
      constructor <;> linarith
    · right
      rw [abs_of_neg p1, abs_of_neg p2] at h2
      constructor <;> linarith
  · rcases mul_pos_iff.1 hdir with ⟨p1, p2⟩ | ⟨p1, p2⟩
    · rw [abs_of_pos p1] at h1 h2
      rw [abs_of_pos p2] at h2 ⊢
      rw [abs_of_nonneg (by linarith)]
      linarith
    · rw [abs_of_neg p1] at h1 h2
      rw [abs_of_neg p2] at h2 ⊢
      rw [abs_of_nonpos (by linarith)]
      linarith

/-- The stopping flag computed by the move. -/
theorem move_finished (p : BrentParams K) (s : BrentState K) :
    (brentMove p s).finished = (s.finished || (decide (p.maxIterations ≤ s.numIterations) ||
      decide (|bisectionStep s| < rootTolerance p s) || decide (|s.vBest| ≤ p.funTol))) := rfl

/-- A search that stops stays where it is. -/
theorem move_of_finished (p : BrentParams K) (s : BrentState K) (h : (brentMove p s).finished = true) :
    (brentMove p s).best = s.best ∧ (brentMove p s).vBest = s.vBest ∧ (brentMove p s).last = s.last ∧
    (brentMove p s).vLast = s.vLast ∧ (brentMove p s).contra = s.contra ∧ (brentMove p s).vContra = s.vContra ∧
    (brentMove p s).numIterations = s.numIterations := by
  rw [move_finished] at h
  unfold brentMove
  simp only [h, if_true, add_zero]
  simp

/-- A step of an unfinished search. -/
theorem move_step (p : BrentParams K) (lo hi W a : K) (f : K → K) (s : BrentState K) (h : BrentMid f lo hi W a s)
    (ha : 0 < a) (hp : p.absTol = a) (hr : 0 ≤ p.relTol) (hobj : p.objective = f)
    (hf : (brentMove p s).finished = false) :
    BrentInv f lo hi W a (brentMove p s) ∧ (brentMove p s).numIterations = s.numIterations + 1 := by
  have hfin := hf
  rw [move_finished] at hfin
  simp only [Bool.or_eq_false_iff, decide_eq_false_iff_not, not_le, not_lt] at hfin
  obtain ⟨hs, ⟨hmax, hbis⟩, hfun⟩ := hfin
  set t := rootTolerance p s with ht
  have hat : a / 2 ≤ t := by
    rw [ht]; unfold rootTolerance
    have := mul_nonneg hr (abs_nonneg s.best)
    rw [hp]; linarith
  have ht0 : 0 < t := by linarith
  have hw : |s.contra - s.best| = 2 * |bisectionStep s| := by
    unfold bisectionStep
    rw [abs_mul, abs_of_pos (by norm_num : (0 : K) < 1 / 2)]; ring
  have hcb : s.contra - s.best ≠ 0 := by
    intro h0; rw [h0, abs_zero] at hw; linarith
  -- the step
  obtain ⟨δ, hδ, hdir, h1, h2⟩ : ∃ δ, (brentMove p s).best = s.best + δ ∧ 0 < δ * (s.contra - s.best) ∧ t ≤ |δ| ∧
      |δ| + t ≤ |s.contra - s.best| := by
    have hff : (s.finished || (decide (p.maxIterations ≤ s.numIterations) ||
      decide (|bisectionStep s| < rootTolerance p s) || decide (|s.vBest| ≤ p.funTol))) = false := hf
    have hbest : (brentMove p s).best = s.best +
        (let computeShort := decide (rootTolerance p s < |s.stepToLast|) && decide (|s.vBest| < |s.vLast|)
         let short := if computeShort then
            (if s.last = s.contra then secantStep s.best s.last s.vBest s.vLast
             else quadraticStep s.vBest s.vLast s.vContra s.best s.last s.contra)
            else 0
         let useShort := if computeShort then decide (2 * |short| < min (3 * |bisectionStep s| - rootTolerance p s) |s.stepToLast|)
           else false
         let stepToBest := if useShort then short else bisectionStep s
         if rootTolerance p s < |stepToBest| then stepToBest
         else if 0 < bisectionStep s then rootTolerance p s else -rootTolerance p s) := by
      conv_lhs => unfold brentMove
      simp only [hff]
      simp
    rw [← ht] at hbest
    simp only [] at hbest
    generalize hcs : (decide (t < |s.stepToLast|) && decide (|s.vBest| < |s.vLast|)) = cs at hbest
    generalize hsh : (if cs = true then (if s.last = s.contra then secantStep s.best s.last s.vBest s.vLast
             else quadraticStep s.vBest s.vLast s.vContra s.best s.last s.contra) else 0) = short at hbest
    -- tolerance step and bisection
    have htol : 0 < (if 0 < bisectionStep s then t else -t) * (s.contra - s.best) ∧
        |if 0 < bisectionStep s then t else -t| = t := by
      have hbe : s.contra - s.best = 2 * bisectionStep s := by unfold bisectionStep; ring
      split
      · rename_i h0
        exact ⟨by rw [hbe]; positivity, abs_of_pos ht0⟩
      · rename_i h0
        have hneg : bisectionStep s < 0 := by
          rcases lt_trichotomy (bisectionStep s) 0 with h | h | h
          · exact h
          · exact absurd (by rw [hbe, h, mul_zero]) hcb
          · exact absurd h h0
        refine ⟨?_, by rw [abs_neg, abs_of_pos ht0]⟩
        rw [hbe]
        have := mul_pos_of_neg_of_neg (neg_lt_zero.2 ht0) hneg
        linarith
    have hbisdir : 0 < bisectionStep s * (s.contra - s.best) := by
      have hbe : bisectionStep s * (s.contra - s.best) = 1 / 2 * ((s.contra - s.best) * (s.contra - s.best)) := by
        unfold bisectionStep; ring
      rw [hbe]
      have := mul_self_pos.2 hcb
      linarith
    by_cases hu : (if cs = true then decide (2 * |short| < min (3 * |bisectionStep s| - t) |s.stepToLast|) else false) = true
    · rw [if_pos hu] at hbest
      by_cases hbig : t < |short|
      · rw [if_pos hbig] at hbest
        refine ⟨short, hbest, ?_, hbig.le, ?_⟩
        · have hc : cs = true := by
            by_contra hc; simp [hc] at hu
          rw [hc] at hcs
          simp only [Bool.and_eq_true, decide_eq_true_eq] at hcs
          rw [hc, if_pos rfl] at hsh
          by_cases hlc : s.last = s.contra
          · rw [if_pos hlc] at hsh
            rw [← hsh]
            rcases secant_direction s.best s.last s.vBest s.vLast (by rw [h.vb, h.vl, hlc]; exact h.sign) with hd | hd
            · rw [← hlc]; exact hd
            · exfalso; apply hcb; rw [← hlc, hd, sub_self]
          · rw [if_neg hlc] at hsh
            rw [← hsh]
            rcases h.side with h' | ⟨h', h''⟩
            · exact absurd h' hlc
            · apply quadratic_direction _ _ _ _ _ _ h'
              · rw [h.vb, h.vc]; exact h.sign
              · rw [h.vb, h.vl]; exact h''
              · exact hcs.2
        · have hc : cs = true := by
            by_contra hc; simp [hc] at hu
          rw [hc, if_pos rfl, decide_eq_true_eq] at hu
          have := lt_of_lt_of_le hu (min_le_left _ _)
          rw [hw]; linarith
      · rw [if_neg hbig] at hbest
        exact ⟨_, hbest, htol.1, by rw [htol.2], by rw [htol.2, hw]; linarith⟩
    · rw [if_neg hu] at hbest
      by_cases hbig : t < |bisectionStep s|
      · rw [if_pos hbig] at hbest
        exact ⟨_, hbest, hbisdir, hbig.le, by rw [hw]; linarith⟩
      · rw [if_neg hbig] at hbest
        exact ⟨_, hbest, htol.1, by rw [htol.2], by rw [htol.2, hw]; linarith⟩
  obtain ⟨b1, b2, b3⟩ := step_between s.best s.contra δ t hdir ht0 h1 h2
  have hff : (s.finished || (decide (p.maxIterations ≤ s.numIterations) ||
      decide (|bisectionStep s| < rootTolerance p s) || decide (|s.vBest| ≤ p.funTol))) = false := hf
  have r1 : (brentMove p s).vBest = p.objective (brentMove p s).best := by
    unfold brentMove; simp only [hff]; simp
  have r2 : (brentMove p s).last = s.best := by unfold brentMove; simp only [hff]; simp
  have r3 : (brentMove p s).vLast = s.vBest := by unfold brentMove; simp only [hff]; simp
  have r4 : (brentMove p s).contra = s.contra := rfl
  have r5 : (brentMove p s).vContra = s.vContra := rfl
  have r6 : (brentMove p s).numIterations = s.numIterations + 1 := by unfold brentMove; simp only [hff]; simp
  refine ⟨⟨by rw [r1, hobj], by rw [r2, r3]; exact h.vb, ?_, by rw [r2]; exact h.b, ?_⟩, r6⟩
  · rw [hδ]
    rcases b1 with ⟨q1, q2⟩ | ⟨q1, q2⟩
    · exact ⟨by linarith [h.b.1], by linarith [h.c.2]⟩
    · exact ⟨by linarith [h.c.1], by linarith [h.b.2]⟩
  · right; right
    refine ⟨by rw [r5, r4]; exact h.vc, by rw [r4]; exact h.c, by rw [r2, r4]; exact h.sign, ?_, ?_, ?_⟩
    · rw [r2, r4, hδ]; exact b1
    · rw [r2, r6, hδ]
      push_cast
      have := h.width
      have e : (s.numIterations + 1 : K) * (a / 2) = s.numIterations * (a / 2) + a / 2 := by ring
      rw [e]; linarith
    · rw [r4, r6, hδ]
      push_cast
      have := h.width
      have e : (s.numIterations + 1 : K) * (a / 2) = s.numIterations * (a / 2) + a / 2 := by ring
      rw [e]; linarith

/-- What a search that stopped has reached. -/
def Stopped (p : BrentParams K) (f : K → K) (lo hi : K) (s : BrentState K) : Prop :=
  |f s.best| ≤ p.funTol ∨ p.maxIterations ≤ s.numIterations ∨
    ∃ c, lo ≤ c ∧ c ≤ hi ∧ f s.best * f c < 0 ∧ |c - s.best| < p.absTol + p.relTol * |s.best|

/-- The facts kept by the loop. -/
structure BrentLoopInv (p : BrentParams K) (f : K → K) (lo hi : K) (s : BrentState K) : Prop where
  vb : s.vBest = f s.best
  b : lo ≤ s.best ∧ s.best ≤ hi
  num : s.numIterations ≤ p.maxIterations
  bracket : f s.best = 0 ∨ ∃ c, lo ≤ c ∧ c ≤ hi ∧ f s.best * f c < 0
  width : s.finished = true ∨ s.numIterations * (p.absTol / 2) ≤ hi - lo
  live : s.finished = false → BrentInv f lo hi (hi - lo) p.absTol s
  stopped : s.finished = true → Stopped p f lo hi s

theorem inv_bracket (f : K → K) (lo hi W a : K) (s : BrentState K) (h : BrentInv f lo hi W a s) :
    f s.best = 0 ∨ ∃ c, lo ≤ c ∧ c ≤ hi ∧ f s.best * f c < 0 := by
  by_cases h0 : f s.best = 0
  · left; exact h0
  · right
    rcases h.bracket with h1 | h1 | ⟨g1, g2, g3, _⟩
    · exact absurd h1 h0
    · exact ⟨s.last, h.l.1, h.l.2, by rw [mul_comm]; exact h1.1⟩
    · rcases lt_trichotomy (f s.last * f s.best) 0 with hneg | hz | hpos
      · exact ⟨s.last, h.l.1, h.l.2, by rw [mul_comm]; exact hneg⟩
      · rcases mul_eq_zero.1 hz with hz | hz
        · rw [hz, zero_mul] at g3; exact absurd g3 (lt_irrefl _)
        · exact absurd hz h0
      · refine ⟨s.contra, g2.1, g2.2, ?_⟩
        have : (f s.last * f s.contra) * (f s.last * f s.best) < 0 := mul_neg_of_neg_of_pos g3 hpos
        have e : (f s.last * f s.contra) * (f s.last * f s.best) = f s.last ^ 2 * (f s.best * f s.contra) := by ring
        rw [e] at this
        by_contra hc
        have := mul_nonneg (sq_nonneg (f s.last)) (not_lt.1 hc)
        linarith

theorem body_of_finished (p : BrentParams K) (s : BrentState K) (h : s.finished = true) :
    (brentBody p s).finished = true ∧ (brentBody p s).best = s.best ∧ (brentBody p s).vBest = s.vBest ∧
    (brentBody p s).numIterations = s.numIterations := by
  unfold brentBody
  have hfin : (brentMove p (brentSwap (brentReplaceContra s))).finished = true := by
    rw [move_finished, replace_finished, h]; rfl
  obtain ⟨m1, m2, _, _, _, _, m7⟩ := move_of_finished p _ hfin
  obtain ⟨r1, r2, _⟩ := replace_of_finished s h
  exact ⟨hfin, by rw [m1, r1], by rw [m2, r2], by rw [m7, replace_num]⟩

theorem loopInv_body (p : BrentParams K) (f : K → K) (lo hi : K) (hobj : p.objective = f) (ha : 0 < p.absTol)
    (hr : 0 ≤ p.relTol) (hft : 0 ≤ p.funTol) (s : BrentState K) (h : BrentLoopInv p f lo hi s) :
    BrentLoopInv p f lo hi (brentBody p s) := by
  cases hf : s.finished with
  | true =>
    obtain ⟨b1, b2, b3, b4⟩ := body_of_finished p s hf
    refine ⟨by rw [b2, b3]; exact h.vb, by rw [b2]; exact h.b, by rw [b4]; exact h.num, by rw [b2]; exact h.bracket,
      Or.inl b1, fun h0 => (by rw [b1] at h0; exact absurd h0 (by decide)), fun _ => ?_⟩
    have := h.stopped hf
    unfold Stopped at this ⊢
    rw [b2, b4]; exact this
  | false =>
    have hinv := h.live hf
    by_cases h0 : f s.best = 0
    · -- stops at the root
      have hv : s.vBest = 0 := by rw [hinv.vb, h0]
      obtain ⟨r1, r2, _⟩ := replace_of_root s hv
      have hfin : (brentBody p s).finished = true := by
        unfold brentBody
        rw [move_finished, r2, hv, abs_zero]
        simp [hft]
      obtain ⟨m1, m2, _, _, _, _, m7⟩ := move_of_finished p _ hfin
      have e1 : (brentBody p s).best = s.best := by unfold brentBody; rw [m1, r1]
      have e2 : (brentBody p s).vBest = s.vBest := by unfold brentBody; rw [m2, r2]
      have e3 : (brentBody p s).numIterations = s.numIterations := by unfold brentBody; rw [m7, replace_num]
      refine ⟨by rw [e1, e2]; exact h.vb, by rw [e1]; exact h.b, by rw [e3]; exact h.num, by rw [e1]; exact Or.inl h0,
        Or.inl hfin, fun h0 => (by rw [hfin] at h0; exact absurd h0 (by decide)), fun _ => Or.inl ?_⟩
      rw [e1, h0, abs_zero]; exact hft
    · have hmid := mid_of_inv f lo hi _ _ s hinv hf h0
      cases hfin : (brentBody p s).finished with
      | true =>
        obtain ⟨m1, m2, _, _, _, _, m7⟩ := move_of_finished p _ hfin
        have e1 : (brentBody p s).best = (brentSwap (brentReplaceContra s)).best := m1
        have e2 : (brentBody p s).vBest = (brentSwap (brentReplaceContra s)).vBest := m2
        have e3 : (brentBody p s).numIterations = s.numIterations := by unfold brentBody; rw [m7, replace_num]
        refine ⟨by rw [e1, e2]; exact hmid.vb, by rw [e1]; exact hmid.b, by rw [e3]; exact h.num,
          by rw [e1]; exact Or.inr ⟨_, hmid.c.1, hmid.c.2, hmid.sign⟩,
          Or.inl hfin, fun h0 => (by rw [hfin] at h0; exact absurd h0 (by decide)), fun _ => ?_⟩
        have hfin' := hfin
        unfold brentBody at hfin'
        rw [move_finished, replace_finished, hf, replace_num] at hfin'
        simp only [Bool.false_or, Bool.or_eq_true, decide_eq_true_eq] at hfin'
        unfold Stopped
        rw [e1, e3]
        rcases hfin' with (h1 | h2) | h3
        · right; left; exact h1
        · right; right
          refine ⟨_, hmid.c.1, hmid.c.2, hmid.sign, ?_⟩
          unfold bisectionStep rootTolerance at h2
          rw [abs_mul, abs_of_pos (by norm_num : (0 : K) < 1 / 2)] at h2
          linarith
        · left; rw [← hmid.vb]; exact h3
      | false =>
        obtain ⟨i1, i2⟩ := move_step p lo hi _ _ f _ hmid ha rfl hr hobj hfin
        have hnum : s.numIterations < p.maxIterations := by
          have hfin' := hfin
          unfold brentBody at hfin'
          rw [move_finished, replace_num] at hfin'
          simp only [Bool.or_eq_false_iff, decide_eq_false_iff_not, not_le] at hfin'
          exact hfin'.2.1.1
        rw [replace_num] at i2
        refine ⟨i1.vb, i1.b, by show (brentMove p _).numIterations ≤ _; rw [i2]; omega, inv_bracket f lo hi _ _ _ i1, Or.inr ?_,
          fun _ => i1, fun h0 => (by rw [hfin] at h0; exact absurd h0 (by decide))⟩
        rcases i1.bracket with g | g | g
        · -- even then the width bound holds
          have hw := hmid.width
          rw [replace_num] at hw
          have hfin' := hfin
          unfold brentBody at hfin'
          rw [move_finished] at hfin'
          simp only [Bool.or_eq_false_iff, decide_eq_false_iff_not, not_lt] at hfin'
          have hb := hfin'.2.1.2
          unfold bisectionStep rootTolerance at hb
          rw [abs_mul, abs_of_pos (by norm_num : (0 : K) < 1 / 2)] at hb
          have := mul_nonneg hr (abs_nonneg (brentSwap (brentReplaceContra s)).best)
          show ((brentMove p _).numIterations : K) * _ ≤ _
          rw [i2]
          push_cast
          have e : (s.numIterations + 1 : K) * (p.absTol / 2) = s.numIterations * (p.absTol / 2) + p.absTol / 2 := by ring
          rw [e]
          linarith
        · have := abs_nonneg ((brentBody p s).last - (brentBody p s).best)
          have g2 := g.2
          unfold brentBody at this ⊢
          linarith
        · have := abs_nonneg ((brentBody p s).last - (brentBody p s).best)
          have g2 := g.2.2.2.2.1
          unfold brentBody at this ⊢
          linarith

theorem loopInv_init (p : BrentParams K) (f : K → K) (left right : K) (hobj : p.objective = f)
    (hft : 0 ≤ p.funTol) (hsign : f left * f right ≤ 0) :
    BrentLoopInv p f (min left right) (max left right) (brentInit p left right) := by
  -- the two orderings
  have key : ∀ b l : K, (b = left ∧ l = right ∨ b = right ∧ l = left) → |f b| ≤ |f l| → ∀ fin : Bool,
      fin = (decide (p.maxIterations ≤ 0) || decide (|f b| ≤ p.funTol)) →
      BrentLoopInv p f (min left right) (max left right)
        { best := b, vBest := f b, last := l, vLast := f l, contra := 0, vContra := 0, stepToBest := 0, stepToLast := 0,
          numIterations := 0, finished := fin } := by
    intro b l hbl hle fin hfin
    have hbr : min left right ≤ b ∧ b ≤ max left right := by
      rcases hbl with ⟨rfl, rfl⟩ | ⟨rfl, rfl⟩
      · exact ⟨min_le_left _ _, le_max_left _ _⟩
      · exact ⟨min_le_right _ _, le_max_right _ _⟩
    have hlr : min left right ≤ l ∧ l ≤ max left right := by
      rcases hbl with ⟨rfl, rfl⟩ | ⟨rfl, rfl⟩
      · exact ⟨min_le_right _ _, le_max_right _ _⟩
      · exact ⟨min_le_left _ _, le_max_left _ _⟩
    have hs : f b * f l ≤ 0 := by
      rcases hbl with ⟨rfl, rfl⟩ | ⟨rfl, rfl⟩
      · exact hsign
      · rw [mul_comm]; exact hsign
    have hneg : f b ≠ 0 → f b * f l < 0 := by
      intro h0
      have hl : f l ≠ 0 := by
        intro h1
        rw [h1, abs_zero] at hle
        exact h0 (abs_eq_zero.1 (le_antisymm hle (abs_nonneg _)))
      exact lt_of_le_of_ne hs (mul_ne_zero h0 hl)
    have hwid : |l - b| ≤ max left right - min left right := by
      rw [abs_le]
      constructor <;> linarith [hbr.1, hbr.2, hlr.1, hlr.2]
    refine ⟨rfl, hbr, Nat.zero_le _, ?_, Or.inr ?_, fun _ => ⟨rfl, rfl, hbr, hlr, ?_⟩, fun h => ?_⟩
    · by_cases h0 : f b = 0
      · exact Or.inl h0
      · exact Or.inr ⟨l, hlr.1, hlr.2, hneg h0⟩
    · simp
    · by_cases h0 : f b = 0
      · exact Or.inl h0
      · refine Or.inr (Or.inl ⟨?_, ?_⟩)
        · show f l * f b < 0
          rw [mul_comm]; exact hneg h0
        · simpa using hwid
    · have h' : fin = true := h
      rw [hfin] at h'
      simp only [Bool.or_eq_true, decide_eq_true_eq] at h'
      rcases h' with h' | h'
      · exact Or.inr (Or.inl h')
      · exact Or.inl h'
  unfold brentInit
  simp only [hobj]
  by_cases hsw : |f left| < |f right|
  · simp only [decide_eq_true hsw, if_true]
    exact key left right (Or.inl ⟨rfl, rfl⟩) hsw.le _ rfl
  · simp only [decide_eq_false hsw, Bool.false_eq_true, if_false]
    exact key right left (Or.inr ⟨rfl, rfl⟩) (not_lt.1 hsw) _ rfl

/-- The loop is some number of simultaneous body evaluations. -/
theorem brentLoop_iterate (stop : List Bool → Bool) (fuel : Nat) (l : List (BrentParams K × BrentState K)) :
    ∃ k, k ≤ fuel ∧ brentLoop stop fuel l = l.map (fun q => (q.1, (brentBody q.1)^[k] q.2)) ∧
      (k = fuel ∨ stop ((brentLoop stop fuel l).map (·.2.finished)) = true) := by
  induction fuel generalizing l with
  | zero => exact ⟨0, le_refl 0, by simp [brentLoop], Or.inl rfl⟩
  | succ fuel ih =>
    unfold brentLoop
    by_cases hs : stop (l.map (·.2.finished)) = true
    · rw [if_pos hs]
      exact ⟨0, Nat.zero_le _, by simp, Or.inr hs⟩
    · rw [if_neg hs]
      obtain ⟨k, h1, h2, h3⟩ := ih (l.map (fun q => (q.1, brentBody q.1 q.2)))
      refine ⟨k + 1, by omega, ?_, ?_⟩
      · rw [h2, List.map_map]
        apply List.map_congr_left
        intro q _
        simp [Function.iterate_succ_apply]
      · rcases h3 with h3 | h3
        · left; omega
        · right; exact h3

theorem iterate_finished (p : BrentParams K) (s : BrentState K) (h : s.finished = true) (k : Nat) :
    ((brentBody p)^[k] s).finished = true ∧ brentResult p ((brentBody p)^[k] s) = brentResult p s := by
  induction k with
  | zero => exact ⟨h, rfl⟩
  | succ k ih =>
    rw [Function.iterate_succ_apply']
    obtain ⟨b1, b2, b3, b4⟩ := body_of_finished p _ ih.1
    refine ⟨b1, ?_⟩
    rw [← ih.2]
    unfold brentResult
    rw [b2, b3, b4]

/-- An unfinished search has made as many iterations as the body was evaluated. -/
theorem iterate_num (p : BrentParams K) (s : BrentState K) (k : Nat) (h : ((brentBody p)^[k] s).finished = false) :
    ((brentBody p)^[k] s).numIterations = s.numIterations + k := by
  induction k with
  | zero => rfl
  | succ k ih =>
    rw [Function.iterate_succ_apply'] at h ⊢
    have hk : ((brentBody p)^[k] s).finished = false := by
      by_contra hc
      have := (body_of_finished p _ (by simpa using hc)).1
      rw [this] at h; exact absurd h (by decide)
    have e : (brentBody p ((brentBody p)^[k] s)).numIterations = ((brentBody p)^[k] s).numIterations + 1 := by
      generalize (brentBody p)^[k] s = u at *
      rw [← replace_num u]
      unfold brentBody at h ⊢
      have hff : ((brentSwap (brentReplaceContra u)).finished || (decide (p.maxIterations ≤ (brentSwap (brentReplaceContra u)).numIterations) ||
        decide (|bisectionStep (brentSwap (brentReplaceContra u))| < rootTolerance p (brentSwap (brentReplaceContra u))) ||
        decide (|(brentSwap (brentReplaceContra u)).vBest| ≤ p.funTol))) = false := h
      conv_lhs => unfold brentMove
      simp only [hff]
      simp
    rw [e, ih hk]; omega

end Lemmas
