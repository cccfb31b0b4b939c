import Mathlib.Tactic.FieldSimp
import Mathlib.Analysis.SpecialFunctions.Pow.Real
import Verif.Model.PlatformSwap
import Verif.Props.PlatformStreams

/-!
# Property theorems C90: interest rate swaps of the pricing platform
-/

namespace Props
open Model Model.Platform Spec Lemmas

/-! ## Grouping -/

theorem dictUpdate_spec {κ α : Type} [DecidableEq κ] (d : List (κ × α)) (k : κ) (fresh : α) (update : α → Except String α)
    (hd : (d.map Prod.fst).Nodup) (hu : ∀ a, (k, a) ∈ d → ∃ a', update a = .ok a') :
    ∃ d', dictUpdate d k fresh update = .ok d' ∧ (d'.map Prod.fst).Nodup ∧
      (∀ k', k' ∈ d'.map Prod.fst ↔ k' ∈ d.map Prod.fst ∨ k' = k) ∧
      ∀ k' b, (k', b) ∈ d' ↔ (k' ≠ k ∧ (k', b) ∈ d) ∨ (k' = k ∧ ((∃ a, (k, a) ∈ d ∧ update a = .ok b) ∨
        (k ∉ d.map Prod.fst ∧ b = fresh))) := by
  induction d with
  | nil =>
    refine ⟨[(k, fresh)], rfl, by simp, by simp, ?_⟩
    intro k' b
    simp only [List.mem_singleton, Prod.mk.injEq, List.not_mem_nil, and_false, false_and, exists_false, false_or, List.map_nil,
      not_false_eq_true, true_and]
  | cons q d ih =>
    obtain ⟨k0, a0⟩ := q
    rw [List.map_cons, List.nodup_cons] at hd
    by_cases h : k0 = k
    · subst h
      obtain ⟨a', ha'⟩ := hu a0 (by simp)
      refine ⟨(k0, a') :: d, by simp [dictUpdate, ha', bind, Except.bind, pure, Except.pure], ?_, ?_, ?_⟩
      · rw [List.map_cons, List.nodup_cons]; exact hd
      · intro k'
        simp only [List.map_cons, List.mem_cons]
        tauto
      · intro k' b
        have hno : ∀ a, (k0, a) ∉ d := fun a ha => hd.1 (List.mem_map.2 ⟨_, ha, rfl⟩)
        simp only [List.mem_cons, Prod.mk.injEq, List.map_cons, true_and]
        constructor
        · rintro (⟨rfl, rfl⟩ | hm)
          · exact Or.inr ⟨rfl, Or.inl ⟨a0, Or.inl rfl, ha'⟩⟩
          · refine Or.inl ⟨?_, Or.inr hm⟩
            rintro rfl
            exact hno b hm
        · rintro (⟨h1, h2 | h2⟩ | ⟨rfl, ⟨a, h2 | h2, h3⟩ | ⟨h2, _⟩⟩)
          · exact absurd h2.1 h1
          · exact Or.inr h2
          · subst h2
            rw [ha'] at h3
            exact Or.inl ⟨rfl, (Except.ok.inj h3).symm⟩
          · exact absurd h2 (hno a)
          · exact absurd (Or.inl trivial) h2
    · obtain ⟨d', h1, h2, h3, h4⟩ := ih hd.2 (fun a ha => hu a (by simp [ha]))
      refine ⟨(k0, a0) :: d', by simp [dictUpdate, h, h1, bind, Except.bind, pure, Except.pure], ?_, ?_, ?_⟩
      · rw [List.map_cons, List.nodup_cons]
        refine ⟨?_, h2⟩
        rw [h3]
        rintro (h5 | h5)
        · exact hd.1 h5
        · exact h h5
      · intro k'
        simp only [List.map_cons, List.mem_cons, h3]
        tauto
      · intro k' b
        have h' : ¬ k = k0 := fun e => h e.symm
        simp only [List.mem_cons, Prod.mk.injEq, h4, List.map_cons, h', false_and, false_or]
        constructor
        · rintro (⟨rfl, rfl⟩ | (⟨h5, h6⟩ | h5))
          · exact Or.inl ⟨h, Or.inl ⟨rfl, rfl⟩⟩
          · exact Or.inl ⟨h5, Or.inr h6⟩
          · exact Or.inr h5
        · rintro (⟨h5, h6 | h6⟩ | h5)
          · exact Or.inl h6
          · exact Or.inr (Or.inl ⟨h5, h6⟩)
          · exact Or.inr (Or.inr h5)

/-- The loop over the contracts, for any relation between the contracts of a group and its entry. -/
theorem grouping_loop {κ α β : Type} [DecidableEq κ] (key : α → κ) (entry : α → β) (update : β → β → Except String β)
    (R : List α → β → Prop) (h1 : ∀ p, R [p] (entry p))
    (h2 : ∀ ps b p, ps ≠ [] → R ps b → (∀ q ∈ ps, key q = key p) → ∃ b', update b (entry p) = .ok b' ∧ R (ps ++ [p]) b')
    (l : List α) :
    ∃ d, l.foldlM (fun d p => dictUpdate d (key p) (entry p) (fun b => update b (entry p))) [] = .ok d ∧ (d.map Prod.fst).Nodup ∧
      (∀ k, k ∈ d.map Prod.fst ↔ ∃ p ∈ l, key p = k) ∧
      ∀ k b, (k, b) ∈ d → R (l.filter (fun p => decide (key p = k))) b := by
  induction l using List.reverseRecOn with
  | nil => exact ⟨[], rfl, by simp, by simp, by simp⟩
  | append_singleton l p ih =>
    obtain ⟨d, e1, e2, e3, e4⟩ := ih
    have hne : key p ∈ d.map Prod.fst → l.filter (fun q => decide (key q = key p)) ≠ [] := by
      intro h
      obtain ⟨q, hq, hk⟩ := (e3 _).1 h
      exact List.ne_nil_of_mem (List.mem_filter.2 ⟨hq, by simpa using hk⟩)
    have step : ∀ b, (key p, b) ∈ d → ∃ b', update b (entry p) = .ok b' ∧
        R (l.filter (fun q => decide (key q = key p)) ++ [p]) b' := by
      intro b hb
      refine h2 _ b p (hne (List.mem_map.2 ⟨_, hb, rfl⟩)) (e4 _ _ hb) ?_
      intro q hq
      simpa using (List.mem_filter.1 hq).2
    obtain ⟨d', f1, f2, f3, f4⟩ := dictUpdate_spec d (key p) (entry p) (fun b => update b (entry p)) e2
      (fun b hb => (step b hb).imp fun _ h => h.1)
    refine ⟨d', ?_, f2, ?_, ?_⟩
    · rw [List.foldlM_append, e1]
      simp only [bind, Except.bind, List.foldlM_cons, List.foldlM_nil, f1, pure, Except.pure]
    · intro k
      rw [f3, e3]
      simp only [List.mem_append, List.mem_singleton]
      constructor
      · rintro (⟨q, hq, rfl⟩ | rfl)
        · exact ⟨q, Or.inl hq, rfl⟩
        · exact ⟨p, Or.inr rfl, rfl⟩
      · rintro ⟨q, hq | rfl, rfl⟩
        · exact Or.inl ⟨q, hq, rfl⟩
        · exact Or.inr rfl
    · intro k b hb
      rw [List.filter_append]
      rcases (f4 k b).1 hb with ⟨g1, g2⟩ | ⟨rfl, ⟨a, g2, g3⟩ | ⟨g2, rfl⟩⟩
      · have : ¬ key p = k := fun e => g1 e.symm
        simp only [List.filter_cons, this, decide_false, Bool.false_eq_true, if_false, List.filter_nil, List.append_nil]
        exact e4 k b g2
      · obtain ⟨b', g4, g5⟩ := step a g2
        rw [g3] at g4
        cases g4
        simpa using g5
      · have hn : l.filter (fun q => decide (key q = key p)) = [] := by
          by_contra hc
          obtain ⟨q, hq⟩ := List.exists_mem_of_ne_nil _ hc
          obtain ⟨hq1, hq2⟩ := List.mem_filter.1 hq
          exact g2 ((e3 _).2 ⟨q, hq1, by simpa using hq2⟩)
        rw [hn]
        simpa using h1 p

/-- C90.  Grouping sorts the contracts by their keys and loses none: each group has the contracts with its key, in order. -/
theorem C90_groups {κ α : Type} [DecidableEq κ] (key : α → κ) (l : List α) :
    ∃ d, groupProtos key l = .ok d ∧ (d.map Prod.fst).Nodup ∧ (∀ k, k ∈ d.map Prod.fst ↔ ∃ p ∈ l, key p = k) ∧
      ∀ k ps, (k, ps) ∈ d → ps = l.filter (fun p => decide (key p = k)) ∧ ps ≠ [] := by
  obtain ⟨d, h1, h2, h3, h4⟩ := grouping_loop key (fun p => [p]) (fun ps e => .ok (ps ++ e))
    (fun ps b => b = ps ∧ b ≠ []) (by simp) (by rintro ps b p hne ⟨rfl, _⟩ _; exact ⟨_, rfl, rfl, by simp⟩) l
  refine ⟨d, h1, h2, h3, fun k ps hm => ?_⟩
  exact h4 k ps hm

/-! ## Batches of swaps -/

/-- The period as the platform stores it: the documented conversion to months would be twelve times the amount. -/
def storedPeriod (p : ProtoPeriod × Int) : ProtoPeriod × Int := (if p.1 = .YEAR then .MONTH else p.1, p.2)

/-- The terms of a leg as stored, with the amount multiplied by `c`. -/
def storedLeg {K : Type} [Mul K] (c : K) : LegProto K → LegProto K
  | .fixed l => .fixed { l with frequency := storedPeriod l.frequency, notional := c * l.notional }
  | .floating l => .floating { l with frequency := storedPeriod l.frequency, reset := storedPeriod l.reset, notional := c * l.notional }

/-- Whether a swap pays floating and receives fixed. -/
def LegProto.isFloating {K : Type} : LegProto K → Bool
  | .fixed _ => false
  | .floating _ => true

/-- The legs of a swap such that a swap of a fixed and a floating leg pays the fixed one. -/
def payTerms {K : Type} [Field K] (s : SwapProto K) : LegProto K :=
  if LegProto.isFloating s.pay && !LegProto.isFloating s.receive then storedLeg (-1) s.receive else storedLeg 1 s.pay
def receiveTerms {K : Type} [Field K] (s : SwapProto K) : LegProto K :=
  if LegProto.isFloating s.pay && !LegProto.isFloating s.receive then storedLeg (-1) s.pay else storedLeg 1 s.receive

/-- A batched leg has exactly the terms of its legs, in order (apart from the holidays). -/
def LegBatch {K : Type} (ls : List (LegProto K)) : LegSpec K → Prop
  | .fixed s => ∃ fs : List (FixedLegProto K), ls = fs.map .fixed ∧ s.currency = fs.map (fun f => f.currency) ∧
      s.notional = fs.map (fun f => f.notional) ∧ s.fixedRate = fs.map (fun f => f.fixedRate) ∧
      s.settlementDays = fs.map (fun f => f.settlementDays) ∧ s.frequency.2 = fs.map (fun f => f.frequency.2) ∧
      ∀ f ∈ fs, f.frequency.1 = s.frequency.1 ∧ f.daycount = s.daycount ∧ f.rule = s.rule
  | .floating s => ∃ fs : List (FloatLegProto K), ls = fs.map .floating ∧ s.currency = fs.map (fun f => f.currency) ∧
      s.notional = fs.map (fun f => f.notional) ∧ s.rateType = fs.map (fun f => f.rateType) ∧ s.spread = fs.map (fun f => f.spread) ∧
      s.settlementDays = fs.map (fun f => f.settlementDays) ∧ s.frequency.2 = fs.map (fun f => f.frequency.2) ∧
      s.reset.2 = fs.map (fun f => f.reset.2) ∧
      ∀ f ∈ fs, f.frequency.1 = s.frequency.1 ∧ f.reset.1 = s.reset.1 ∧ f.daycount = s.daycount ∧ f.rule = s.rule

section
variable {K : Type} [Field K]

def legKey (l : LegProto K) : List (Option Nat) := (getKeys l).1 ++ (getKeys l).2

theorem storedPeriod_value (p : ProtoPeriod × Int) : (storedPeriod p).1.value = (frequencyAndMultiplier p.1).1.value := by
  obtain ⟨t, n⟩ := p
  cases t <;> rfl

theorem storedPeriod_idem (p : ProtoPeriod × Int) : storedPeriod (storedPeriod p) = storedPeriod p := by
  obtain ⟨t, n⟩ := p
  cases t <;> rfl

theorem frequency_value (t : ProtoPeriod) : (if t.value = 5 then 3 else t.value) = (frequencyAndMultiplier t).1.value := by
  cases t <;> rfl

theorem legKey_stored (c : K) (l : LegProto K) : legKey (storedLeg c l) = legKey l := by
  have h : ∀ p : ProtoPeriod × Int, (frequencyAndMultiplier (storedPeriod p).1).1 = (frequencyAndMultiplier p.1).1 := by
    rintro ⟨t, n⟩; cases t <;> rfl
  cases l with
  | fixed l => simp only [legKey, storedLeg, getKeys, frequency_value, h]
  | floating l => simp only [legKey, storedLeg, getKeys, h]

theorem legKey_length (l : LegProto K) : (legKey l).length = 7 := by
  cases l <;> rfl

theorem flip_eq (s : SwapProto K) : (getHash s).2 = (LegProto.isFloating s.pay && !LegProto.isFloating s.receive) := by
  cases hp : s.pay <;> cases hr : s.receive <;> simp [getHash, legsHashKey, hp, hr, getKeys, LegProto.isFloating]

theorem getHash_eq (s : SwapProto K) : (getHash s).1 = legKey (payTerms s) ++ legKey (receiveTerms s) ++ [some s.holidays] := by
  unfold payTerms receiveTerms
  have hf := flip_eq s
  by_cases h : (LegProto.isFloating s.pay && !LegProto.isFloating s.receive) = true
  · rw [if_pos h, if_pos h, legKey_stored, legKey_stored]
    rw [h] at hf
    simp only [getHash, legsHashKey] at hf ⊢
    split at hf <;> rename_i h'
    · rw [if_pos h']; rfl
    · exact absurd hf h'
  · rw [if_neg h, if_neg h, legKey_stored, legKey_stored]
    have h0 : (LegProto.isFloating s.pay && !LegProto.isFloating s.receive) = false := by simpa using h
    rw [h0] at hf
    simp only [getHash, legsHashKey] at hf ⊢
    split at hf <;> rename_i h'
    · exact absurd (h'.symm.trans hf) (by simp)
    · rw [if_neg h']; rfl

theorem value_injective : (∀ a b : Daycount, a.value = b.value → a = b) ∧ (∀ a b : BusinessRule, a.value = b.value → a = b) ∧
    (∀ a b : ProtoPeriod, a.value = b.value → a = b) := by
  refine ⟨?_, ?_, ?_⟩ <;> · intro a b; cases a <;> cases b <;> simp [Daycount.value, BusinessRule.value, ProtoPeriod.value]

theorem key_terms {s t : SwapProto K} (h : (getHash s).1 = (getHash t).1) :
    legKey (payTerms s) = legKey (payTerms t) ∧ legKey (receiveTerms s) = legKey (receiveTerms t) := by
  rw [getHash_eq, getHash_eq, List.append_assoc, List.append_assoc] at h
  obtain ⟨h1, h2⟩ := List.append_inj h (by rw [legKey_length, legKey_length])
  exact ⟨h1, (List.append_inj h2 (by rw [legKey_length, legKey_length])).1⟩

theorem legBatch_one (c : K) (l : LegProto K) (spec : LegSpec K)
    (hs : spec = match l with
      | .fixed f => .fixed ⟨[f.currency], ((storedPeriod f.frequency).1, [f.frequency.2]), [c * f.notional], [f.fixedRate],
          [f.settlementDays], f.rule, f.daycount, f.holidays⟩
      | .floating f => .floating ⟨[f.currency], ((storedPeriod f.frequency).1, [f.frequency.2]),
          ((storedPeriod f.reset).1, [f.reset.2]), [c * f.notional], [f.rateType], [f.settlementDays], f.rule, f.daycount, [f.spread],
          f.holidays⟩) : LegBatch [storedLeg c l] spec := by
  cases l with
  | fixed f =>
    simp only at hs
    subst hs
    exact ⟨[_], rfl, rfl, rfl, rfl, rfl, rfl, by simp⟩
  | floating f =>
    simp only at hs
    subst hs
    exact ⟨[_], rfl, rfl, rfl, rfl, rfl, rfl, rfl, rfl, by simp⟩

theorem entry_pay (s : SwapProto K) : LegBatch [payTerms s] (swapEntry s).pay ∧ LegBatch [receiveTerms s] (swapEntry s).receive := by
  unfold payTerms receiveTerms swapEntry
  rw [flip_eq]
  by_cases h : (LegProto.isFloating s.pay && !LegProto.isFloating s.receive) = true
  · rw [if_pos h, if_pos h, if_pos h]
    constructor <;> refine legBatch_one _ _ _ ?_
    · cases s.receive <;> simp [legFromProto, LegSpec.negate, frequencyAndMultiplier, storedPeriod]
    · cases s.pay <;> simp [legFromProto, LegSpec.negate, frequencyAndMultiplier, storedPeriod]
  · rw [if_neg h, if_neg h, if_neg h]
    constructor <;> refine legBatch_one _ _ _ ?_
    · cases s.pay <;> simp [legFromProto, frequencyAndMultiplier, storedPeriod]
    · cases s.receive <;> simp [legFromProto, frequencyAndMultiplier, storedPeriod]

/-- The terms are stored terms. -/
def IsStored : LegProto K → Prop
  | .fixed f => f.frequency.1 ≠ .YEAR
  | .floating f => f.frequency.1 ≠ .YEAR ∧ f.reset.1 ≠ .YEAR

theorem isStored_storedLeg (c : K) (l : LegProto K) : IsStored (storedLeg c l) := by
  have h : ∀ p : ProtoPeriod × Int, (storedPeriod p).1 ≠ .YEAR := by rintro ⟨t, n⟩; cases t <;> simp [storedPeriod]
  cases l with
  | fixed f => exact h _
  | floating f => exact ⟨h _, h _⟩

theorem stored_frequency (t : ProtoPeriod) (h : t ≠ .YEAR) : (frequencyAndMultiplier t).1 = t := by
  simp [frequencyAndMultiplier, h]

theorem update_legs (ls : List (LegProto K)) (x : LegProto K) (spec e : LegSpec K) (hne : ls ≠ []) (h : LegBatch ls spec)
    (hx : LegBatch [x] e) (hst : ∀ l ∈ ls, IsStored l) (hxs : IsStored x) (hk : ∀ l ∈ ls, legKey l = legKey x) :
    ∃ spec', updateLeg spec e = .ok spec' ∧ LegBatch (ls ++ [x]) spec' := by
  obtain ⟨v1, v2, v3⟩ := value_injective
  cases spec with
  | fixed s =>
    obtain ⟨fs, rfl, h1, h2, h3, h4, h5, h6⟩ := h
    obtain ⟨f0, hf0⟩ := List.exists_mem_of_ne_nil fs (by simpa using hne)
    have hk0 := hk _ (List.mem_map_of_mem hf0)
    have hs0 : f0.frequency.1 ≠ .YEAR := hst _ (List.mem_map_of_mem hf0)
    cases x with
    | floating g => simp [legKey, getKeys] at hk0
    | fixed g =>
      have hg : g.frequency.1 ≠ .YEAR := hxs
      simp only [legKey, getKeys, frequency_value, stored_frequency _ hs0, stored_frequency _ hg, List.cons_append, List.nil_append,
        List.cons.injEq, Option.some.injEq, and_true] at hk0
      cases e with
      | floating e => obtain ⟨gs, hgs, _⟩ := hx; cases gs <;> simp at hgs
      | fixed e =>
        obtain ⟨gs, hgs, k1, k2, k3, k4, k5, k6⟩ := hx
        obtain rfl : gs = [g] := by
          cases gs with
          | nil => simp at hgs
          | cons a gs => simp at hgs; obtain ⟨rfl, rfl⟩ := hgs; rfl
        refine ⟨_, rfl, fs ++ [g], by simp, by simp [h1, k1], by simp [h2, k2], by simp [h3, k3], by simp [h4, k4], by simp [h5, k5], ?_⟩
        intro f hf
        rcases List.mem_append.1 hf with hf | hf
        · exact h6 f hf
        · rw [List.mem_singleton.1 hf]
          obtain ⟨a, b, c⟩ := h6 f0 hf0
          exact ⟨(v3 _ _ hk0.1).symm.trans a, (v1 _ _ hk0.2.1).symm.trans b, (v2 _ _ hk0.2.2).symm.trans c⟩
  | floating s =>
    obtain ⟨fs, rfl, h1, h2, h3, h4, h5, h6, h7, h8⟩ := h
    obtain ⟨f0, hf0⟩ := List.exists_mem_of_ne_nil fs (by simpa using hne)
    have hk0 := hk _ (List.mem_map_of_mem hf0)
    have hs0 : f0.frequency.1 ≠ .YEAR ∧ f0.reset.1 ≠ .YEAR := hst _ (List.mem_map_of_mem hf0)
    cases x with
    | fixed g => simp [legKey, getKeys] at hk0
    | floating g =>
      have hg : g.frequency.1 ≠ .YEAR ∧ g.reset.1 ≠ .YEAR := hxs
      simp only [legKey, getKeys, stored_frequency _ hs0.1, stored_frequency _ hg.1, stored_frequency _ hs0.2, stored_frequency _ hg.2,
        List.append_cancel_left_eq, List.cons.injEq, Option.some.injEq, and_true] at hk0
      cases e with
      | fixed e => obtain ⟨gs, hgs, _⟩ := hx; cases gs <;> simp at hgs
      | floating e =>
        obtain ⟨gs, hgs, k1, k2, k3, k4, k5, k6, k7, k8⟩ := hx
        obtain rfl : gs = [g] := by
          cases gs with
          | nil => simp at hgs
          | cons a gs => simp at hgs; obtain ⟨rfl, rfl⟩ := hgs; rfl
        refine ⟨_, rfl, fs ++ [g], by simp, by simp [h1, k1], by simp [h2, k2], by simp [h3, k3], by simp [h4, k4], by simp [h5, k5],
          by simp [h6, k6], by simp [h7, k7], ?_⟩
        intro f hf
        rcases List.mem_append.1 hf with hf | hf
        · exact h8 f hf
        · rw [List.mem_singleton.1 hf]
          obtain ⟨a, b, c, d⟩ := h8 f0 hf0
          exact ⟨(v3 _ _ hk0.1).symm.trans a, (v3 _ _ hk0.2.1).symm.trans b, (v1 _ _ hk0.2.2.1).symm.trans c,
            (v2 _ _ hk0.2.2.2).symm.trans d⟩

/-- The contracts of a batch of swaps. -/
def IsSwapBatch (ps : List (SwapProto K)) (b : SwapBatch K) : Prop :=
  b.start = ps.map (fun p => p.effective) ∧ b.maturity = ps.map (fun p => p.maturity) ∧
  b.names = ps.map (fun p => (p.id, p.instrumentType)) ∧ LegBatch (ps.map payTerms) b.pay ∧ LegBatch (ps.map receiveTerms) b.receive

/-- C90.  Batches from protocol buffers: never an error, every swap is in the batch of its key, and every batch has the dates, names and
terms of its swaps, in order; a swap that pays floating and receives fixed is stored with its legs exchanged and its amounts
negated. -/
theorem C90_batches (l : List (SwapProto K)) :
    ∃ d, fromProtos l = .ok d ∧ (d.map Prod.fst).Nodup ∧ (∀ k, k ∈ d.map Prod.fst ↔ ∃ p ∈ l, (getHash p).1 = k) ∧
      ∀ k b, (k, b) ∈ d → IsSwapBatch (l.filter (fun p => decide ((getHash p).1 = k))) b := by
  have hst : ∀ p : SwapProto K, IsStored (payTerms p) ∧ IsStored (receiveTerms p) := by
    intro p
    unfold payTerms receiveTerms
    split <;> exact ⟨isStored_storedLeg _ _, isStored_storedLeg _ _⟩
  obtain ⟨d, h1, h2, h3, h4⟩ := grouping_loop (fun p : SwapProto K => (getHash p).1) swapEntry SwapBatch.update IsSwapBatch
    (by
      intro p
      have hd : (swapEntry p).start = [p.effective] ∧ (swapEntry p).maturity = [p.maturity] ∧
          (swapEntry p).names = [(p.id, p.instrumentType)] := by
        simp only [swapEntry]; split <;> exact ⟨rfl, rfl, rfl⟩
      exact ⟨hd.1, hd.2.1, hd.2.2, (entry_pay p).1, (entry_pay p).2⟩)
    (by
      rintro ps b p hne ⟨a1, a2, a3, a4, a5⟩ hk
      have hd : (swapEntry p).start = [p.effective] ∧ (swapEntry p).maturity = [p.maturity] ∧
          (swapEntry p).names = [(p.id, p.instrumentType)] := by
        simp only [swapEntry]; split <;> exact ⟨rfl, rfl, rfl⟩
      obtain ⟨sp, e1, e2⟩ := update_legs (ps.map payTerms) (payTerms p) b.pay (swapEntry p).pay (by simpa using hne) a4
        (entry_pay p).1 (fun x hx => by obtain ⟨q, _, rfl⟩ := List.mem_map.1 hx; exact (hst q).1) (hst p).1
        (fun x hx => by obtain ⟨q, hq, rfl⟩ := List.mem_map.1 hx; exact (key_terms (hk q hq)).1)
      obtain ⟨sr, f1, f2⟩ := update_legs (ps.map receiveTerms) (receiveTerms p) b.receive (swapEntry p).receive (by simpa using hne) a5
        (entry_pay p).2 (fun x hx => by obtain ⟨q, _, rfl⟩ := List.mem_map.1 hx; exact (hst q).2) (hst p).2
        (fun x hx => by obtain ⟨q, hq, rfl⟩ := List.mem_map.1 hx; exact (key_terms (hk q hq)).2)
      refine ⟨⟨b.start ++ (swapEntry p).start, b.maturity ++ (swapEntry p).maturity, sp, sr, b.names ++ (swapEntry p).names⟩, ?_, ?_, ?_,
        ?_, ?_, ?_⟩
      · simp only [SwapBatch.update, e1, f1, bind, Except.bind, pure, Except.pure]
      · simp [a1, hd.1]
      · simp [a2, hd.2.1]
      · simp [a3, hd.2.2]
      · simpa using e2
      · simpa using f2) l
  exact ⟨d, h1, h2, h3, h4⟩

/-- C90.  Periods other than years are stored as they are. -/
theorem C90_periods_partial (p : ProtoPeriod × Int) (h : p.1 ≠ .YEAR) : storedPeriod p = p := by
  simp [storedPeriod, h]

/-- Deviation from C90: a period of years becomes as many months, although the multiplier is documented as the one of a conversion. -/
theorem C90_years (n : Int) : frequencyAndMultiplier .YEAR = (.MONTH, 1) ∧ storedPeriod (.YEAR, n) = (.MONTH, n) := ⟨rfl, rfl⟩

end

/-! ## Prices -/

section
variable {K : Type} [Field K] [LinearOrder K]

/-- A leg with its amount negated. -/
def negLeg : Leg K → Leg K
  | .fixed r => .fixed { r with notional := -r.notional }
  | .floating r => .floating { r with notional := -r.notional }

theorem zipBroadcast_neg {α β : Type} (f g : α → β → K) (h : ∀ a b, g a b = -f a b) (xs : List α) (ys : List β) :
    zipBroadcast g xs ys = (zipBroadcast f xs ys).map (fun l => l.map (fun x => -x)) := by
  unfold zipBroadcast
  split
  · simp [Except.map, h]
  · simp [Except.map, h]
  · split
    · simp only [Except.map, List.map_zipWith, ← h]
    · rfl

theorem zipBroadcast_neg_left {β : Type} (f : K → β → K) (h : ∀ a b, f (-a) b = -f a b) (xs : List K) (ys : List β) :
    zipBroadcast f (xs.map (fun x => -x)) ys = (zipBroadcast f xs ys).map (fun l => l.map (fun x => -x)) := by
  rcases xs with _ | ⟨x, _ | ⟨x', xs⟩⟩
  · rcases ys with _ | ⟨y, _ | ⟨y', ys⟩⟩ <;> simp [zipBroadcast, Except.map]
  · simp [zipBroadcast, Except.map, h]
  · rcases ys with _ | ⟨y, _ | ⟨y', ys⟩⟩
    · simp [zipBroadcast, Except.map]
    · simp [zipBroadcast, Except.map, h]
    · simp only [zipBroadcast, List.map_cons, List.length_cons, List.length_map]
      split <;> simp [Except.map, h, List.zipWith_map_left, List.map_zipWith]

theorem negLeg_price (l : Leg K) (P D : DateT → K) (data : Option (FixingData K)) (given : Option K) (v : DateT) :
    (negLeg l).price P D data given v = (l.price P D data given v).map (fun x => -x) := by
  have hsum : ∀ l : List K, (l.map (fun x => -x)).sum = -l.sum := by
    intro l; induction l with
    | nil => simp
    | cons a l ih => simp [ih]; ring
  cases l with
  | fixed r =>
    simp only [negLeg, Leg.price, Except.map, FixedRow.price, FixedRow.cashflows]
    congr 1
    rw [← hsum, List.map_zipWith]
    congr 1
    have : ∀ (a : List DateT) (b : List K), List.zipWith (fun c d => c * D d)
        (List.zipWith (fun d τ => -r.notional * ((if d.ge v then 1 else 0) * τ * r.rate)) a b) a =
        List.zipWith (fun x y => -(x * D y)) (List.zipWith (fun d τ => r.notional * ((if d.ge v then 1 else 0) * τ * r.rate)) a b) a := by
      intro a
      induction a with
      | nil => intro b; simp
      | cons x a ih =>
        intro b
        cases b with
        | nil => simp
        | cons y b => simp only [List.zipWith_cons_cons, ih]; congr 1; ring
    exact this _ _
  | floating r =>
    have hr : FloatRow.rates { r with notional := -r.notional } P data given v = r.rates P data given v := rfl
    simp only [negLeg, Leg.price, FloatRow.price, FloatRow.cashflows]
    rw [hr]
    cases h : r.rates P data given v with
    | error e => simp [bind, Except.bind, Except.map]
    | ok rs =>
      simp only [bind, Except.bind]
      rw [zipBroadcast_neg (fun τ x => r.notional * (τ * (x + r.spread))) _ (fun a b => by ring)]
      cases h2 : zipBroadcast (fun τ x => r.notional * (τ * (x + r.spread))) (yearFractions r.daycount r.dates) rs with
      | error e => simp [Except.map]
      | ok c =>
        simp only [Except.map]
        rw [zipBroadcast_neg_left _ (fun a b => by ring)]
        cases h3 : zipBroadcast (fun x d => x * D d) c (couponEnds r.dates) with
        | error e => simp [Except.map]
        | ok q => simp only [Except.map, pure, Except.pure, hsum]

/-- C90.  Exchanging the legs and negating their amounts does not change the price. -/
theorem C90_flip (pay receive : Leg K) (c c' : Option (DateT → K)) (P D : DateT → K) (data : Option (FixingData K)) (given : Option K)
    (v : DateT) (x y : K) (hx : pay.price P D data given v = .ok x) (hy : receive.price P D data given v = .ok y) :
    (⟨pay, receive, c⟩ : Swap K).price P D data given v = .ok (y - x) ∧
    (⟨negLeg receive, negLeg pay, c'⟩ : Swap K).price P D data given v = .ok (y - x) := by
  constructor
  · simp [Swap.price, hx, hy, bind, Except.bind, pure, Except.pure]
  · simp only [Swap.price, negLeg_price, hx, hy, Except.map, bind, Except.bind, pure, Except.pure]
    congr 1
    ring

/-- C90.  The annuity, where the discount curve is a single curve. -/
theorem C90_annuity_partial (f : FixedRow K) (g : FloatRow K) (D : DateT → K) (n : Nat) (d : Nat → DateT)
    (hd : f.dates = (List.range (n + 1)).map d) :
    (⟨.fixed f, .floating g, some D⟩ : Swap K).annuity = .ok (∑ k ∈ Finset.range n, D (d (k + 1)) * f.daycount (d k) (d (k + 1))) ∧
    (⟨.floating g, .fixed f, some D⟩ : Swap K).annuity = .ok (∑ k ∈ Finset.range n, D (d (k + 1)) * f.daycount (d k) (d (k + 1))) := by
  simp only [Swap.annuity]
  rw [hd, ends_range, fractions_range, List.zipWith_map, List.zipWith_self, sum_mapRange']
  exact ⟨rfl, rfl⟩

/-- C90.  The fixed rate is that of the fixed leg, whichever leg this is; a swap of two floating legs has none. -/
theorem C90_fixed_rate (f : FixedRow K) (g g' : FloatRow K) (c : Option (DateT → K)) :
    (⟨.fixed f, .floating g, c⟩ : Swap K).fixedRate = some f.rate ∧ (⟨.floating g, .fixed f, c⟩ : Swap K).fixedRate = some f.rate ∧
    (⟨.floating g, .floating g', c⟩ : Swap K).fixedRate = none := ⟨rfl, rfl, rfl⟩

/-- C90.  No annuity without exactly one fixed leg. -/
theorem C90_annuity_legs (f f' : FixedRow K) (g g' : FloatRow K) (c : Option (DateT → K)) :
    (∃ e, (⟨.fixed f, .fixed f', c⟩ : Swap K).annuity = .error e) ∧ (∃ e, (⟨.floating g, .floating g', c⟩ : Swap K).annuity = .error e) :=
  ⟨⟨_, rfl⟩, ⟨_, rfl⟩⟩

/-- Deviation from C90: for a list of discount curves, which a swap made from coupon specifications always has, there is neither an
annuity nor a par rate. -/
theorem C90_annuity_fails (pay receive : Leg K) (P D : DateT → K) (data : Option (FixingData K)) (given : Option K) (v : DateT) :
    (∃ e, (⟨pay, receive, none⟩ : Swap K).annuity = .error e) ∧
    (∃ e, (⟨pay, receive, none⟩ : Swap K).parRate P D data given v = .error e) := by
  have h : ∃ e, (⟨pay, receive, none⟩ : Swap K).annuity = .error e := by
    cases pay <;> cases receive <;> exact ⟨_, rfl⟩
  refine ⟨h, ?_⟩
  obtain ⟨e, he⟩ := h
  exact ⟨e, by simp [Swap.parRate, he, bind, Except.bind]⟩

/-- C90.  The delta is the change of the price of the swap divided by the shock. -/
theorem C90_delta (pay receive : K → K) (p0 r0 h : K) :
    irDelta false (fun x => .ok (pay x)) (fun x => .ok (receive x)) (.ok p0) (.ok r0) h =
      .ok (((receive h - pay h) - (r0 - p0)) / h) := by
  simp only [irDelta, irDeltaLeg, Bool.false_eq_true, if_false, bind, Except.bind, pure, Except.pure]
  congr 1
  ring

/-- Deviation from C90: no delta for a given curve type. -/
theorem C90_delta_curve (pay receive : K → Except String K) (p0 r0 : Except String K) (h : K) :
    ∃ e, irDelta true pay receive p0 r0 h = .error e := ⟨_, rfl⟩

end

section
variable {K : Type} [Field K] [LinearOrder K] [IsStrictOrderedRing K]

/-- C90.  A swap that has not begun, with a floating leg that accrues to its coupon ends, on one curve: paying fixed it is worth
`N (P(T₀) − P(Tₙ)) − N R A` with the annuity `A`; the par rate is the rate for which this is zero. -/
theorem C90_value (f : FixedRow K) (g : FloatRow K) (c : Option (DateT → K)) (m n : Nat) (hn : 2 ≤ n) (a d e : Nat → DateT)
    (ha : f.dates = (List.range (m + 1)).map a) (hd : g.dates = (List.range (n + 1)).map d)
    (he : ∀ k, k < n → (d k).add g.reset = .ok (e k)) (P : DateT → K) (hP : ∀ x, P x ≠ 0) (data : Option (FixingData K))
    (given : Option K) (v : DateT) (past : K) (hp : g.pastFixing data given v = .ok past)
    (hreg : ∀ k, 0 < k → k + 1 < n → e k = d (k + 1) ∨ P (d k) = P (d (k + 1)) ∧ ¬ 0 < g.daycount (d k) (d (k + 1)))
    (hpos : ∀ k, k < n → 0 < g.daycount (d k) (d (k + 1)) ∨
      P (d k) = P (d (k + 1)) ∧ g.daycount (d k) (d (k + 1)) = 0)
    (hv : ∀ k, k ≤ n → v.ordinal ≤ (d k).ordinal) (hva : ∀ k, k ≤ m → v.ordinal ≤ (a k).ordinal) (hs : g.spread = 0) :
    (⟨.fixed f, .floating g, c⟩ : Swap K).price P P data given v = .ok (g.notional * (P (d 0) - P (d n)) -
      f.notional * f.rate * ∑ k ∈ Finset.range m, P (a (k + 1)) * f.daycount (a k) (a (k + 1))) ∧
    (⟨.floating g, .fixed f, c⟩ : Swap K).price P P data given v = .ok (f.notional * f.rate *
      ∑ k ∈ Finset.range m, P (a (k + 1)) * f.daycount (a k) (a (k + 1)) - g.notional * (P (d 0) - P (d n))) ∧
    (g.notional ≠ 0 → (⟨.fixed f, .floating g, some P⟩ : Swap K).parRate P P data given v =
      .ok ((P (d 0) - P (d n)) / ∑ k ∈ Finset.range m, P (a (k + 1)) * f.daycount (a k) (a (k + 1)))) := by
  have hF : f.price P v = f.notional * f.rate * ∑ k ∈ Finset.range m, P (a (k + 1)) * f.daycount (a k) (a (k + 1)) := by
    rw [C89_fixed f m a ha, Finset.mul_sum]
    refine Finset.sum_congr rfl fun k hk => ?_
    rw [if_pos (hva (k + 1) (by have := Finset.mem_range.1 hk; omega))]
    ring
  have hG := C89_telescope g n hn d e hd he P hP data given v past hp hreg hpos hv hs
  refine ⟨?_, ?_, ?_⟩
  · simp only [Swap.price, Leg.price, hF, hG, bind, Except.bind, pure, Except.pure]
  · simp only [Swap.price, Leg.price, hF, hG, bind, Except.bind, pure, Except.pure]
  · intro hN
    simp only [Swap.parRate, (C90_annuity_partial f g P m a ha).1, Leg.price, hG, bind, Except.bind, pure, Except.pure]
    congr 1
    rw [div_right_comm, mul_div_cancel_left₀ _ hN]

end

/-- C90.  The bumped nodes: no bump gives back the nodes of the curve, and a larger yield a smaller discount factor. -/
theorem C90_bump (c : Curve) (v d : DateT) (D : ℝ) (hD : 0 < D) (ht : 0 < c.daycount v d) :
    bumpedNode (yieldAndTime c v d D).1 (yieldAndTime c v d D).2 0 = D ∧
    ∀ b b' : ℝ, -(1 + (yieldAndTime c v d D).1) < b → b < b' →
      bumpedNode (yieldAndTime c v d D).1 (yieldAndTime c v d D).2 b' < bumpedNode (yieldAndTime c v d D).1 (yieldAndTime c v d D).2 b := by
  constructor
  · rw [bumpedNode, add_zero]
    exact C88_yield c v d D hD ht.ne'
  · intro b b' h1 h2
    unfold bumpedNode
    exact Real.rpow_lt_rpow_of_neg (by linarith) (by linarith) (by simpa [yieldAndTime] using ht)

/-! ## Examples -/

/-- A payer swap of 5 percent against a floating leg, and a receiver swap of 6 percent. -/
def pSwaps : List (SwapProto ℚ) :=
  [⟨(2021, 1, 1), (2023, 1, 1), 1, .floating ⟨"USD", (.MONTH, 3), 100, .ACTUAL_360, .FOLLOWING, 2, 1, (.MONTH, 3), ⟨9, "x", "y"⟩, 0⟩,
      .fixed ⟨"USD", (.MONTH, 6), 100, .ACTUAL_365, .FOLLOWING, 2, 1, 5 / 100⟩, 1, "a", "swap"⟩,
    ⟨(2021, 2, 1), (2024, 2, 1), 1, .fixed ⟨"EUR", (.YEAR, 1), 200, .ACTUAL_365, .FOLLOWING, 2, 2, 6 / 100⟩,
      .floating ⟨"EUR", (.MONTH, 6), 200, .ACTUAL_360, .FOLLOWING, 2, 2, (.MONTH, 6), ⟨9, "x", "y"⟩, 0⟩, 1, "b", "swap"⟩]

/-- Both are in one batch, the second one exchanged; its yearly coupons have become monthly and its holidays those of the first. -/
example : (fromProtos pSwaps).toOption.map (fun d => d.map (fun q => (q.2.pay, q.2.names))) =
    some [(.fixed ⟨["USD", "EUR"], (.MONTH, [6, 1]), [100, -200], [5 / 100, 6 / 100], [2, 2], .FOLLOWING, .ACTUAL_365, 1⟩,
      [("a", "swap"), ("b", "swap")])] := by
  decide +kernel

/-- A swap of two quarterly floating coupons against one fixed coupon. -/
def pFixedLeg : FixedRow ℚ := ⟨[pDate 2021 1 1, pDate 2021 7 1], 100, 5 / 100, actual365Fixed ℚ⟩
def pFloatLeg : FloatRow ℚ := ⟨[pDate 2021 1 1, pDate 2021 4 1, pDate 2021 7 1], 100, 0, actual365Fixed ℚ, ⟨3, .MONTH⟩⟩

example : ((⟨.fixed pFixedLeg, .floating pFloatLeg, none⟩ : Swap ℚ).price pCurve pCurve none none (pDate 2021 1 1)).toOption =
    some (100 * (1 - pCurve (pDate 2021 7 1)) - 5 * (181 / 365) * pCurve (pDate 2021 7 1)) ∧
    ((⟨.fixed pFixedLeg, .floating pFloatLeg, some pCurve⟩ : Swap ℚ).parRate pCurve pCurve none none (pDate 2021 1 1)).toOption =
      some (1 / 10) := by
  decide +kernel

/-- Deviation from C90: the annuity counts payments before the valuation date, while the price of the fixed leg does not. -/
theorem C90_annuity_past :
    ((⟨.fixed pFixedLeg, .floating pFloatLeg, some pCurve⟩ : Swap ℚ).annuity).toOption = some (pCurve (pDate 2021 7 1) * (181 / 365)) ∧
    pFixedLeg.price pCurve (pDate 2021 8 1) = 0 := by
  decide +kernel

end Props
