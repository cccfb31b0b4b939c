import Verif.Lemmas.Schedules
import Verif.Lemmas.UnboundedCalendar

/-! Business day schedules, generically in the calendar. -/

namespace Lemmas
open Model Spec

/-- What business day schedules need from a calendar whose business days are `B`, from day `lo` on. -/
structure CalOpsOK (cal : CalendarOps) (B : Int → Prop) [DecidablePred B] (lo : Int) : Prop where
  following : ∀ t t', lo ≤ t.ordinal → cal.roll t .FOLLOWING = .ok t' →
    t' = repr (dateOf t'.ordinal) ∧ FirstOnOrAfter B t.ordinal t'.ordinal
  preceding : ∀ t t', cal.roll t .PRECEDING = .ok t' → lo ≤ t'.ordinal →
    t' = repr (dateOf t'.ordinal) ∧ LastOnOrBefore B t.ordinal t'.ordinal
  between : ∀ a b n, lo ≤ a.ordinal → cal.businessDaysBetween a b = .ok n →
    n = (countIn B a.ordinal b.ordinal : Int)
  add : ∀ t n t', lo ≤ t.ordinal → B t.ordinal → cal.addBusinessDays t n .NONE = .ok t' →
    t' = repr (dateOf t'.ordinal) ∧
    (lo ≤ t'.ordinal ∨ 0 ≤ n → BusinessDaysAfter B t.ordinal n t'.ordinal)
  add_eq : ∀ t n t' f, lo ≤ t.ordinal → B t.ordinal → cal.addBusinessDays t n .NONE = .ok t' →
    lo ≤ f → BusinessDaysAfter B t.ordinal n f → t'.ordinal = f

theorem exists_least (P : Nat → Prop) (h : ∃ n, P n) : ∃ n, P n ∧ ∀ m < n, ¬ P m := by
  obtain ⟨n, hn⟩ := h
  induction n using Nat.strongRecOn with
  | _ n ih =>
    by_cases hm : ∃ m, m < n ∧ P m
    · obtain ⟨m, hmn, hp⟩ := hm; exact ih m hmn hp
    · exact ⟨n, hn, fun m h1 h2 => hm ⟨m, h1, h2⟩⟩

instance : Inhabited DateT := ⟨⟨1, 1, 1, 1⟩⟩

theorem mapM_inv {α β : Type} [Nonempty β] (f : α → Except String β) (l : List α) (r : List β)
    (hr : l.mapM f = .ok r) : ∃ g : α → β, r = l.map g ∧ ∀ x ∈ l, f x = .ok (g x) := by
  have hex : ∀ x, ∃ y, (∃ z, f x = .ok z) → f x = .ok y := by
    intro x
    by_cases h : ∃ z, f x = .ok z
    · obtain ⟨z, hz⟩ := h; exact ⟨z, fun _ => hz⟩
    · exact ⟨Classical.choice inferInstance, fun hh => absurd hh h⟩
  obtain ⟨g, hg⟩ := Classical.skolem.1 hex
  refine ⟨g, ?_⟩
  induction l generalizing r with
  | nil => cases hr; exact ⟨rfl, by simp⟩
  | cons a l ih =>
    rw [List.mapM_cons, bind_ok_iff] at hr
    obtain ⟨b, hb, hr⟩ := hr
    rw [bind_ok_iff] at hr
    obtain ⟨bs, hbs, hr⟩ := hr
    cases hr
    obtain ⟨e1, e2⟩ := ih bs hbs
    have hga := hg a ⟨b, hb⟩
    rw [hb] at hga
    cases hga
    refine ⟨by rw [e1]; rfl, fun x hx => ?_⟩
    rcases List.mem_cons.1 hx with rfl | hx
    · exact hb
    · exact e2 x hx

section
variable {B : Int → Prop} [DecidablePred B]

theorem countIn_rank (a : Int) (k : Nat) :
    countIn B a (a + (k : Int)) = rank (fun j => decide (B (a + Int.ofNat j))) k := by
  unfold countIn rank
  rw [show (a + (k : Int) - a).toNat = k by omega]

theorem countIn_mono {a b c : Int} (h : b ≤ c) : countIn B a b ≤ countIn B a c := by
  by_cases hab : a ≤ b
  · have e1 := countIn_rank (B := B) a (b - a).toNat
    have e2 := countIn_rank (B := B) a (c - a).toNat
    rw [show a + ((b - a).toNat : Int) = b by omega] at e1
    rw [show a + ((c - a).toNat : Int) = c by omega] at e2
    rw [e1, e2]
    exact rank_mono _ (by omega)
  · rw [countIn_eq_zero B (by omega)]; omega

theorem countIn_add {a b c : Int} (h1 : a ≤ b) (h2 : b ≤ c) :
    countIn B a c = countIn B a b + countIn B b c := by
  obtain ⟨n, hn⟩ : ∃ n : Nat, c = b + n := ⟨(c - b).toNat, by omega⟩
  subst hn
  clear h2
  induction n with
  | zero => simp [countIn_eq_zero B (Int.le_refl b)]
  | succ n ih =>
    have e1 := countIn_succ B (show a ≤ b + (n : Int) by omega)
    have e2 := countIn_succ B (show b ≤ b + (n : Int) by omega)
    rw [show b + ((n + 1 : Nat) : Int) = b + n + 1 by omega, e1, e2, ih]
    omega

theorem daysFromTo_getElem? (a b : Int) (k : Nat) (x : Int) :
    (daysFromTo B a b)[k]? = some x ↔ a ≤ x ∧ x ≤ b ∧ B x ∧ countIn B a x = k := by
  unfold daysFromTo
  rw [List.filter_map, List.getElem?_map]
  have e : ((fun x => decide (B x)) ∘ fun (k : Nat) => a + (k : Int)) =
      (fun j : Nat => decide (B (a + Int.ofNat j))) := rfl
  rw [e]
  constructor
  · intro h
    rw [Option.map_eq_some_iff] at h
    obtain ⟨j, hj, rfl⟩ := h
    rw [select_iff] at hj
    obtain ⟨h1, h2, h3⟩ := hj
    exact ⟨by omega, by omega, of_decide_eq_true h2, by rw [countIn_rank, h3]⟩
  · rintro ⟨h1, h2, h3, h4⟩
    rw [Option.map_eq_some_iff]
    refine ⟨(x - a).toNat, ?_, by omega⟩
    have ex : a + ((x - a).toNat : Int) = x := by omega
    rw [select_iff]
    refine ⟨by omega, ?_, ?_⟩
    · rw [decide_eq_true_iff]
      show B (a + ((x - a).toNat : Int))
      rwa [ex]
    · rw [← countIn_rank, ex, h4]

theorem daysFromTo_length {a b : Int} (h : a ≤ b) (hb : B b) :
    (daysFromTo B a b).length = countIn B a b + 1 := by
  have h1 := (daysFromTo_getElem? (B := B) a b (countIn B a b) b).2 ⟨h, Int.le_refl b, hb, rfl⟩
  have hlt : countIn B a b < (daysFromTo B a b).length := by
    by_contra hn
    rw [List.getElem?_eq_none (by omega)] at h1
    cases h1
  by_contra hne
  have hlt' : countIn B a b + 1 < (daysFromTo B a b).length := by omega
  obtain ⟨x, hx⟩ : ∃ x, (daysFromTo B a b)[countIn B a b + 1]? = some x :=
    ⟨_, List.getElem?_eq_getElem hlt'⟩
  rw [daysFromTo_getElem?] at hx
  obtain ⟨_, h2, _, h4⟩ := hx
  have := countIn_mono (B := B) (a := a) h2
  omega

/-- The days from the rolled start to the rolled end are those from start to end. -/
theorem daysFromTo_rolled {s e a b : Int} (ha : FirstOnOrAfter B s a) (hb : LastOnOrBefore B e b)
    (hab : a ≤ b) : daysFromTo B s e = daysFromTo B a b := by
  apply List.ext_getElem?
  intro k
  have hc : ∀ x, a ≤ x → countIn B s x = countIn B a x := by
    intro x hx
    have hz : countIn B s a = 0 := by
      obtain ⟨n, hn⟩ : ∃ n : Nat, a = s + n := ⟨(a - s).toNat, by have := ha.1; omega⟩
      rw [hn, countIn_rank]
      rw [← rank_zero (fun j => decide (B (s + Int.ofNat j)))]
      apply Eq.symm
      apply rank_eq_of_none _ (by omega)
      intro x _ hx
      rw [decide_eq_false_iff_not]
      exact ha.2.2 _ (by show s ≤ s + (x : Int); omega) (by show s + (x : Int) < a; omega)
    rw [countIn_add ha.1 hx, hz]; omega
  have key : ∀ x, (daysFromTo B s e)[k]? = some x ↔ (daysFromTo B a b)[k]? = some x := by
    intro x
    rw [daysFromTo_getElem?, daysFromTo_getElem?]
    constructor
    · rintro ⟨h1, h2, h3, h4⟩
      have hax : a ≤ x := by by_contra hlt; exact ha.2.2 x h1 (by omega) h3
      have hxb : x ≤ b := by by_contra hlt; exact hb.2.2 x (by omega) h2 h3
      exact ⟨hax, hxb, h3, by rw [← hc x hax]; exact h4⟩
    · rintro ⟨h1, h2, h3, h4⟩
      exact ⟨by have := ha.1; omega, by have := hb.1; omega, h3, by rw [hc x h1]; exact h4⟩
  cases h1 : (daysFromTo B s e)[k]? with
  | some x => exact ((key x).1 h1).symm
  | none =>
    cases h2 : (daysFromTo B a b)[k]? with
    | some x => rw [(key x).2 h2] at h1; cases h1
    | none => rfl

/-- A forward row. -/
theorem businessRow_forward {cal : CalendarOps} {lo : Int} (U : CalOpsOK cal B lo) {a b : DateT}
    (ha : lo ≤ a.ordinal) (hBa : B a.ordinal) (hBb : B b.ordinal) (hab : a.ordinal ≤ b.ordinal)
    {K : Nat} (hK : countIn B a.ordinal b.ordinal ≤ K) (g : Nat → DateT)
    (hg : ∀ k ∈ List.range (K + 1), cal.addBusinessDays a (k : Int) .NONE = .ok (g k)) :
    (((List.range (K + 1)).map g).map (fun t => if t.ordinal ≤ b.ordinal then t else b)).map DateT.ordinal =
      daysFromTo B a.ordinal b.ordinal ++
        List.replicate (K - countIn B a.ordinal b.ordinal) b.ordinal := by
  have hlen := daysFromTo_length (B := B) hab hBb
  apply List.ext_getElem
  · simp [hlen]; omega
  · intro i h1 h2
    simp only [List.length_map, List.length_range] at h1
    simp only [List.getElem_map, List.getElem_range]
    have hgi := hg i (List.mem_range.2 h1)
    by_cases hi : i < (daysFromTo B a.ordinal b.ordinal).length
    · rw [List.getElem_append_left hi]
      have hx := (daysFromTo_getElem? (B := B) a.ordinal b.ordinal i _).1 (List.getElem?_eq_getElem hi)
      obtain ⟨x1, x2, x3, x4⟩ := hx
      have := U.add_eq a i (g i) _ ha hBa hgi (show lo ≤ (daysFromTo B a.ordinal b.ordinal)[i] by omega)
        ⟨x3, fun _ => ⟨x1, by omega⟩, fun h0 => by
          have hi0 : i = 0 := by omega
          subst hi0
          have hlt : ¬ a.ordinal < (daysFromTo B a.ordinal b.ordinal)[0] := by
            intro hlt
            have := countIn_mono (B := B) (a := a.ordinal)
              (show a.ordinal + (1 : Int) ≤ (daysFromTo B a.ordinal b.ordinal)[0] by omega)
            rw [countIn_succ B (Int.le_refl _), if_pos hBa] at this
            omega
          refine ⟨by omega, ?_⟩
          rw [countIn_eq_zero B (by omega)]; simp⟩
      rw [← this]
      rw [if_pos (by omega)]
    · rw [List.getElem_append_right (by omega), List.getElem_replicate]
      by_cases hle : (g i).ordinal ≤ b.ordinal
      · exfalso
        have := ((U.add a i (g i) ha hBa hgi).2 (Or.inr (by omega))).2.1 (by omega)
        have := countIn_mono (B := B) (a := a.ordinal) hle
        omega
      · rw [if_neg hle]

/-- A backward row. -/
theorem businessRow_backward {cal : CalendarOps} {lo : Int} (U : CalOpsOK cal B lo) {a b : DateT}
    (ha : lo ≤ a.ordinal) (hBa : B a.ordinal) (hBb : B b.ordinal) (hab : a.ordinal ≤ b.ordinal)
    {K : Nat} (hK : countIn B a.ordinal b.ordinal ≤ K) (g : Nat → DateT)
    (hg : ∀ k ∈ List.range (K + 1),
      cal.addBusinessDays b (-((K + 1 : Nat) : Int) + 1 + (k : Int)) .NONE = .ok (g k)) :
    (((List.range (K + 1)).map g).map (fun t => if t.ordinal ≥ a.ordinal then t else a)).map DateT.ordinal =
      List.replicate (K - countIn B a.ordinal b.ordinal) a.ordinal ++
        daysFromTo B a.ordinal b.ordinal := by
  have hlen := daysFromTo_length (B := B) hab hBb
  generalize hn : countIn B a.ordinal b.ordinal = n at *
  apply List.ext_getElem
  · simp [hlen]; omega
  · intro i h1 h2
    simp only [List.length_map, List.length_range] at h1
    simp only [List.getElem_map, List.getElem_range]
    have hgi := hg i (List.mem_range.2 h1)
    by_cases hi : i < K - n
    · rw [List.getElem_append_left (by simpa using hi), List.getElem_replicate]
      by_cases hle : (g i).ordinal ≥ a.ordinal
      · exfalso
        obtain ⟨y1, _, y3⟩ := (U.add b _ (g i) (by omega) hBb hgi).2 (Or.inl (by omega))
        obtain ⟨y4, y5⟩ := y3 (by omega)
        have := countIn_add (B := B) hle y4
        omega
      · rw [if_neg hle]
    · rw [List.getElem_append_right (by simpa using hi)]
      simp only [List.length_replicate]
      have hi' : i - (K - n) < (daysFromTo B a.ordinal b.ordinal).length := by omega
      have hx := (daysFromTo_getElem? (B := B) a.ordinal b.ordinal _ _).1 (List.getElem?_eq_getElem hi')
      obtain ⟨x1, x2, x3, x4⟩ := hx
      have hsum := countIn_add (B := B) x1 x2
      have := U.add_eq b _ (g i) _ (by omega) hBb hgi
        (show lo ≤ (daysFromTo B a.ordinal b.ordinal)[i - (K - n)] by omega)
        ⟨x3, fun h0 => by
          have hz : countIn B (daysFromTo B a.ordinal b.ordinal)[i - (K - n)] b.ordinal = 0 := by omega
          have hlt : ¬ (daysFromTo B a.ordinal b.ordinal)[i - (K - n)] < b.ordinal := by
            intro hlt
            have := countIn_mono (B := B) (a := (daysFromTo B a.ordinal b.ordinal)[i - (K - n)])
              (show (daysFromTo B a.ordinal b.ordinal)[i - (K - n)] + 1 ≤ b.ordinal by omega)
            rw [countIn_succ B (Int.le_refl _), if_pos x3] at this
            omega
          refine ⟨by omega, ?_⟩
          rw [countIn_eq_zero B (by omega)]; omega,
         fun h0 => ⟨x2, by omega⟩⟩
      rw [← this]
      rw [if_pos (by omega)]

theorem daysFromTo_head {a b : Int} (h : a ≤ b) (ha : B a) : (daysFromTo B a b).headD 0 = a := by
  have := (daysFromTo_getElem? (B := B) a b 0 a).2 ⟨Int.le_refl _, h, ha, countIn_eq_zero B (Int.le_refl a)⟩
  rw [List.headD_eq_head?_getD, List.head?_eq_getElem?, this]; rfl

theorem daysFromTo_last {a b : Int} (h : a ≤ b) (hb : B b) : (daysFromTo B a b).getLastD 0 = b := by
  have := (daysFromTo_getElem? (B := B) a b (countIn B a b) b).2 ⟨h, Int.le_refl _, hb, rfl⟩
  rw [List.getLastD_eq_getLast?, List.getLast?_eq_getElem?, daysFromTo_length h hb, Nat.add_sub_cancel, this]; rfl

/-- The common shape of a batch of business day schedules. -/
theorem genBusinessDays_spec {cal : CalendarOps} {lo : Int} (U : CalOpsOK cal B lo)
    (rows : List (DateT × DateT)) (hrows : ∀ r ∈ rows, lo ≤ r.1.ordinal) (hne : rows ≠ [])
    (backward : Bool) (res : List (List DateT)) (h : genBusinessDays cal rows backward = .ok res) :
    ∃ (f : DateT × DateT → List DateT) (len : Nat), res = rows.map f ∧
      (∀ r ∈ rows, (∀ t ∈ f r, t = repr (dateOf t.ordinal)) ∧
        daysFromTo B r.1.ordinal r.2.ordinal ≠ [] ∧
        (daysFromTo B r.1.ordinal r.2.ordinal).length ≤ len ∧
        (f r).map DateT.ordinal = if backward then padBefore (daysFromTo B r.1.ordinal r.2.ordinal) len
          else padAfter (daysFromTo B r.1.ordinal r.2.ordinal) len) ∧
      (∃ r ∈ rows, (daysFromTo B r.1.ordinal r.2.ordinal).length = len) := by
  unfold genBusinessDays at h
  rw [bind_ok_iff] at h
  obtain ⟨rows', hr', h⟩ := h
  obtain ⟨g, rfl, hg⟩ := mapM_inv _ _ _ hr'
  have hga : ∀ r ∈ rows, cal.roll r.1 .FOLLOWING = .ok (g r).1 ∧ cal.roll r.2 .PRECEDING = .ok (g r).2 := by
    intro r hr
    have := hg r hr
    rw [bind_ok_iff] at this
    obtain ⟨a, h1, this⟩ := this
    rw [bind_ok_iff] at this
    obtain ⟨b, h2, this⟩ := this
    cases this' : g r with
    | mk x y => rw [this'] at this; cases this; exact ⟨h1, h2⟩
  by_cases hchk : ¬ ((rows.map g).all (fun r => decide (r.1.ordinal ≤ r.2.ordinal))) = true
  · rw [if_pos hchk] at h; cases h
  rw [Classical.not_not] at hchk
  rw [if_neg (by simpa using hchk)] at h
  simp only [List.all_eq_true, List.mem_map, forall_exists_index, and_imp,
    decide_eq_true_eq] at hchk
  have hab : ∀ r ∈ rows, (g r).1.ordinal ≤ (g r).2.ordinal := fun r hr => hchk _ r hr rfl
  rw [bind_ok_iff] at h
  obtain ⟨lens, hlens, h⟩ := h
  obtain ⟨ln, rfl, hln⟩ := mapM_inv _ _ _ hlens
  have hfst : ∀ r ∈ rows, (g r).1 = repr (dateOf (g r).1.ordinal) ∧
      FirstOnOrAfter B r.1.ordinal (g r).1.ordinal := fun r hr => U.following _ _ (hrows r hr) (hga r hr).1
  have hlo : ∀ r ∈ rows, lo ≤ (g r).1.ordinal := fun r hr => by
    have := (hfst r hr).2.1; have := hrows r hr; omega
  have hlst : ∀ r ∈ rows, (g r).2 = repr (dateOf (g r).2.ordinal) ∧
      LastOnOrBefore B r.2.ordinal (g r).2.ordinal := fun r hr =>
    U.preceding _ _ (hga r hr).2 (by have := hlo r hr; have := hab r hr; omega)
  have hcnt : ∀ r ∈ rows, ln (g r) = (countIn B (g r).1.ordinal (g r).2.ordinal : Int) := fun r hr =>
    U.between _ _ _ (hlo r hr) (hln _ (List.mem_map_of_mem hr))
  have hday : ∀ r ∈ rows, daysFromTo B r.1.ordinal r.2.ordinal =
      daysFromTo B (g r).1.ordinal (g r).2.ordinal := fun r hr =>
    daysFromTo_rolled (hfst r hr).2 (hlst r hr).2 (hab r hr)
  have hlen : ∀ r ∈ rows, (daysFromTo B r.1.ordinal r.2.ordinal).length =
      countIn B (g r).1.ordinal (g r).2.ordinal + 1 := fun r hr => by
    rw [hday r hr, daysFromTo_length (hab r hr) (hlst r hr).2.2.1]
  obtain ⟨K, hK, hKm, hKle⟩ : ∃ K : Nat, (((rows.map g).map ln).max?.getD 0).natAbs = K ∧
      (∃ r ∈ rows, countIn B (g r).1.ordinal (g r).2.ordinal = K) ∧
      ∀ r ∈ rows, countIn B (g r).1.ordinal (g r).2.ordinal ≤ K := by
    cases hm : ((rows.map g).map ln).max? with
    | none => rw [List.max?_eq_none_iff] at hm; simp at hm; exact absurd hm hne
    | some m =>
      rw [List.max?_eq_some_iff] at hm
      obtain ⟨h1, h2⟩ := hm
      simp only [List.mem_map, exists_exists_and_eq_and] at h1
      obtain ⟨r, hr, rfl⟩ := h1
      refine ⟨_, rfl, ⟨r, hr, ?_⟩, fun r' hr' => ?_⟩
      · rw [hcnt r hr]; simp
      · have := h2 (ln (g r')) (List.mem_map_of_mem (List.mem_map_of_mem hr'))
        rw [hcnt r' hr', hcnt r hr] at this
        rw [hcnt r hr]; simp; omega
  simp only [hK] at h
  obtain ⟨r0, hr0, hr0K⟩ := hKm
  cases backward with
  | false =>
    simp only [Bool.false_eq_true, if_false] at h ⊢
    obtain ⟨q, rfl, hq⟩ := mapM_inv _ _ _ h
    rw [List.map_map]
    refine ⟨q ∘ g, K + 1, rfl, fun r hr => ?_, r0, hr0, by rw [hlen r0 hr0, hr0K]⟩
    have hqr := hq (g r) (List.mem_map_of_mem hr)
    rw [bind_ok_iff] at hqr
    obtain ⟨l, hl, hqr⟩ := hqr
    obtain ⟨w, rfl, hw⟩ := mapM_inv _ _ _ hl
    have hql : q (g r) = ((List.range (K + 1)).map w).map
        (fun t => if t.ordinal ≤ (g r).2.ordinal then t else (g r).2) := by
      exact (Except.ok.inj hqr).symm
    show (∀ t ∈ q (g r), _) ∧ _ ∧ _ ∧ (q (g r)).map _ = _
    rw [hql]
    refine ⟨?_, ?_, by rw [hlen r hr]; have := hKle r hr; omega, ?_⟩
    · intro t ht
      simp only [List.mem_map, exists_exists_and_eq_and] at ht
      obtain ⟨k, hk, rfl⟩ := ht
      by_cases hc : (w k).ordinal ≤ (g r).2.ordinal
      · rw [if_pos hc]; exact (U.add _ _ _ (hlo r hr) (hfst r hr).2.2.1 (hw k hk)).1
      · rw [if_neg hc]; exact (hlst r hr).1
    · intro h0; have := hlen r hr; rw [h0] at this; simp at this
    · rw [businessRow_forward U (hlo r hr) (hfst r hr).2.2.1 (hlst r hr).2.2.1 (hab r hr) (hKle r hr) w hw]
      unfold padAfter
      rw [hlen r hr, hday r hr, daysFromTo_last (hab r hr) (hlst r hr).2.2.1, Nat.add_sub_add_right]
  | true =>
    simp only [if_true] at h ⊢
    obtain ⟨q, rfl, hq⟩ := mapM_inv _ _ _ h
    rw [List.map_map]
    refine ⟨q ∘ g, K + 1, rfl, fun r hr => ?_, r0, hr0, by rw [hlen r0 hr0, hr0K]⟩
    have hqr := hq (g r) (List.mem_map_of_mem hr)
    rw [bind_ok_iff] at hqr
    obtain ⟨l, hl, hqr⟩ := hqr
    obtain ⟨w, rfl, hw⟩ := mapM_inv _ _ _ hl
    have hql : q (g r) = ((List.range (K + 1)).map w).map
        (fun t => if t.ordinal ≥ (g r).1.ordinal then t else (g r).1) := by
      exact (Except.ok.inj hqr).symm
    show (∀ t ∈ q (g r), _) ∧ _ ∧ _ ∧ (q (g r)).map _ = _
    rw [hql]
    refine ⟨?_, ?_, by rw [hlen r hr]; have := hKle r hr; omega, ?_⟩
    · intro t ht
      simp only [List.mem_map, exists_exists_and_eq_and] at ht
      obtain ⟨k, hk, rfl⟩ := ht
      by_cases hc : (w k).ordinal ≥ (g r).1.ordinal
      · rw [if_pos hc]
        exact (U.add _ _ _ (by have := hlo r hr; have := hab r hr; omega) (hlst r hr).2.2.1 (hw k hk)).1
      · rw [if_neg hc]; exact (hfst r hr).1
    · intro h0; have := hlen r hr; rw [h0] at this; simp at this
    · rw [businessRow_backward U (hlo r hr) (hfst r hr).2.2.1 (hlst r hr).2.2.1 (hab r hr) (hKle r hr) w hw]
      unfold padBefore
      rw [hlen r hr, hday r hr, daysFromTo_head (hab r hr) (hfst r hr).2.2.1, Nat.add_sub_add_right]

end

end Lemmas
