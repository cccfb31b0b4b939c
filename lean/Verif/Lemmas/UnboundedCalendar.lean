import Verif.Lemmas.BizSpace

/-! The arithmetic calendar as a business day space. -/

namespace Lemmas
open Model Spec

theorem countIn_congr {B B' : Int → Prop} [DecidablePred B] [DecidablePred B'] {a b : Int}
    (h : ∀ x, a ≤ x → x < b → (B x ↔ B' x)) : countIn B a b = countIn B' a b := by
  by_cases hab : a ≤ b
  · obtain ⟨n, hn⟩ : ∃ n : Nat, b = a + n := ⟨(b - a).toNat, by omega⟩
    subst hn
    clear hab
    induction n with
    | zero => rw [countIn_eq_zero _ (by omega), countIn_eq_zero _ (by omega)]
    | succ n ih =>
      rw [show a + ((n + 1 : Nat) : Int) = a + n + 1 by omega, countIn_succ _ (by omega),
        countIn_succ _ (by omega), ih (fun x h1 h2 => h x h1 (by omega))]
      have := h (a + n) (by omega) (by omega)
      by_cases hb : B (a + n)
      · rw [if_pos hb, if_pos (this.1 hb)]
      · rw [if_neg hb, if_neg (fun hb' => hb (this.2 hb'))]
  · rw [countIn_eq_zero _ (by omega), countIn_eq_zero _ (by omega)]

theorem first_congr {B B' : Int → Prop} {d r : Int} (h : ∀ x, d ≤ x → x ≤ r → (B x ↔ B' x)) :
    FirstOnOrAfter B d r ↔ FirstOnOrAfter B' d r := by
  constructor
  · rintro ⟨a, b, e⟩
    exact ⟨a, (h r a (Int.le_refl r)).1 b, fun x h1 h2 hx => e x h1 h2 ((h x h1 (by omega)).2 hx)⟩
  · rintro ⟨a, b, e⟩
    exact ⟨a, (h r a (Int.le_refl r)).2 b, fun x h1 h2 hx => e x h1 h2 ((h x h1 (by omega)).1 hx)⟩

theorem last_congr {B B' : Int → Prop} {d r : Int} (h : ∀ x, r ≤ x → x ≤ d → (B x ↔ B' x)) :
    LastOnOrBefore B d r ↔ LastOnOrBefore B' d r := by
  constructor
  · rintro ⟨a, b, e⟩
    exact ⟨a, (h r (Int.le_refl r) a).1 b, fun x h1 h2 hx => e x h1 h2 ((h x (by omega) h2).2 hx)⟩
  · rintro ⟨a, b, e⟩
    exact ⟨a, (h r (Int.le_refl r) a).2 b, fun x h1 h2 hx => e x h1 h2 ((h x (by omega) h2).1 hx)⟩

/-- What the calendar computes with: numbering, inverse and business days, agreeing with the
specification from ordinal 8 on. -/
structure UnbOK (c : UnboundedCal) (mask : List Nat) (hols : List Int) (F G : Int → Int)
    (B : Int → Prop) [DecidablePred B] : Prop where
  space : BizSpace F G B
  to : ∀ o, c.toBiz o = (F o, decide (B o))
  «from» : ∀ k, c.fromBiz k = .ok (G k)
  agree : ∀ o, 8 ≤ o → (B o ↔ IsBusinessDay mask hols o)

theorem mask_bit (mask : List Nat) (hm : mask.length = 7) (o : Int) :
    ((mask.map (fun b => b != 0)).getD (weekday o) false = false) ↔ mask[weekday o]? = some 0 := by
  have hw := weekday_lt o
  rw [List.getD_eq_getElem?_getD, List.getElem?_map, List.getElem?_eq_getElem (by omega)]
  simp

theorem unb_week (mask : List Nat) (hm : mask.length = 7) (hw : 0 ∈ mask) :
    UnbOK ⟨some (mask.map (fun b => b != 0)), none⟩ mask []
      (fun o => (weekdayForward (mask.map (fun b => b != 0)) o).1) (weekG (mask.map (fun b => b != 0)))
      (fun o => (weekdayForward (mask.map (fun b => b != 0)) o).2 = true) := by
  have hm' : (mask.map (fun b => b != 0)).length = 7 := by rw [List.length_map]; exact hm
  have hw' : false ∈ mask.map (fun b => b != 0) := List.mem_map.2 ⟨0, hw, rfl⟩
  refine ⟨weekSpace hm' hw', fun o => ?_, fun k => ?_, fun o _ => ?_⟩
  · simp only [UnboundedCal.toBiz, weekDayMappers]
    rw [Bool.decide_eq_true]
  · simp only [UnboundedCal.fromBiz, weekDayMappers]
    exact weekdayBackward_eq hm' hw' k
  · rw [weekdayForward_iff]
    unfold IsBusinessDay
    rw [← mask_bit mask hm o]
    simp

theorem unb_none : UnbOK ⟨none, none⟩ weekendMaskNone [] (fun o => o) (fun k => k) (fun _ => True) := by
  refine ⟨⟨fun o => by simp, fun _ => trivial, fun _ => rfl⟩, fun o => rfl, fun k => rfl, fun o _ => ?_⟩
  have := weekday_lt o
  simp only [true_iff]
  refine ⟨?_, by simp⟩
  unfold weekendMaskNone
  have : weekday o = 0 ∨ weekday o = 1 ∨ weekday o = 2 ∨ weekday o = 3 ∨ weekday o = 4 ∨
    weekday o = 5 ∨ weekday o = 6 := by omega
  rcases this with h | h | h | h | h | h | h <;> rw [h] <;> rfl

theorem bizHolidays_mem (fwd : Int → Int × Bool) (hols : List Int) (x : Int) :
    x ∈ bizHolidays fwd hols ↔ x = 0 ∨ ∃ h ∈ hols, (fwd h).2 = true ∧ (fwd h).1 = x := by
  unfold bizHolidays
  rw [List.mem_cons]
  apply or_congr Iff.rfl
  simp only [List.mem_map, List.mem_filter]
  constructor
  · rintro ⟨p, ⟨⟨h, hh, rfl⟩, h2⟩, rfl⟩; exact ⟨h, hh, h2, rfl⟩
  · rintro ⟨h, hh, h2, rfl⟩; exact ⟨fwd h, ⟨⟨h, hh, rfl⟩, h2⟩, rfl⟩

theorem unb_full (mask : List Nat) (hm : mask.length = 7) (hw : 0 ∈ mask) (hols : List Int)
    (hs : hols.Pairwise (· < ·)) (h8 : ∀ h ∈ hols, 8 ≤ h) :
    ∃ (F G : Int → Int) (B : Int → Prop) (_ : DecidablePred B),
      UnbOK ⟨some (mask.map (fun b => b != 0)), some hols⟩ mask hols F G B := by
  have hm' : (mask.map (fun b => b != 0)).length = 7 := by rw [List.length_map]; exact hm
  have hw' : false ∈ mask.map (fun b => b != 0) := List.mem_map.2 ⟨0, hw, rfl⟩
  have W := weekSpace hm' hw'
  have hz := weekG_zero_lt hm' hw'
  have hbit := mask_bit mask hm
  generalize mask.map (fun b => b != 0) = m at *
  have inj : ∀ a b, (weekdayForward m a).2 = true → (weekdayForward m b).2 = true →
      (weekdayForward m a).1 = (weekdayForward m b).1 → a = b := by
    intro a b ha hb hab
    have e1 := W.G_F ha
    have e2 := W.G_F hb
    rw [← e1, ← e2]
    simp only [hab]
  have pos : ∀ a, 7 ≤ a → (weekdayForward m a).2 = true → 0 < (weekdayForward m a).1 := by
    intro a ha hb
    have e1 := W.inv 0
    have := W.lt (show weekG m 0 < a by omega) (Int.le_refl a) hb
    omega
  have hsort : (bizHolidays (weekdayForward m) hols).Pairwise (· < ·) := by
    have key : ∀ l : List Int, l.Pairwise (· < ·) →
        (((l.map (weekdayForward m)).filter (fun p => p.2)).map (fun p => p.1)).Pairwise (· < ·) := by
      intro l hl
      induction l with
      | nil => simp
      | cons a t ih =>
        rw [List.pairwise_cons] at hl
        rw [List.map_cons, List.filter_cons]
        split
        · rename_i ha
          rw [List.map_cons, List.pairwise_cons]
          refine ⟨?_, ih hl.2⟩
          intro x hx
          simp only [List.mem_map, List.mem_filter] at hx
          obtain ⟨p, ⟨⟨h, hh, rfl⟩, h2⟩, rfl⟩ := hx
          exact W.lt (hl.1 h hh) (Int.le_refl h) h2
        · exact ih hl.2
    unfold bizHolidays
    rw [List.pairwise_cons]
    refine ⟨?_, key hols hs⟩
    intro x hx
    simp only [List.mem_map, List.mem_filter] at hx
    obtain ⟨p, ⟨⟨h, hh, rfl⟩, h2⟩, rfl⟩ := hx
    exact pos h (by have := h8 h hh; omega) h2
  have S := W.comp (holidaySpace hsort)
  refine ⟨_, _, _, _, S, fun o => ?_, fun k => ?_, fun o ho => ?_⟩
  · simp only [UnboundedCal.toBiz, weekDayMappers]
    congr 1
    rw [Bool.eq_iff_iff, Bool.and_eq_true, bizdayFwd_snd hsort, decide_eq_true_iff]
  · simp only [UnboundedCal.fromBiz, weekDayMappers]
    exact weekdayBackward_eq hm' hw' _
  · rw [bizHolidays_mem]
    have e : (weekdayForward m o).2 = true ↔ mask[weekday o]? = some 0 := by
      rw [weekdayForward_iff, ← hbit]; simp
    unfold IsBusinessDay
    rw [← e]
    constructor
    · rintro ⟨h1, h2⟩
      refine ⟨h1, fun hmem => h2 (Or.inr ⟨o, hmem, h1, rfl⟩)⟩
    · rintro ⟨h1, h2⟩
      refine ⟨h1, ?_⟩
      rintro (h0 | ⟨h, hh, h3, h4⟩)
      · have := pos o (by omega) h1
        omega
      · have := inj h o h3 h1 h4
        subst this
        exact h2 hh

theorem getMonth_eq (o : Int) : UnboundedCal.getMonth o = (dateOf o).month := rfl

section
variable {c : UnboundedCal} {mask : List Nat} {hols : List Int} {F G : Int → Int} {B : Int → Prop}
  [DecidablePred B] (U : UnbOK c mask hols F G B)
include U

theorem unb_first {d : Int} (hd : 8 ≤ d) :
    FirstOnOrAfter (IsBusinessDay mask hols) d (G (if B d then F d else F d + 1)) :=
  (first_congr (fun x h1 _ => U.agree x (by omega))).1 (U.space.first' d)

theorem unb_last {d r : Int} (hr : 8 ≤ r) (h : LastOnOrBefore (IsBusinessDay mask hols) d r) :
    G (F d) = r :=
  last_unique (U.space.last d) ((last_congr (fun x h1 _ => U.agree x (by omega))).2 h)

theorem unb_roll_iff (t : DateT) (conv : BusinessDayConvention) (hc : conv ≠ .NONE) (k : Int)
    (hk : c.applyRoll t (F t.ordinal) (decide (B t.ordinal)) conv = .ok k) (h0 : 0 < G k) :
    c.roll t conv = .ok (repr (dateOf (G k))) := by
  have key : c.roll t conv = (do
    let b := c.toBiz t.ordinal
    let k ← c.applyRoll t b.1 b.2 conv
    let o ← c.fromBiz k
    fromOrdinals o) := by
    unfold UnboundedCal.roll
    cases conv <;> first | contradiction | rfl
  rw [key]
  simp only [U.to]
  rw [hk, bind_ok, U.from, bind_ok, fromOrdinals_pos _ h0]

theorem unb_roll_ok (t u : DateT) (conv : BusinessDayConvention) (hc : conv ≠ .NONE)
    (hu : c.roll t conv = .ok u) :
    ∃ k, c.applyRoll t (F t.ordinal) (decide (B t.ordinal)) conv = .ok k ∧ 0 < G k ∧
      u = repr (dateOf (G k)) := by
  have key : c.roll t conv = (do
    let b := c.toBiz t.ordinal
    let k ← c.applyRoll t b.1 b.2 conv
    let o ← c.fromBiz k
    fromOrdinals o) := by
    unfold UnboundedCal.roll
    cases conv <;> first | contradiction | rfl
  rw [key] at hu
  simp only [U.to] at hu
  rw [bind_ok_iff] at hu
  obtain ⟨k, hk, hu⟩ := hu
  rw [U.from, bind_ok] at hu
  refine ⟨k, hk, ?_, ?_⟩
  · by_contra hn
    have := fromOrdinals_nonpos _ hn _ hu
    cases this
  · by_cases hn : 0 < G k
    · rw [fromOrdinals_pos _ hn] at hu; cases hu; rfl
    · have := fromOrdinals_nonpos _ hn _ hu
      cases this

theorem unb_following (t : DateT) (h8 : 8 ≤ t.ordinal) :
    ∃ r, FirstOnOrAfter (IsBusinessDay mask hols) t.ordinal r ∧
      c.roll t .FOLLOWING = .ok (repr (dateOf r)) := by
  have hf := unb_first U h8
  refine ⟨_, hf, unb_roll_iff U t .FOLLOWING (by decide) _ ?_ (by have := hf.1; omega)⟩
  simp only [UnboundedCal.applyRoll]
  by_cases hb : B t.ordinal <;> simp [hb]

theorem unb_preceding (t : DateT) {r : Int} (hr : 8 ≤ r)
    (h : LastOnOrBefore (IsBusinessDay mask hols) t.ordinal r) :
    c.roll t .PRECEDING = .ok (repr (dateOf r)) := by
  have e := unb_last U hr h
  rw [← e]
  exact unb_roll_iff U t .PRECEDING (by decide) _ rfl (by omega)

theorem unb_modFollowing (t : DateT) (h8 : 8 ≤ t.ordinal) (hm : t.month = (dateOf t.ordinal).month)
    (hg : ∃ x, t.ordinal ≤ x ∧ x < t.ordinal + 300 ∧ IsBusinessDay mask hols x)
    {r : Int} (hr : 8 ≤ r) (h : ModifiedFollowing (IsBusinessDay mask hols) t.ordinal r) :
    c.roll t .MODIFIED_FOLLOWING = .ok (repr (dateOf r)) := by
  have hf := unb_first U h8
  generalize hk : (if B t.ordinal then F t.ordinal else F t.ordinal + 1) = k at hf
  have hap : c.applyRoll t (F t.ordinal) (decide (B t.ordinal)) .MODIFIED_FOLLOWING =
      .ok (if UnboundedCal.getMonth (G k) ≠ t.month then F t.ordinal else k) := by
    simp only [UnboundedCal.applyRoll]
    have : (if decide (B t.ordinal) = true then F t.ordinal else F t.ordinal + 1) = k := by
      rw [← hk]; by_cases hb : B t.ordinal <;> simp [hb]
    rw [this, U.from, bind_ok]; rfl
  have hgap : G k - t.ordinal ≤ 300 := by
    obtain ⟨x, h1, h2, h3⟩ := hg
    by_contra hlt
    exact hf.2.2 x h1 (by omega) h3
  have hsm := month_iff_sameMonth hf.1 (by omega)
  rcases h with ⟨hF, hs⟩ | ⟨hn, hL⟩
  · have e := first_unique hf hF
    subst e
    have : c.applyRoll t (F t.ordinal) (decide (B t.ordinal)) .MODIFIED_FOLLOWING = .ok k := by
      rw [hap, if_neg]
      rw [getMonth_eq, hm]
      intro hne
      exact hne (hsm.2 (sameMonth_symm hs)).symm
    exact unb_roll_iff U t _ (by decide) k this (by omega)
  · have e := unb_last U hr hL
    have : c.applyRoll t (F t.ordinal) (decide (B t.ordinal)) .MODIFIED_FOLLOWING = .ok (F t.ordinal) := by
      rw [hap, if_pos]
      rw [getMonth_eq, hm]
      intro he
      exact hn _ hf (sameMonth_symm (hsm.1 he.symm))
    rw [← e]
    exact unb_roll_iff U t _ (by decide) _ this (by omega)

theorem unb_modPreceding (t : DateT) (h8 : 400 ≤ t.ordinal) (hm : t.month = (dateOf t.ordinal).month)
    (hg : ∃ x, t.ordinal - 300 < x ∧ x ≤ t.ordinal ∧ IsBusinessDay mask hols x)
    {r : Int} (h : ModifiedPreceding (IsBusinessDay mask hols) t.ordinal r) :
    c.roll t .MODIFIED_PRECEDING = .ok (repr (dateOf r)) := by
  have hf := unb_first U (show 8 ≤ t.ordinal by omega)
  have hp := U.space.last t.ordinal
  generalize hk : (if B t.ordinal then F t.ordinal else F t.ordinal + 1) = k at hf
  have hap : c.applyRoll t (F t.ordinal) (decide (B t.ordinal)) .MODIFIED_PRECEDING =
      .ok (if UnboundedCal.getMonth (G (F t.ordinal)) ≠ t.month then k else F t.ordinal) := by
    simp only [UnboundedCal.applyRoll]
    have : (if decide (B t.ordinal) = true then F t.ordinal else F t.ordinal + 1) = k := by
      rw [← hk]; by_cases hb : B t.ordinal <;> simp [hb]
    rw [this, U.from, bind_ok]; rfl
  have hgap : t.ordinal - G (F t.ordinal) ≤ 300 := by
    obtain ⟨x, h1, h2, h3⟩ := hg
    by_contra hlt
    exact hp.2.2 x (by omega) h2 ((U.agree x (by omega)).2 h3)
  have hp' := (last_congr (fun x h1 _ => U.agree x (by omega))).1 hp
  have hsm := month_iff_sameMonth hp.1 (by omega)
  rcases h with ⟨hF, hs⟩ | ⟨hn, hL⟩
  · have e := last_unique hp' hF
    subst e
    have : c.applyRoll t (F t.ordinal) (decide (B t.ordinal)) .MODIFIED_PRECEDING = .ok (F t.ordinal) := by
      rw [hap, if_neg]
      rw [getMonth_eq, hm]
      intro hne
      exact hne (hsm.2 hs)
    exact unb_roll_iff U t _ (by decide) _ this (by omega)
  · have e := first_unique hf hL
    have : c.applyRoll t (F t.ordinal) (decide (B t.ordinal)) .MODIFIED_PRECEDING = .ok k := by
      rw [hap, if_pos]
      rw [getMonth_eq, hm]
      intro he
      exact hn _ hp' (hsm.1 he)
    rw [← e]
    exact unb_roll_iff U t _ (by decide) _ this (by have := hf.1; omega)

/-- MODIFIED_FOLLOWING as the code computes it: by comparing month numbers. -/
theorem unb_modFollowing_raw (t : DateT) (h8 : 8 ≤ t.ordinal) {f r : Int}
    (hF : FirstOnOrAfter (IsBusinessDay mask hols) t.ordinal f)
    (hr : if (dateOf f).month = t.month then r = f
      else 8 ≤ r ∧ LastOnOrBefore (IsBusinessDay mask hols) t.ordinal r) :
    c.roll t .MODIFIED_FOLLOWING = .ok (repr (dateOf r)) := by
  have hf := unb_first U h8
  generalize hk : (if B t.ordinal then F t.ordinal else F t.ordinal + 1) = k at hf
  have hap : c.applyRoll t (F t.ordinal) (decide (B t.ordinal)) .MODIFIED_FOLLOWING =
      .ok (if UnboundedCal.getMonth (G k) ≠ t.month then F t.ordinal else k) := by
    simp only [UnboundedCal.applyRoll]
    have : (if decide (B t.ordinal) = true then F t.ordinal else F t.ordinal + 1) = k := by
      rw [← hk]; by_cases hb : B t.ordinal <;> simp [hb]
    rw [this, U.from, bind_ok]; rfl
  have e := first_unique hf hF
  rw [getMonth_eq, e] at hap
  by_cases hm : (dateOf f).month = t.month
  · rw [if_neg (fun hne => hne hm)] at hap
    rw [if_pos hm] at hr
    rw [hr, ← e]
    exact unb_roll_iff U t _ (by decide) k hap (by have := hf.1; omega)
  · rw [if_pos hm] at hap
    rw [if_neg hm] at hr
    rw [← unb_last U hr.1 hr.2]
    exact unb_roll_iff U t _ (by decide) _ hap (by rw [unb_last U hr.1 hr.2]; omega)

/-- MODIFIED_PRECEDING as the code computes it. -/
theorem unb_modPreceding_raw (t : DateT) (h8 : 8 ≤ t.ordinal) {p r : Int} (hp8 : 8 ≤ p)
    (hP : LastOnOrBefore (IsBusinessDay mask hols) t.ordinal p)
    (hr : if (dateOf p).month = t.month then r = p
      else FirstOnOrAfter (IsBusinessDay mask hols) t.ordinal r) :
    c.roll t .MODIFIED_PRECEDING = .ok (repr (dateOf r)) := by
  have hf := unb_first U h8
  have e := unb_last U hp8 hP
  generalize hk : (if B t.ordinal then F t.ordinal else F t.ordinal + 1) = k at hf
  have hap : c.applyRoll t (F t.ordinal) (decide (B t.ordinal)) .MODIFIED_PRECEDING =
      .ok (if UnboundedCal.getMonth (G (F t.ordinal)) ≠ t.month then k else F t.ordinal) := by
    simp only [UnboundedCal.applyRoll]
    have : (if decide (B t.ordinal) = true then F t.ordinal else F t.ordinal + 1) = k := by
      rw [← hk]; by_cases hb : B t.ordinal <;> simp [hb]
    rw [this, U.from, bind_ok]; rfl
  rw [getMonth_eq, e] at hap
  by_cases hm : (dateOf p).month = t.month
  · rw [if_neg (fun hne => hne hm)] at hap
    rw [if_pos hm] at hr
    rw [hr, ← e]
    exact unb_roll_iff U t _ (by decide) _ hap (by omega)
  · rw [if_pos hm] at hap
    rw [if_neg hm] at hr
    rw [← first_unique hf hr]
    exact unb_roll_iff U t _ (by decide) _ hap (by have := hf.1; omega)

theorem unb_between (a b : DateT) (ha : 8 ≤ a.ordinal) :
    c.businessDaysBetween a b = (countIn (IsBusinessDay mask hols) a.ordinal b.ordinal : Int) := by
  simp only [UnboundedCal.businessDaysBetween, U.to]
  have e : ∀ o, (if decide (B o) = true then F o else F o + 1) = F (o - 1) + 1 := by
    intro o; rw [← U.space.pred o]; by_cases hb : B o <;> simp [hb]
  rw [e, e]
  have hc : countIn (IsBusinessDay mask hols) a.ordinal b.ordinal = countIn B a.ordinal b.ordinal :=
    countIn_congr (fun x h1 _ => (U.agree x (by omega)).symm)
  rw [hc]
  by_cases hab : a.ordinal ≤ b.ordinal
  · rw [U.space.count hab]
    have := U.space.mono (show a.ordinal - 1 ≤ b.ordinal - 1 by omega)
    omega
  · rw [countIn_eq_zero _ (by omega)]
    have := U.space.mono (show b.ordinal - 1 ≤ a.ordinal - 1 by omega)
    omega

theorem unb_after {d n r : Int} (hd : 8 ≤ d) (hr : 8 ≤ r) (hB : IsBusinessDay mask hols d)
    (h : BusinessDaysAfter (IsBusinessDay mask hols) d n r) : G (F d + n) = r := by
  refine after_unique (U.space.after ((U.agree d hd).2 hB)) ?_
  obtain ⟨a, b, e⟩ := h
  refine ⟨(U.agree r hr).2 a, fun hn => ?_, fun hn => ?_⟩
  · obtain ⟨p, q⟩ := b hn
    exact ⟨p, by rw [countIn_congr (fun x h1 _ => U.agree x (by omega))]; exact q⟩
  · obtain ⟨p, q⟩ := e hn
    exact ⟨p, by rw [countIn_congr (fun x h1 _ => U.agree x (by omega))]; exact q⟩

theorem unb_add (t : DateT) (n : Int) (conv : BusinessDayConvention) {d r : Int}
    (hd : 8 ≤ d) (hr : 8 ≤ r) (hB : IsBusinessDay mask hols d)
    (hstart : if conv = .NONE then t.ordinal = d else ∃ u, c.roll t conv = .ok u ∧ u.ordinal = d)
    (h : BusinessDaysAfter (IsBusinessDay mask hols) d n r) :
    c.addBusinessDays t n conv = .ok (repr (dateOf r)) := by
  have hG := unb_after U hd hr hB h
  unfold UnboundedCal.addBusinessDays
  by_cases hc : conv = .NONE
  · subst hc
    simp only [if_true] at hstart
    subst hstart
    have hBB := (U.agree _ hd).2 hB
    simp only [U.to, hBB, decide_true, UnboundedCal.applyRoll]
    rw [if_neg (by simp), bind_ok, U.from, bind_ok, hG, fromOrdinals_pos _ (by omega)]
  · rw [if_neg hc] at hstart
    obtain ⟨u, hu, rfl⟩ := hstart
    obtain ⟨k, hk, h0, rfl⟩ := unb_roll_ok U t u conv hc hu
    have hord : (repr (dateOf (G k))).ordinal = G k := dateOf_number _
    rw [hord, U.space.inv] at hG
    simp only [U.to, hc, false_and, if_false]
    rw [hk, bind_ok, U.from, bind_ok, hG, fromOrdinals_pos _ (by omega)]

theorem unb_add_none_error (t : DateT) (n : Int) (h8 : 8 ≤ t.ordinal)
    (hB : ¬ IsBusinessDay mask hols t.ordinal) : ∃ e, c.addBusinessDays t n .NONE = .error e := by
  unfold UnboundedCal.addBusinessDays
  have hBB : ¬ B t.ordinal := fun h => hB ((U.agree _ h8).1 h)
  simp only [U.to, hBB, decide_false]
  exact ⟨_, rfl⟩

theorem unb_isBusinessDay (t : DateT) (h8 : 8 ≤ t.ordinal) :
    c.isBusinessDay t = decide (IsBusinessDay mask hols t.ordinal) := by
  unfold UnboundedCal.isBusinessDay
  rw [U.to]
  simp only [decide_eq_decide]
  exact U.agree _ h8

end

end Lemmas
