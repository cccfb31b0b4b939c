import Verif.Model.ShapeUtils
import Verif.Spec.ShapeUtils
import Verif.Lemmas.NdArray
import Verif.Lemmas.AndersenLake
import Mathlib.Tactic.FinCases

/-! # C105: common shapes -/

namespace Props
open Model Spec Lemmas

namespace ShapeUtils

/-- Broadcasting from the last dimension backwards. -/
def RevTo : List Nat → List Nat → Prop
  | [], _ => True
  | _ :: _, [] => False
  | a :: as, c :: cs => (a = c ∨ a = 1) ∧ RevTo as cs

theorem revTo_iff : ∀ (s t : List Nat), RevTo s t ↔ ∃ rest post, t = rest ++ post ∧ List.Forall₂ (fun a b => a = b ∨ a = 1) s rest
  | [], t => by simp [RevTo]
  | a :: as, [] => by
    simp only [RevTo, false_iff, not_exists, not_and]
    rintro rest post h hf
    obtain ⟨h1, -⟩ := List.append_eq_nil_iff.1 h.symm
    rw [h1] at hf
    cases hf
  | a :: as, c :: cs => by
    rw [RevTo, revTo_iff as cs]
    constructor
    · rintro ⟨h, rest, post, rfl, hf⟩
      exact ⟨c :: rest, post, rfl, .cons h hf⟩
    · rintro ⟨rest, post, h, hf⟩
      cases hf with
      | cons h1 h2 =>
        rw [List.cons_append, List.cons.injEq] at h
        exact ⟨h.1 ▸ h1, _, _, h.2, h2⟩

theorem broadcastsTo_iff (s t : List Nat) : BroadcastsTo s t ↔ RevTo s.reverse t.reverse := by
  rw [revTo_iff]
  constructor
  · rintro ⟨pre, rest, rfl, hf⟩
    exact ⟨rest.reverse, pre.reverse, by simp, List.rel_reverse hf⟩
  · rintro ⟨rest, post, h, hf⟩
    refine ⟨post.reverse, rest.reverse, ?_, ?_⟩
    · rw [← List.reverse_append, ← h, List.reverse_reverse]
    · have := List.rel_reverse hf
      rwa [List.reverse_reverse] at this

theorem rev_refl : ∀ a : List Nat, RevTo a a
  | [] => trivial
  | _ :: as => ⟨Or.inl rfl, rev_refl as⟩

theorem rev_trans : ∀ a b c : List Nat, RevTo a b → RevTo b c → RevTo a c
  | [], _, _, _, _ => trivial
  | _ :: _, [], _, h, _ => h.elim
  | _ :: _, _ :: _, [], _, h => h.elim
  | a :: as, b :: bs, c :: cs, h1, h2 => by
    refine ⟨?_, rev_trans as bs cs h1.2 h2.2⟩
    rcases h1.1 with h | h
    · rw [h]; exact h2.1
    · exact Or.inr h

theorem rev_antisymm : ∀ a b : List Nat, RevTo a b → RevTo b a → a = b
  | [], [], _, _ => rfl
  | [], _ :: _, _, h => h.elim
  | _ :: _, [], h, _ => h.elim
  | a :: as, b :: bs, h1, h2 => by
    rw [rev_antisymm as bs h1.2 h2.2]
    congr 1
    rcases h1.1 with h | h
    · exact h
    · rcases h2.1 with h' | h'
      · exact h'.symm
      · rw [h, h']

theorem rev_upper : ∀ a b c : List Nat, broadcastRev a b = some c → RevTo a c ∧ RevTo b c
  | [], b, c, h => by
    rw [broadcastRev, Option.some.injEq] at h
    rw [h]
    exact ⟨trivial, rev_refl c⟩
  | a :: as, [], c, h => by
    rw [broadcastRev, Option.some.injEq] at h
    rw [h]
    exact ⟨rev_refl c, trivial⟩
  | a :: as, b :: bs, c, h => by
    rw [broadcastRev] at h
    cases hr : broadcastRev as bs with
    | none => rw [hr] at h; simp at h
    | some r =>
      obtain ⟨h1, h2⟩ := rev_upper as bs r hr
      rw [hr] at h
      dsimp only at h
      split at h
      · rename_i hc
        rw [Option.some.injEq] at h
        rw [← h]
        exact ⟨⟨Or.inl rfl, h1⟩, ⟨hc.imp Eq.symm id, h2⟩⟩
      · split at h
        · rename_i hc
          rw [Option.some.injEq] at h
          rw [← h]
          exact ⟨⟨Or.inr hc, h1⟩, ⟨Or.inl rfl, h2⟩⟩
        · simp at h

theorem rev_least : ∀ a b t : List Nat, RevTo a t → RevTo b t → ∃ c, broadcastRev a b = some c ∧ RevTo c t
  | [], b, t, _, h => ⟨b, by rw [broadcastRev], h⟩
  | a :: as, [], t, h, _ => ⟨a :: as, by rw [broadcastRev], h⟩
  | a :: as, b :: bs, [], h, _ => h.elim
  | a :: as, b :: bs, c :: cs, h1, h2 => by
    obtain ⟨r, hr, hrt⟩ := rev_least as bs cs h1.2 h2.2
    rw [broadcastRev, hr]
    dsimp only
    by_cases hc : a = b ∨ b = 1
    · exact ⟨a :: r, if_pos hc, h1.1, hrt⟩
    · rw [if_neg hc]
      have ha : a = 1 := by
        rcases h1.1 with h | h
        · rcases h2.1 with h' | h'
          · exact absurd (Or.inl (h.trans h'.symm)) hc
          · exact absurd (Or.inr h') hc
        · exact h
      exact ⟨b :: r, if_pos ha, h2.1, hrt⟩

theorem pair_spec (a b : List Nat) :
    (∀ c, broadcastShape a b = some c → BroadcastsTo a c ∧ BroadcastsTo b c ∧ ∀ t, BroadcastsTo a t → BroadcastsTo b t → BroadcastsTo c t) ∧
    (broadcastShape a b = none → ∀ t, BroadcastsTo a t → ¬ BroadcastsTo b t) := by
  unfold broadcastShape
  constructor
  · intro c h
    obtain ⟨r, hr, rfl⟩ := Option.map_eq_some_iff.1 h
    obtain ⟨h1, h2⟩ := rev_upper _ _ _ hr
    simp only [broadcastsTo_iff, List.reverse_reverse]
    refine ⟨h1, h2, fun t ha hb => ?_⟩
    obtain ⟨c, hc, hct⟩ := rev_least _ _ _ ha hb
    rw [hr, Option.some.injEq] at hc
    rwa [hc]
  · intro h t ha hb
    rw [broadcastsTo_iff] at ha hb
    obtain ⟨c, hc, -⟩ := rev_least _ _ _ ha hb
    rw [hc] at h
    simp at h

theorem broadcastsTo_trans {a b c : List Nat} (h1 : BroadcastsTo a b) (h2 : BroadcastsTo b c) : BroadcastsTo a c := by
  rw [broadcastsTo_iff] at *
  exact rev_trans _ _ _ h1 h2

theorem broadcastsTo_refl (a : List Nat) : BroadcastsTo a a := (broadcastsTo_iff a a).2 (rev_refl _)

theorem from_spec : ∀ (rest : List (List Nat)) (s : List Nat),
    (∀ r, commonShapeFrom s rest = .ok r → IsCommonShape (s :: rest) r) ∧ (∀ e, commonShapeFrom s rest = .error e → ¬ ∃ t, ∀ x ∈ s :: rest, BroadcastsTo x t)
  | [], s => by
    constructor
    · intro r h
      rw [commonShapeFrom, Except.ok.injEq] at h
      subst h
      exact ⟨fun x hx => by rw [List.mem_singleton.1 hx]; exact broadcastsTo_refl s, fun t ht => ht s List.mem_cons_self⟩
    · intro e h
      simp [commonShapeFrom] at h
  | b :: rest, s => by
    obtain ⟨p1, p2⟩ := pair_spec s b
    rw [commonShapeFrom]
    cases hb : broadcastShape s b with
    | none =>
      refine ⟨fun r h => by simp at h, fun e _ => ?_⟩
      rintro ⟨t, ht⟩
      exact p2 hb t (ht s List.mem_cons_self) (ht b (List.mem_cons_of_mem _ List.mem_cons_self))
    | some c =>
      obtain ⟨u1, u2, u3⟩ := p1 c hb
      obtain ⟨f1, f2⟩ := from_spec rest c
      refine ⟨fun r h => ?_, fun e h => ?_⟩
      · obtain ⟨g1, g2⟩ := f1 r h
        refine ⟨fun x hx => ?_, fun t ht => g2 t fun x hx => ?_⟩
        · have hc := g1 c List.mem_cons_self
          rcases List.mem_cons.1 hx with rfl | hx
          · exact broadcastsTo_trans u1 hc
          · rcases List.mem_cons.1 hx with rfl | hx
            · exact broadcastsTo_trans u2 hc
            · exact g1 x (List.mem_cons_of_mem _ hx)
        · rcases List.mem_cons.1 hx with rfl | hx
          · exact u3 t (ht s List.mem_cons_self) (ht b (List.mem_cons_of_mem _ List.mem_cons_self))
          · exact ht x (List.mem_cons_of_mem _ (List.mem_cons_of_mem _ hx))
      · rintro ⟨t, ht⟩
        refine f2 e h ⟨t, fun x hx => ?_⟩
        rcases List.mem_cons.1 hx with rfl | hx
        · exact u3 t (ht s List.mem_cons_self) (ht b (List.mem_cons_of_mem _ List.mem_cons_self))
        · exact ht x (List.mem_cons_of_mem _ (List.mem_cons_of_mem _ hx))

theorem broadcastsTo_antisymm {a b : List Nat} (h1 : BroadcastsTo a b) (h2 : BroadcastsTo b a) : a = b := by
  rw [broadcastsTo_iff] at h1 h2
  exact List.reverse_inj.1 (rev_antisymm _ _ h1 h2)

theorem to_ok {K : Type} (x : Model.NdArray K) (t : List Nat) : (BroadcastsTo x.shape t → ∃ y, broadcastTo x t = .ok y ∧ y.shape = t ∧ Repeats x.shape x.get y.get) ∧
    (¬ BroadcastsTo x.shape t → ∃ e, broadcastTo x t = .error e) := by
  have key : broadcastShape x.shape t = some t ↔ BroadcastsTo x.shape t := by
    obtain ⟨p1, p2⟩ := pair_spec x.shape t
    constructor
    · intro h
      exact (p1 t h).1
    · intro h
      cases hb : broadcastShape x.shape t with
      | none => exact absurd (broadcastsTo_refl t) (p2 hb t h)
      | some c =>
        obtain ⟨u1, u2, u3⟩ := p1 c hb
        rw [broadcastsTo_antisymm u2 (u3 t h (broadcastsTo_refl t))]
  unfold broadcastTo
  constructor
  · intro h
    rw [if_pos (key.2 h)]
    refine ⟨_, rfl, rfl, fun pre idx hl => ?_⟩
    dsimp only
    unfold broadcastIndex
    congr 1
    rw [List.length_append, hl, Nat.add_sub_cancel, List.drop_left, List.zipWith_comm]
  · intro h
    rw [if_neg fun hc => h (key.1 hc)]
    exact ⟨_, rfl⟩

theorem mapM_rel {A B : Type} (f : A → Except String B) (P : A → B → Prop) (l : List A) (h : ∀ a ∈ l, ∃ b, f a = .ok b ∧ P a b) :
    ∃ r, l.mapM f = .ok r ∧ r.length = l.length ∧ ∀ (i : Nat) (a : A), l[i]? = some a → ∃ b, r[i]? = some b ∧ P a b := by
  obtain ⟨r, hr⟩ := mapM_except_total f l fun a ha => let ⟨b, hb, _⟩ := h a ha; ⟨b, hb⟩
  obtain ⟨h1, h2⟩ := mapM_except_ok f l r hr
  refine ⟨r, hr, h1, fun i a ha => ?_⟩
  obtain ⟨hi, -⟩ := List.getElem?_eq_some_iff.1 ha
  have hri : r[i]? = some (r[i]'(by rw [h1]; exact hi)) := List.getElem?_eq_getElem _
  obtain ⟨b, hb, hP⟩ := h a (List.mem_of_getElem? ha)
  have := h2 i a _ ha hri
  rw [hb, Except.ok.injEq] at this
  exact ⟨b, by rw [hri, this], hP⟩

theorem broadcastsTo_append {b r : List Nat} (e : List Nat) (h : BroadcastsTo b r) : BroadcastsTo (b ++ e) (r ++ e) := by
  obtain ⟨pre, rest, rfl, hf⟩ := h
  refine ⟨pre, rest ++ e, by simp, List.rel_append hf ?_⟩
  exact List.forall₂_same.2 fun _ _ => Or.inl rfl

theorem zip_event : ∀ {e idx : List Nat}, List.Forall₂ (· < ·) idx e → List.zipWith (fun d i => if d = 1 then 0 else i) e idx = idx
  | [], [], _ => rfl
  | d :: ds, i :: is, h => by
    cases h with
    | cons h1 h2 =>
      rw [List.zipWith_cons_cons, zip_event h2]
      by_cases hd : d = 1
      · rw [if_pos hd, show i = 0 by omega]
      · rw [if_neg hd]

end ShapeUtils

/-- **C105, the common shape.** For at least one tensor the common shape is the least shape to which all can be broadcast, and there is an error exactly if there is
none. The least shape is unique. -/
theorem C105_common_shape (shapes : List (List Nat)) (hne : shapes ≠ []) :
    (∀ r, commonShape shapes = .ok r → ∃ s, r = some s ∧ IsCommonShape shapes s) ∧
    ((∃ e, commonShape shapes = .error e) ↔ ¬ ∃ t, ∀ s ∈ shapes, BroadcastsTo s t) ∧
    ∀ r r', IsCommonShape shapes r → IsCommonShape shapes r' → r = r' := by
  cases shapes with
  | nil => exact absurd rfl hne
  | cons s rest =>
    obtain ⟨h1, h2⟩ := ShapeUtils.from_spec rest s
    refine ⟨fun r h => ?_, ?_, fun r r' h h' => ShapeUtils.broadcastsTo_antisymm (h.2 r' h'.1) (h'.2 r h.1)⟩
    · rw [commonShape] at h
      cases hf : commonShapeFrom s rest with
      | error e => rw [hf] at h; simp [Except.map] at h
      | ok v =>
        rw [hf] at h
        simp only [Except.map, Except.ok.injEq] at h
        exact ⟨v, h.symm, h1 v hf⟩
    · rw [commonShape]
      cases hf : commonShapeFrom s rest with
      | error e => exact ⟨fun _ => h2 e hf, fun _ => ⟨e, rfl⟩⟩
      | ok v =>
        refine ⟨fun ⟨e, he⟩ => by simp [Except.map] at he, fun h => absurd ⟨v, (h1 v hf).1⟩ h⟩

/-- **C105, broadcast to the common shape.** All tensors get the common shape, and their entries are repeated; there is an error exactly if no common shape exists. -/
theorem C105_broadcast {K : Type} (args : List (Model.NdArray K)) :
    (∀ t, (∀ x ∈ args, BroadcastsTo x.shape t) → ∃ r out, broadcastTensors args = .ok out ∧ out.length = args.length ∧
      (args ≠ [] → IsCommonShape (args.map Model.NdArray.shape) r) ∧
      ∀ (i : Nat) (x : Model.NdArray K), args[i]? = some x → ∃ y, out[i]? = some y ∧ y.shape = r ∧ Repeats x.shape x.get y.get) ∧
    ((¬ ∃ t, ∀ x ∈ args, BroadcastsTo x.shape t) → ∃ e, broadcastTensors args = .error e) := by
  by_cases hne : args = []
  · subst hne
    exact ⟨fun t _ => ⟨[], [], rfl, rfl, fun h => absurd rfl h, fun i x h => by simp at h⟩, fun h => absurd ⟨[], by simp⟩ h⟩
  · have hne' : args.map Model.NdArray.shape ≠ [] := by simpa using hne
    obtain ⟨h1, h2, -⟩ := C105_common_shape (args.map Model.NdArray.shape) hne'
    constructor
    · intro t ht
      cases hc : commonShape (args.map Model.NdArray.shape) with
      | error e =>
        refine absurd ⟨t, fun s hs => ?_⟩ (h2.1 ⟨e, hc⟩)
        obtain ⟨x, hx, rfl⟩ := List.mem_map.1 hs
        exact ht x hx
      | ok r =>
        obtain ⟨s, rfl, hs⟩ := h1 r hc
        unfold broadcastTensors
        simp only [hc, bind, Except.bind, Option.getD_some]
        obtain ⟨out, ho, hl, hi⟩ := ShapeUtils.mapM_rel (fun x => broadcastTo x s) (fun x y => y.shape = s ∧ Repeats x.shape x.get y.get) args
          fun x hx => (ShapeUtils.to_ok x s).1 (hs.1 _ (List.mem_map.2 ⟨x, hx, rfl⟩))
        exact ⟨s, out, ho, hl, fun _ => hs, hi⟩
    · intro h
      obtain ⟨e, he⟩ := h2.2 (by
        rintro ⟨t, ht⟩
        exact h ⟨t, fun x hx => ht _ (List.mem_map.2 ⟨x, hx, rfl⟩)⟩)
      unfold broadcastTensors
      simp only [he, bind, Except.bind]
      exact ⟨e, rfl⟩

/-- The batch dimensions of a shape with `d` event dimensions. -/
def batchDims (shape : List Nat) (d : Nat) : List Nat := shape.take (shape.length - d)

/-- The last `d` dimensions of a shape. -/
def eventDims (shape : List Nat) (d : Nat) : List Nat := shape.drop (shape.length - d)

/-- **C105, broadcast of the batch.** With event ranks of at least one, all tensors get the least common shape of the batch dimensions, followed by their own event
dimensions. Entries are repeated over the batch and the event indices are kept. Event ranks in the wrong number are refused, and so are batches without a common shape. -/
theorem C105_batch {K : Type} (args : List (Model.NdArray K)) (ranks : Option (List Nat)) :
    (∀ l, ranks = some l → l.length ≠ args.length → ∃ e, broadcastCommonBatchShape args ranks = .error e) ∧
    ∀ l, l = ranks.getD (List.replicate args.length 1) → l.length = args.length → (∀ d ∈ l, 1 ≤ d) →
      ((¬ ∃ t, ∀ p ∈ List.zip args l, BroadcastsTo (batchDims p.1.shape p.2) t) → ∃ e, broadcastCommonBatchShape args ranks = .error e) ∧
      ((∃ t, ∀ p ∈ List.zip args l, BroadcastsTo (batchDims p.1.shape p.2) t) →
        ∃ r out, broadcastCommonBatchShape args ranks = .ok out ∧ out.length = args.length ∧
        (args ≠ [] → IsCommonShape ((List.zip args l).map fun p => batchDims p.1.shape p.2) r) ∧
        ∀ (i : Nat) (x : Model.NdArray K) (d : Nat), args[i]? = some x → l[i]? = some d → ∃ y, out[i]? = some y ∧ y.shape = r ++ eventDims x.shape d ∧
          ∀ pre b e, b.length = (batchDims x.shape d).length → List.Forall₂ (· < ·) e (eventDims x.shape d) →
            y.get (pre ++ (b ++ e)) = x.get (List.zipWith (fun d i => if d = 1 then 0 else i) (batchDims x.shape d) b ++ e)) := by
  refine ⟨fun l hl hn => ?_, fun l hl hlen hpos => ?_⟩
  · unfold broadcastCommonBatchShape
    rw [hl]
    exact ⟨_, if_pos hn⟩
  · have hslice : ∀ p ∈ List.zip args l, sliceBefore p.1.shape p.2 = batchDims p.1.shape p.2 ∧ sliceAfter p.1.shape p.2 = eventDims p.1.shape p.2 := by
      intro p hp
      have := hpos p.2 (List.of_mem_zip hp).2
      unfold sliceBefore sliceAfter
      rw [if_neg (by omega), if_neg (by omega)]
      exact ⟨rfl, rfl⟩
    have hmap : ((List.zip args l).map fun p => sliceBefore p.1.shape p.2) = (List.zip args l).map fun p => batchDims p.1.shape p.2 :=
      List.map_congr_left fun p hp => (hslice p hp).1
    have hzl : (List.zip args l).length = args.length := by rw [List.length_zip, hlen, Nat.min_self]
    unfold broadcastCommonBatchShape
    dsimp only
    rw [← hl, if_neg (not_not.2 hlen), hmap]
    by_cases hne : args = []
    · subst hne
      refine ⟨fun h => absurd ⟨[], by simp⟩ h, fun _ => ⟨[], [], rfl, rfl, fun h => absurd rfl h, fun i x d h => by simp at h⟩⟩
    have hne' : ((List.zip args l).map fun p => batchDims p.1.shape p.2) ≠ [] := by
      intro h
      have := congrArg List.length h
      rw [List.length_map, hzl] at this
      exact hne (List.length_eq_zero_iff.1 this)
    obtain ⟨h1, h2, -⟩ := C105_common_shape _ hne'
    constructor
    · intro h
      obtain ⟨e, he⟩ := h2.2 (by
        rintro ⟨t, ht⟩
        exact h ⟨t, fun p hp => ht _ (List.mem_map.2 ⟨p, hp, rfl⟩)⟩)
      rw [he]
      exact ⟨e, rfl⟩
    · rintro ⟨t, ht⟩
      cases hc : commonShape ((List.zip args l).map fun p => batchDims p.1.shape p.2) with
      | error e =>
        refine absurd ⟨t, fun s hs => ?_⟩ (h2.1 ⟨e, hc⟩)
        obtain ⟨p, hp, rfl⟩ := List.mem_map.1 hs
        exact ht p hp
      | ok r =>
        obtain ⟨s, rfl, hs⟩ := h1 r hc
        simp only [bind, Except.bind, Option.getD_some]
        obtain ⟨out, ho, hol, hi⟩ := ShapeUtils.mapM_rel (fun p : Model.NdArray K × Nat => broadcastTo p.1 (s ++ sliceAfter p.1.shape p.2))
          (fun p y => y.shape = s ++ eventDims p.1.shape p.2 ∧ Repeats p.1.shape p.1.get y.get) (List.zip args l) (by
            intro p hp
            have hb := ShapeUtils.broadcastsTo_append (eventDims p.1.shape p.2) (hs.1 _ (List.mem_map.2 ⟨p, hp, rfl⟩))
            rw [show batchDims p.1.shape p.2 ++ eventDims p.1.shape p.2 = p.1.shape from List.take_append_drop _ _] at hb
            obtain ⟨y, y1, y2, y3⟩ := (ShapeUtils.to_ok p.1 _).1 hb
            rw [(hslice p hp).2]
            exact ⟨y, y1, y2, y3⟩)
        refine ⟨s, out, ho, hol.trans hzl, fun _ => hs, fun i x d hx hd => ?_⟩
        obtain ⟨y, y1, y2, y3⟩ := hi i (x, d) (List.getElem?_zip_eq_some.2 ⟨hx, hd⟩)
        refine ⟨y, y1, y2, fun pre b e hb he => ?_⟩
        have hsh : x.shape = batchDims x.shape d ++ eventDims x.shape d := (List.take_append_drop _ _).symm
        have := y3 pre (b ++ e) (by
          dsimp only
          conv_rhs => rw [hsh]
          rw [List.length_append, List.length_append, hb, he.length_eq])
        rw [this]
        dsimp only
        conv_lhs => rw [hsh]
        rw [List.zipWith_append hb.symm, ShapeUtils.zip_event he]

/-- **C105, an event rank of zero deviates.** `[:-0]` is empty and `[-0:]` is the whole list: a tensor with an event rank of zero is treated as one without a batch. -/
theorem C105_event_rank_deviates :
    (∃ out, broadcastCommonBatchShape [⟨[2, 3], fun _ => (1 : ℚ)⟩, ⟨[2], fun _ => 1⟩] (some [1, 0]) = .ok out ∧ out.map Model.NdArray.shape = [[2, 3], [2, 2]]) ∧
    IsCommonShape [[2], [2]] [2] := by
  refine ⟨⟨_, rfl, rfl⟩, fun s hs => ?_, fun t ht => ht [2] (by simp)⟩
  have : s = [2] := by simpa using hs
  rw [this]
  exact ShapeUtils.broadcastsTo_refl _

/-- The example of the documentation, and shapes that do not fit. -/
example : commonShape [[1, 2], [2, 1]] = .ok (some [2, 2]) ∧ (∃ e, commonShape [[2, 3], [2]] = .error e) ∧
    ∃ out, broadcastCommonBatchShape [⟨[2, 3], fun _ => (1 : ℚ)⟩, ⟨[2], fun idx => idx.headD 0⟩] none = .ok out ∧ out.map Model.NdArray.shape = [[2, 3], [2, 2]] ∧
      (out.map fun y => y.get [0, 1]) = [1, 1] := by
  refine ⟨by decide, ⟨_, rfl⟩, ⟨_, rfl, rfl, ?_⟩⟩
  decide +kernel

end Props
