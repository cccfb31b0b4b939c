import Verif.Spec.TensorWrapper
import Verif.Props.Dates
import Verif.Props.ShapeUtils
import Mathlib.Data.List.GetD
import Mathlib.Data.List.Nodup

/-! # C108: tensors of dates and of periods -/

namespace Props
open Model Spec
open NdArray (Valid)

namespace TensorWrapper

theorem seq_ok (op : List (Model.NdArray Int) → Except String (Model.NdArray Int)) (ts : List DateTensorNd) (o y m d : Model.NdArray Int)
    (h1 : op (ts.map fun t => t.ordinals) = .ok o) (h2 : op (ts.map fun t => t.years) = .ok y) (h3 : op (ts.map fun t => t.months) = .ok m) (h4 : op (ts.map fun t => t.days) = .ok d) :
    DateTensorNd.applySequence op ts = .ok ⟨o, y, m, d⟩ := by
  unfold DateTensorNd.applySequence
  rw [h1, h2, h3, h4]
  rfl

theorem one_seq (op : Model.NdArray Int → Except String (Model.NdArray Int)) (t : DateTensorNd) : DateTensorNd.applyOp op t = DateTensorNd.applySequence (onOne op) [t] := rfl

theorem valid_split {p q idx : List Nat} {d : Nat} (h : Valid (p ++ d :: q) idx) :
    ∃ i j k, idx = i ++ j :: k ∧ i.length = p.length ∧ Valid p i ∧ j < d ∧ Valid q k := by
  have hl := NdArray.valid_length h
  obtain ⟨i, r, e, hi⟩ : ∃ i r, idx = i ++ r ∧ i.length = p.length := ⟨idx.take p.length, idx.drop p.length, (List.take_append_drop _ _).symm, by
    rw [List.length_take, hl, List.length_append]
    omega⟩
  subst e
  have h1 := List.forall₂_take p.length h
  rw [List.take_left, ← hi, List.take_left] at h1
  have h2 := List.forall₂_drop p.length h
  rw [List.drop_left, ← hi, List.drop_left] at h2
  cases h2 with
  | cons h3 h4 => exact ⟨i, _, _, rfl, hi, h1, h3, h4⟩

theorem take_mid {i k : List Nat} {j a : Nat} (h : i.length = a) : (i ++ j :: k).take a = i := by
  rw [← h, List.take_left]

theorem drop_mid {i k : List Nat} {j a : Nat} (h : i.length = a) : (i ++ j :: k).drop (a + 1) = k := by
  rw [← h, ← List.drop_drop, List.drop_left]
  rfl

theorem get_mid {i k : List Nat} {j a : Nat} (h : i.length = a) : (i ++ j :: k).getD a 0 = j := by
  rw [← h, List.getD_append_right _ _ _ _ (le_refl _), Nat.sub_self]
  rfl

theorem norm_lt {rank : Nat} {axis : Int} {a : Nat} (h : MoveOps.normAxis rank axis = .ok a) : a < rank := by
  unfold MoveOps.normAxis at h
  split at h
  · rename_i hc
    cases h
    omega
  · split at h
    · rename_i hc
      cases h
      omega
    · cases h

theorem shape_split {s : List Nat} {a : Nat} (h : a < s.length) : s = s.take a ++ s.getD a 0 :: s.drop (a + 1) := by
  rw [List.getD_eq_getElem _ _ h, ← List.drop_eq_getElem_cons h, List.take_append_drop]

/-- Operations on one tensor given by the shape and the index. -/
theorem one_moves (op : Model.NdArray Int → Except String (Model.NdArray Int))
    (h : ∀ s : List Nat, (∃ e, ∀ t : Model.NdArray Int, t.shape = s → op t = .error e) ∨
      ∃ (r : List Nat) (src : List Nat → List Nat), (∀ idx, Valid r idx → Valid s (src idx)) ∧
        ∀ t : Model.NdArray Int, t.shape = s → ∃ out, op t = .ok out ∧ out.shape = r ∧ ∀ idx, Valid r idx → out.get idx = t.get (src idx)) : MovesElements (onOne op) := by
  intro shapes
  match shapes with
  | [] => exact Or.inl ⟨_, fun ts hts => by rw [List.map_eq_nil_iff] at hts; rw [hts]; rfl⟩
  | _ :: _ :: _ =>
    refine Or.inl ⟨"one tensor is expected", fun ts hts => ?_⟩
    match ts, hts with
    | _ :: _ :: _, _ => rfl
  | [s] =>
    rcases h s with ⟨e, he⟩ | ⟨r, src, h1, h2⟩
    · refine Or.inl ⟨e, fun ts hts => ?_⟩
      match ts, hts with
      | [t], hts => exact he t (by simpa using hts)
    · refine Or.inr ⟨r, fun idx => (0, src idx), fun ts hts => ?_⟩
      match ts, hts with
      | [t], hts =>
        have hs : t.shape = s := by simpa using hts
        obtain ⟨out, e1, e2, e3⟩ := h2 t hs
        refine ⟨out, e1, e2, fun idx hi => ⟨t, rfl, ?_, e3 idx hi⟩⟩
        rw [hs]
        exact h1 idx hi

theorem expand_moves (axis : Int) : MovesElements (onOne (MoveOps.expandDims axis)) := by
  refine one_moves _ fun s => ?_
  cases hn : MoveOps.normAxis (s.length + 1) axis with
  | error e =>
    refine Or.inl ⟨e, fun t ht => ?_⟩
    unfold MoveOps.expandDims
    rw [ht, hn]
    rfl
  | ok a =>
    have ha := norm_lt hn
    refine Or.inr ⟨s.take a ++ 1 :: s.drop a, fun idx => idx.take a ++ idx.drop (a + 1), fun idx hi => ?_, fun t ht => ?_⟩
    · obtain ⟨i, j, k, rfl, hl, hi, -, hk⟩ := valid_split hi
      rw [List.length_take, min_eq_left (by omega)] at hl
      dsimp only
      rw [take_mid hl, drop_mid hl]
      have := NdArray.valid_append hi hk
      rwa [List.take_append_drop] at this
    · unfold MoveOps.expandDims
      rw [ht, hn]
      exact ⟨_, rfl, rfl, fun idx _ => rfl⟩

theorem identity_moves : MovesElements (onOne fun t => .ok t) :=
  one_moves _ fun s => Or.inr ⟨s, id, fun _ h => h, fun t ht => ⟨t, rfl, ht, fun _ _ => rfl⟩⟩

theorem reshape_moves (shape : List (Option Nat)) : MovesElements (onOne (MoveOps.reshapeTo shape)) := by
  refine one_moves _ fun s => ?_
  by_cases h1 : 1 < shape.count none
  · refine Or.inl ⟨"only one dimension can be unknown", fun t ht => ?_⟩
    unfold MoveOps.reshapeTo
    dsimp only
    rw [if_pos h1]
  · by_cases h2 : none ∈ shape ∧ (shape.filterMap id).prod = 0
    · refine Or.inl ⟨"cannot infer the missing size", fun t ht => ?_⟩
      unfold MoveOps.reshapeTo
      dsimp only
      rw [if_neg h1, if_pos h2]
    · by_cases h3 : (shape.map fun d => d.getD (s.prod / (shape.filterMap id).prod)).prod = s.prod
      · refine Or.inr ⟨shape.map fun d => d.getD (s.prod / (shape.filterMap id).prod), fun idx => unflatIndex s (flatIndex (shape.map fun d => d.getD (s.prod / (shape.filterMap id).prod)) idx), fun idx hi => ?_, fun t ht => ?_⟩
        · exact (NdArray.unflat_valid (lt_of_lt_of_eq (NdArray.flat_lt hi) h3)).1
        · unfold MoveOps.reshapeTo
          dsimp only
          rw [ht, if_neg h1, if_neg h2, if_pos h3]
          refine ⟨_, rfl, rfl, fun idx _ => ?_⟩
          rw [NdArray.reshape_get, ht]
      · refine Or.inl ⟨"sizes do not match", fun t ht => ?_⟩
        unfold MoveOps.reshapeTo
        dsimp only
        rw [ht, if_neg h1, if_neg h2, if_neg h3]

theorem zip_broadcast : ∀ {s rest idx : List Nat}, List.Forall₂ (fun a b => a = b ∨ a = 1) s rest → Valid rest idx →
    Valid s (List.zipWith (fun i d => if d = 1 then 0 else i) idx s)
  | [], _, _, .nil, .nil => .nil
  | a :: as, b :: bs, i :: is, .cons h1 h2, .cons g1 g2 => by
    rw [List.zipWith_cons_cons]
    refine .cons ?_ (zip_broadcast h2 g2)
    split
    · omega
    · rcases h1 with h1 | h1 <;> omega

theorem broadcast_valid {s t idx : List Nat} (h : BroadcastsTo s t) (hi : Valid t idx) : Valid s (broadcastIndex s idx) := by
  obtain ⟨pre, rest, rfl, hf⟩ := h
  unfold broadcastIndex
  have hl := NdArray.valid_length hi
  have hs := hf.length_eq
  have : idx.length - s.length = pre.length := by
    rw [hl, List.length_append]
    omega
  rw [this]
  have h2 := List.forall₂_drop pre.length hi
  rw [List.drop_left] at h2
  exact zip_broadcast hf h2

theorem broadcast_iff (s t : List Nat) : broadcastShape s t = some t ↔ BroadcastsTo s t := by
  obtain ⟨p1, p2⟩ := ShapeUtils.pair_spec s t
  constructor
  · intro h
    exact (p1 t h).1
  · intro h
    cases hb : broadcastShape s t with
    | none => exact absurd (ShapeUtils.broadcastsTo_refl t) (p2 hb t h)
    | some c =>
      obtain ⟨q1, q2, q3⟩ := p1 c hb
      exact congrArg some (ShapeUtils.broadcastsTo_antisymm (q3 t h (ShapeUtils.broadcastsTo_refl t)) q2)

theorem broadcast_moves (shape : List Nat) : MovesElements (onOne fun t => broadcastTo t shape) := by
  refine one_moves _ fun s => ?_
  by_cases h : broadcastShape s shape = some shape
  · refine Or.inr ⟨shape, fun idx => broadcastIndex s idx, fun idx hi => broadcast_valid ((broadcast_iff _ _).1 h) hi, fun t ht => ?_⟩
    dsimp only
    unfold broadcastTo
    rw [ht, if_pos h]
    exact ⟨_, rfl, rfl, fun idx _ => rfl⟩
  · refine Or.inl ⟨"Incompatible shapes", fun t ht => ?_⟩
    unfold broadcastTo
    rw [ht, if_neg h]

theorem valid_of_get {s idx : List Nat} (hl : idx.length = s.length) (h : ∀ a, a < s.length → idx.getD a 0 < s.getD a 0) : Valid s idx := by
  refine List.forall₂_iff_get.2 ⟨hl, fun i h1 h2 => ?_⟩
  have := h i h2
  rw [List.getD_eq_getElem _ _ h1, List.getD_eq_getElem _ _ h2] at this
  exact this

theorem valid_get {s idx : List Nat} (h : Valid s idx) (a : Nat) (ha : a < s.length) : idx.getD a 0 < s.getD a 0 := by
  obtain ⟨hl, hg⟩ := List.forall₂_iff_get.1 h
  rw [List.getD_eq_getElem _ _ ha, List.getD_eq_getElem _ _ (hl ▸ ha)]
  exact hg a _ _

theorem transpose_moves (perm : Option (List Nat)) : MovesElements (onOne (MoveOps.transposeTo perm)) := by
  refine one_moves _ fun s => ?_
  obtain ⟨p, hp⟩ : ∃ p, p = perm.getD (List.range s.length).reverse := ⟨_, rfl⟩
  by_cases h : p.length = s.length ∧ (∀ a ∈ p, a < s.length) ∧ p.Nodup
  · refine Or.inr ⟨p.map fun a => s.getD a 0, fun idx => (List.range s.length).map fun a => idx.getD (p.idxOf a) 0, fun idx hi => ?_, fun t ht => ?_⟩
    · obtain ⟨h1, h2, h3⟩ := h
      refine valid_of_get (by simp) fun a ha => ?_
      have hmem : a ∈ p := by
        have hsub : p ⊆ List.range s.length := fun x hx => List.mem_range.2 (h2 x hx)
        have hperm : p.Perm (List.range s.length) := (List.subperm_of_subset h3 hsub).perm_of_length_le (by rw [List.length_range, h1])
        exact hperm.mem_iff.2 (List.mem_range.2 ha)
      have hlt := List.idxOf_lt_length_of_mem hmem
      have := valid_get hi (p.idxOf a) (by rw [List.length_map]; exact hlt)
      rw [List.getD_eq_getElem _ _ (by simpa using ha), List.getElem_map, List.getElem_range]
      refine lt_of_lt_of_eq this ?_
      rw [List.getD_eq_getElem _ _ (by rw [List.length_map]; exact hlt), List.getElem_map, List.getElem_idxOf]
    · unfold MoveOps.transposeTo
      dsimp only
      rw [ht, ← hp, if_pos h]
      refine ⟨_, rfl, ?_, fun idx _ => ?_⟩
      · unfold Model.NdArray.transpose
        dsimp only
        rw [ht]
      · unfold Model.NdArray.transpose
        dsimp only
        rw [ht]
  · refine Or.inl ⟨"not a permutation", fun t ht => ?_⟩
    unfold MoveOps.transposeTo
    dsimp only
    rw [ht, ← hp, if_neg h]

theorem squeeze_valid : ∀ (m : List (Nat × Bool)) (idx : List Nat), (∀ p ∈ m, p.2 = true → p.1 = 1) → Valid (MoveOps.squeezeShape m) idx →
    Valid (m.map Prod.fst) (MoveOps.squeezeSource m idx)
  | [], idx, _, _ => .nil
  | (d, true) :: r, idx, h, hi => by
    have : d = 1 := h (d, true) (by simp) rfl
    refine .cons (by rw [this]; exact Nat.zero_lt_one) (squeeze_valid r idx (fun p hp => h p (List.mem_cons_of_mem _ hp)) hi)
  | (d, false) :: r, idx, h, hi => by
    rw [MoveOps.squeezeShape] at hi
    cases hi with
    | cons h1 h2 => exact .cons h1 (squeeze_valid r _ (fun p hp => h p (List.mem_cons_of_mem _ hp)) h2)

theorem squeeze_moves (axes : Option (List Int)) : MovesElements (onOne (MoveOps.squeeze axes)) := by
  refine one_moves _ fun s => ?_
  obtain ⟨removed, hr⟩ : ∃ removed, removed = MoveOps.squeezeAxes axes s := ⟨_, rfl⟩
  cases hc : removed with
  | error e =>
    rw [hc] at hr
    refine Or.inl ⟨e, fun t ht => ?_⟩
    unfold MoveOps.squeeze
    rw [ht, ← hr]
    rfl
  | ok l =>
    rw [hc] at hr
    obtain ⟨m, hm⟩ : ∃ m, m = s.zipIdx.map fun p => (p.1, decide (p.2 ∈ l)) := ⟨_, rfl⟩
    have hfst : m.map Prod.fst = s := by
      rw [hm, List.map_map]
      exact List.zipIdx_map_fst 0 s
    by_cases h : ∀ p ∈ m, p.2 = true → p.1 = 1
    · refine Or.inr ⟨MoveOps.squeezeShape m, MoveOps.squeezeSource m, fun idx hi => hfst ▸ squeeze_valid m idx h hi, fun t ht => ?_⟩
      unfold MoveOps.squeeze
      rw [ht, ← hr]
      refine ⟨⟨MoveOps.squeezeShape m, fun idx => t.get (MoveOps.squeezeSource m idx)⟩, ?_, rfl, fun idx _ => rfl⟩
      show (if ∀ p ∈ s.zipIdx.map fun p => (p.1, decide (p.2 ∈ l)), p.2 = true → p.1 = 1 then _ else _) = _
      rw [hm] at h ⊢
      rw [if_pos h]
      rfl
    · refine Or.inl ⟨"can only squeeze dimensions of one", fun t ht => ?_⟩
      unfold MoveOps.squeeze
      rw [ht, ← hr]
      show (if ∀ p ∈ s.zipIdx.map fun p => (p.1, decide (p.2 ∈ l)), p.2 = true → p.1 = 1 then _ else _) = _
      rw [hm] at h
      rw [if_neg h]

theorem mask_moves (mask : Model.NdArray Bool) (axis : Option Int) : MovesElements (onOne (MoveOps.booleanMask mask axis)) := by
  refine one_moves _ fun s => ?_
  obtain ⟨ax, hax⟩ : ∃ ax, ax = MoveOps.maskAxis axis s.length := ⟨_, rfl⟩
  cases hc : ax with
  | error e =>
    rw [hc] at hax
    refine Or.inl ⟨e, fun t ht => ?_⟩
    unfold MoveOps.booleanMask
    rw [ht, ← hax]
    rfl
  | ok a =>
    rw [hc] at hax
    have ha : a ≤ s.length := by
      cases axis with
      | none =>
        cases hax
        omega
      | some b => exact le_of_lt (norm_lt hax.symm)
    by_cases h0 : mask.shape.length = 0
    · refine Or.inl ⟨"mask cannot be scalar", fun t ht => ?_⟩
      unfold MoveOps.booleanMask
      rw [ht, ← hax]
      exact if_pos h0
    · by_cases h : (s.drop a).take mask.shape.length = mask.shape
      · obtain ⟨pos, hpos⟩ : ∃ pos, pos = ((List.range mask.shape.prod).map (unflatIndex mask.shape)).filter fun i => mask.get i := ⟨_, rfl⟩
        refine Or.inr ⟨s.take a ++ pos.length :: s.drop (a + mask.shape.length), fun idx => idx.take a ++ pos.getD (idx.getD a 0) [] ++ idx.drop (a + 1), fun idx hi => ?_,
          fun t ht => ?_⟩
        · obtain ⟨i, j, k, rfl, hl, hi, hj, hk⟩ := valid_split hi
          rw [List.length_take, min_eq_left ha] at hl
          dsimp only
          rw [take_mid hl, drop_mid hl, get_mid hl, List.getD_eq_getElem _ _ hj]
          have hm : pos[j] ∈ pos := List.getElem_mem hj
          have hv : Valid mask.shape pos[j] := by
            generalize pos[j] = x at hm
            rw [hpos, List.mem_filter, List.mem_map] at hm
            obtain ⟨⟨b, hb, rfl⟩, -⟩ := hm
            exact (NdArray.unflat_valid (List.mem_range.1 hb)).1
          have := NdArray.valid_append (NdArray.valid_append hi hv) hk
          have hs : s.take a ++ mask.shape ++ s.drop (a + mask.shape.length) = s := by
            rw [List.append_assoc]
            conv_rhs => rw [← List.take_append_drop a s, ← List.take_append_drop mask.shape.length (s.drop a), h, List.drop_drop]
          rwa [hs] at this
        · unfold MoveOps.booleanMask
          rw [ht, ← hax]
          refine ⟨⟨s.take a ++ pos.length :: s.drop (a + mask.shape.length), fun idx => t.get (idx.take a ++ pos.getD (idx.getD a 0) [] ++ idx.drop (a + 1))⟩, ?_, rfl, fun idx _ => rfl⟩
          refine (if_neg h0).trans ((if_pos h).trans ?_)
          rw [hpos]
          rfl
      · refine Or.inl ⟨"shapes do not match", fun t ht => ?_⟩
        unfold MoveOps.booleanMask
        rw [ht, ← hax]
        exact (if_neg h0).trans (if_neg h)

theorem clamp_le (d : Nat) (i : Int) : MoveOps.clampBound d i ≤ d := by
  unfold MoveOps.clampBound
  split <;> omega

theorem item_valid : ∀ (keys : List MoveOps.Key) (s r idx : List Nat), MoveOps.itemShape keys s = .ok r → Valid r idx → Valid s (MoveOps.itemSource keys s idx)
  | [], s, r, idx, h, hi => by
    cases h
    exact hi
  | _ :: _, [], r, idx, h, hi => by cases h
  | .at i :: ks, d :: ds, r, idx, h, hi => by
    rw [MoveOps.itemShape] at h
    cases hn : MoveOps.normAxis d i with
    | error e =>
      rw [hn] at h
      cases h
    | ok a =>
      rw [hn] at h
      refine .cons ?_ (item_valid ks ds r idx h hi)
      unfold MoveOps.normAxis at hn
      split at hn
      · split <;> omega
      · split at hn
        · split <;> omega
        · cases hn
  | .slice lo hb :: ks, d :: ds, r, idx, h, hi => by
    rw [MoveOps.itemShape] at h
    cases hn : MoveOps.itemShape ks ds with
    | error e =>
      rw [hn] at h
      cases h
    | ok r' =>
      rw [hn] at h
      cases h
      cases hi with
      | cons h1 h2 =>
        refine .cons ?_ (item_valid ks ds r' _ hn h2)
        have := clamp_le d (hb.getD d)
        dsimp only [List.headD_cons]
        omega

theorem item_moves (keys : List MoveOps.Key) : MovesElements (onOne (MoveOps.getItem keys)) := by
  refine one_moves _ fun s => ?_
  cases h : MoveOps.itemShape keys s with
  | error e =>
    refine Or.inl ⟨e, fun t ht => ?_⟩
    unfold MoveOps.getItem
    rw [ht, h]
  | ok r =>
    refine Or.inr ⟨r, MoveOps.itemSource keys s, fun idx hi => item_valid keys s r idx h hi, fun t ht => ?_⟩
    unfold MoveOps.getItem
    rw [ht, h]
    exact ⟨_, rfl, rfl, fun idx _ => rfl⟩

theorem concat_source (a : Nat) (pre post : List Nat) (hpre : pre.length = a) : ∀ (ds : List Nat) (i k : List Nat) (j : Nat), Valid pre i → Valid post k → j < ds.sum →
    ∃ d, ds[(MoveOps.concatSource a (ds.map fun d => pre ++ d :: post) (i ++ j :: k)).1]? = some d ∧
      Valid (pre ++ d :: post) (MoveOps.concatSource a (ds.map fun d => pre ++ d :: post) (i ++ j :: k)).2
  | [], i, k, j, hi, hk, hj => by simp at hj
  | d :: ds, i, k, j, hi, hk, hj => by
    have hl : i.length = a := (NdArray.valid_length hi).trans hpre
    rw [List.map_cons, MoveOps.concatSource, get_mid hl, get_mid hpre]
    split
    · rename_i hc
      exact ⟨d, rfl, NdArray.valid_append hi (.cons hc hk)⟩
    · rename_i hc
      rw [List.sum_cons] at hj
      rw [take_mid hl, drop_mid hl]
      obtain ⟨d', h1, h2⟩ := concat_source a pre post hpre ds i k (j - d) hi hk (by omega)
      exact ⟨d', by rw [List.getElem?_cons_succ]; exact h1, h2⟩

theorem element_get {ts : List (Model.NdArray Int)} {first t : Model.NdArray Int} {p : Nat × List Nat} (h : ts[p.1]? = some t) :
    MoveOps.elementAt ts first p = t.get p.2 := by
  unfold MoveOps.elementAt
  rw [List.getD_eq_getElem?_getD, h]
  rfl

theorem shapes_get {ts : List (Model.NdArray Int)} {shapes : List (List Nat)} (h : ts.map Model.NdArray.shape = shapes) {n : Nat} {s : List Nat} (hs : shapes[n]? = some s) :
    ∃ t, ts[n]? = some t ∧ t.shape = s := by
  rw [← h, List.getElem?_map, Option.map_eq_some_iff] at hs
  exact hs

theorem concat_moves (axis : Int) : MovesElements (MoveOps.concat axis) := by
  intro shapes
  match shapes with
  | [] => exact Or.inl ⟨_, fun ts hts => by rw [List.map_eq_nil_iff] at hts; rw [hts]; rfl⟩
  | s :: rest =>
    cases hn : MoveOps.normAxis s.length axis with
    | error e =>
      refine Or.inl ⟨e, fun ts hts => ?_⟩
      match ts, hts with
      | t :: us, hts =>
        rw [List.map_cons, List.cons.injEq] at hts
        unfold MoveOps.concat
        dsimp only
        rw [hts.1, hn]
        rfl
    | ok a =>
      have ha := norm_lt hn
      by_cases h : ∀ u ∈ rest, u.length = s.length ∧ u.take a = s.take a ∧ u.drop (a + 1) = s.drop (a + 1)
      · obtain ⟨ds, hds⟩ : ∃ ds, ds = (s :: rest).map fun u => u.getD a 0 := ⟨_, rfl⟩
        have hpre : (s.take a).length = a := by rw [List.length_take, min_eq_left (le_of_lt ha)]
        have hsh : s :: rest = ds.map fun d => s.take a ++ d :: s.drop (a + 1) := by
          rw [hds, List.map_map]
          symm
          refine (List.map_congr_left fun u hu => ?_).trans (List.map_id _)
          dsimp only [Function.comp, id]
          rcases List.mem_cons.1 hu with rfl | hu
          · exact (shape_split ha).symm
          · obtain ⟨h1, h2, h3⟩ := h u hu
            rw [← h2, ← h3]
            exact (shape_split (h1 ▸ ha)).symm
        refine Or.inr ⟨s.take a ++ ds.sum :: s.drop (a + 1), MoveOps.concatSource a (s :: rest), fun ts hts => ?_⟩
        have hts' := hts
        match ts, hts with
        | t :: us, hts =>
          rw [List.map_cons, List.cons.injEq] at hts
          have hu : ∀ u ∈ us, u.shape.length = s.length ∧ u.shape.take a = s.take a ∧ u.shape.drop (a + 1) = s.drop (a + 1) := by
            intro u hu
            refine h u.shape ?_
            rw [← hts.2]
            exact List.mem_map_of_mem hu
          refine ⟨⟨s.take a ++ ds.sum :: s.drop (a + 1), fun idx => MoveOps.elementAt (t :: us) t (MoveOps.concatSource a (s :: rest) idx)⟩, ?_, rfl, fun idx hi => ?_⟩
          · unfold MoveOps.concat
            dsimp only
            rw [hts.1, hn]
            refine (if_pos hu).trans ?_
            have e : (t :: us).map (fun u => u.shape.getD a 0) = ds := by
              rw [hds, ← hts', List.map_map]
              rfl
            rw [e, hts']
            rfl
          · obtain ⟨i, j, k, rfl, hl, hi, hj, hk⟩ := valid_split hi
            obtain ⟨d, h1, h2⟩ := concat_source a _ _ hpre ds i k j hi hk hj
            rw [← hsh] at h1 h2
            have h3 : (s :: rest)[(MoveOps.concatSource a (s :: rest) (i ++ j :: k)).1]? = some (s.take a ++ d :: s.drop (a + 1)) := by
              generalize (MoveOps.concatSource a (s :: rest) (i ++ j :: k)).1 = n at h1
              rw [hsh, List.getElem?_map, h1]
              rfl
            obtain ⟨t', h4, h5⟩ := shapes_get hts' h3
            exact ⟨t', h4, h5 ▸ h2, element_get h4⟩
      · refine Or.inl ⟨"shapes do not match", fun ts hts => ?_⟩
        match ts, hts with
        | t :: us, hts =>
          rw [List.map_cons, List.cons.injEq] at hts
          unfold MoveOps.concat
          dsimp only
          rw [hts.1, hn]
          refine if_neg fun hc => h fun u hu => ?_
          rw [← hts.2, List.mem_map] at hu
          obtain ⟨v, hv, rfl⟩ := hu
          exact hc v hv

theorem stack_moves (axis : Int) : MovesElements (MoveOps.stack axis) := by
  intro shapes
  match shapes with
  | [] => exact Or.inl ⟨_, fun ts hts => by rw [List.map_eq_nil_iff] at hts; rw [hts]; rfl⟩
  | s :: rest =>
    cases hn : MoveOps.normAxis (s.length + 1) axis with
    | error e =>
      refine Or.inl ⟨e, fun ts hts => ?_⟩
      match ts, hts with
      | t :: us, hts =>
        rw [List.map_cons, List.cons.injEq] at hts
        unfold MoveOps.stack
        dsimp only
        rw [hts.1, hn]
        rfl
    | ok a =>
      have ha := norm_lt hn
      by_cases h : ∀ u ∈ rest, u = s
      · refine Or.inr ⟨s.take a ++ (rest.length + 1) :: s.drop a, fun idx => (idx.getD a 0, idx.take a ++ idx.drop (a + 1)), fun ts hts => ?_⟩
        have hts' := hts
        match ts, hts with
        | t :: us, hts =>
          rw [List.map_cons, List.cons.injEq] at hts
          have hu : ∀ u ∈ us, u.shape = s := fun u hu => h u.shape (hts.2 ▸ List.mem_map_of_mem hu)
          refine ⟨⟨s.take a ++ (rest.length + 1) :: s.drop a, fun idx => MoveOps.elementAt (t :: us) t (idx.getD a 0, idx.take a ++ idx.drop (a + 1))⟩, ?_, rfl, fun idx hi => ?_⟩
          · unfold MoveOps.stack
            dsimp only
            rw [hts.1, hn, ← hts.2, List.length_map]
            exact if_pos hu
          · obtain ⟨i, j, k, rfl, hl, hi, hj, hk⟩ := valid_split hi
            rw [List.length_take, min_eq_left (by omega)] at hl
            dsimp only
            rw [take_mid hl, drop_mid hl, get_mid hl]
            have h3 : (s :: rest)[j]? = some s := by
              have hj' : j < (s :: rest).length := hj
              rw [List.getElem?_eq_getElem hj']
              refine congrArg some ?_
              rcases List.mem_cons.1 (List.getElem_mem hj') with e | e
              · exact e
              · exact h _ e
            obtain ⟨t', h4, h5⟩ := shapes_get hts' h3
            refine ⟨t', h4, ?_, element_get (p := (j, i ++ k)) h4⟩
            have := NdArray.valid_append hi hk
            rwa [List.take_append_drop, ← h5] at this
      · refine Or.inl ⟨"shapes do not match", fun ts hts => ?_⟩
        match ts, hts with
        | t :: us, hts =>
          rw [List.map_cons, List.cons.injEq] at hts
          unfold MoveOps.stack
          dsimp only
          rw [hts.1, hn]
          refine if_neg fun hc => h fun u hu => ?_
          rw [← hts.2, List.mem_map] at hu
          obtain ⟨v, hv, rfl⟩ := hu
          exact hc v hv

theorem select_moves (condition : Model.NdArray Bool) : MovesElements (MoveOps.select condition) := by
  intro shapes
  match shapes with
  | [] => exact Or.inl ⟨_, fun ts hts => by rw [List.map_eq_nil_iff] at hts; rw [hts]; rfl⟩
  | [_] =>
    refine Or.inl ⟨"two tensors are expected", fun ts hts => ?_⟩
    match ts, hts with
    | [_], _ => rfl
  | _ :: _ :: _ :: _ =>
    refine Or.inl ⟨"two tensors are expected", fun ts hts => ?_⟩
    match ts, hts with
    | _ :: _ :: _ :: _, _ => rfl
  | [s1, s2] =>
    cases hc : commonShapeFrom condition.shape [s1, s2] with
    | error e =>
      refine Or.inl ⟨e, fun ts hts => ?_⟩
      match ts, hts with
      | [x, y], hts =>
        obtain ⟨rfl, rfl⟩ : x.shape = s1 ∧ y.shape = s2 := by simpa using hts
        unfold MoveOps.select
        dsimp only
        rw [hc]
    | ok s =>
      obtain ⟨hb, -⟩ := (ShapeUtils.from_spec [s1, s2] condition.shape).1 s hc
      refine Or.inr ⟨s, fun idx => if condition.get (broadcastIndex condition.shape idx) then (0, broadcastIndex s1 idx) else (1, broadcastIndex s2 idx), fun ts hts => ?_⟩
      match ts, hts with
      | [x, y], hts =>
        obtain ⟨rfl, rfl⟩ : x.shape = s1 ∧ y.shape = s2 := by simpa using hts
        refine ⟨_, by unfold MoveOps.select; dsimp only; rw [hc], rfl, fun idx hi => ?_⟩
        dsimp only
        split
        · exact ⟨x, rfl, broadcast_valid (hb _ (by simp)) hi, rfl⟩
        · exact ⟨y, rfl, broadcast_valid (hb _ (by simp)) hi, rfl⟩

end TensorWrapper

/-- **C108.** All operations of the wrapper only move elements. -/
theorem C108_operations (axis : Int) (shape : List (Option Nat)) (target : List Nat) (perm : Option (List Nat)) (axes : Option (List Int)) (mask : Model.NdArray Bool)
    (maskAxis : Option Int) (keys : List MoveOps.Key) :
    MovesElements (MoveOps.concat axis) ∧ MovesElements (MoveOps.stack axis) ∧ MovesElements (MoveOps.select mask) ∧ MovesElements (onOne (MoveOps.expandDims axis)) ∧
    MovesElements (onOne (MoveOps.reshapeTo shape)) ∧ MovesElements (onOne fun t => .ok t) ∧ MovesElements (onOne fun t => broadcastTo t target) ∧
    MovesElements (onOne (MoveOps.transposeTo perm)) ∧ MovesElements (onOne (MoveOps.squeeze axes)) ∧ MovesElements (onOne (MoveOps.booleanMask mask maskAxis)) ∧
    MovesElements (onOne (MoveOps.getItem keys)) :=
  ⟨TensorWrapper.concat_moves axis, TensorWrapper.stack_moves axis, TensorWrapper.select_moves mask, TensorWrapper.expand_moves axis, TensorWrapper.reshape_moves shape,
    TensorWrapper.identity_moves, TensorWrapper.broadcast_moves target, TensorWrapper.transpose_moves perm, TensorWrapper.squeeze_moves axes,
    TensorWrapper.mask_moves mask maskAxis, TensorWrapper.item_moves keys⟩

/-- **C108, keys.** A number as first key takes the slice of the first axis with this number, counted from the end if it is negative, and a slice the part from its start
up to its stop; further keys apply to the further axes. -/
theorem C108_keys (t : Model.NdArray Int) (d : Nat) (ds : List Nat) (ht : t.shape = d :: ds) (a b : Nat) :
    (a < d → ∀ key : Int, key = a ∨ key = (a : Int) - d → ∃ r, MoveOps.getItem [.at key] t = .ok r ∧ r.shape = ds ∧ ∀ idx, r.get idx = t.get (a :: idx)) ∧
    (a ≤ d → b ≤ d → ∀ lo hi : Option Int, lo = some (a : Int) ∨ (a = 0 ∧ lo = none) ∨ (a < d ∧ lo = some ((a : Int) - d)) →
      hi = some (b : Int) ∨ (b = d ∧ hi = none) ∨ (b < d ∧ hi = some ((b : Int) - d)) →
      ∃ r, MoveOps.getItem [.slice lo hi] t = .ok r ∧ r.shape = (b - a) :: ds ∧ ∀ i idx, r.get (i :: idx) = t.get ((a + i) :: idx)) ∧
    ∀ c key, d = 1 → MoveOps.getItem (.slice none none :: [key]) t = .ok c → ∃ u : Model.NdArray Int, MoveOps.getItem [key] ⟨ds, fun idx => t.get (0 :: idx)⟩ = .ok u ∧
      c.shape = 1 :: u.shape ∧ ∀ idx, c.get (0 :: idx) = u.get idx := by
  refine ⟨fun h key hk => ?_, fun h1 h2 lo hi hlo hhi => ?_, fun c key hd h => ?_⟩
  · have hn : ∃ n, MoveOps.normAxis d key = .ok n := by
      unfold MoveOps.normAxis
      split
      · exact ⟨_, rfl⟩
      · rw [if_pos (by omega)]
        exact ⟨_, rfl⟩
    obtain ⟨n, hn⟩ := hn
    refine ⟨⟨ds, fun idx => t.get (MoveOps.itemSource [.at key] (d :: ds) idx)⟩, ?_, rfl, fun idx => ?_⟩
    · unfold MoveOps.getItem
      rw [ht]
      simp only [MoveOps.itemShape, hn]
    · simp only [MoveOps.itemSource]
      congr 2
      split <;> omega
  · have ea : MoveOps.clampBound d (lo.getD 0) = a := by
      unfold MoveOps.clampBound
      rcases hlo with rfl | ⟨rfl, rfl⟩ | ⟨hl, rfl⟩ <;> simp only [Option.getD_some, Option.getD_none] <;> split <;> omega
    have eb : MoveOps.clampBound d (hi.getD d) = b := by
      unfold MoveOps.clampBound
      rcases hhi with rfl | ⟨rfl, rfl⟩ | ⟨hl, rfl⟩ <;> simp only [Option.getD_some, Option.getD_none] <;> split <;> omega
    refine ⟨⟨(b - a) :: ds, fun idx => t.get (MoveOps.itemSource [.slice lo hi] (d :: ds) idx)⟩, ?_, rfl, fun i idx => ?_⟩
    · unfold MoveOps.getItem
      rw [ht]
      simp only [MoveOps.itemShape, ea, eb]
    · simp only [MoveOps.itemSource, ea, List.headD_cons, List.tail_cons]
  · subst hd
    unfold MoveOps.getItem at h ⊢
    rw [ht] at h
    cases hs : MoveOps.itemShape [key] ds with
    | error e =>
      simp only [MoveOps.itemShape, hs] at h
      cases h
    | ok r =>
      simp only [MoveOps.itemShape, hs] at h
      cases h
      exact ⟨_, rfl, rfl, fun idx => rfl⟩

/-- **C108.** An operation that only moves elements moves the dates of date tensors, year, month, day and ordinal together: of consistent tensors it makes a consistent
one, each date of which is a date of an argument, namely the same that the operation takes from plain tensors; it fails where it fails on plain tensors. -/
theorem C108_dates (op : List (Model.NdArray Int) → Except String (Model.NdArray Int)) (h : MovesElements op) (ts : List DateTensorNd)
    (hts : ∀ t ∈ ts, ∃ s, DatesOfShape t s ∧ ∀ idx, Valid s idx → ∃ d, Represents (dateAt t idx) d) :
    (∃ e, op (ts.map fun t => t.ordinals) = .error e ∧ DateTensorNd.applySequence op ts = .error e) ∨
    ∃ out o, op (ts.map fun t => t.ordinals) = .ok o ∧ DateTensorNd.applySequence op ts = .ok out ∧ out.ordinals = o ∧ DatesOfShape out o.shape ∧
      (∃ source : List Nat → Nat × List Nat,
        (∀ plain : List (Model.NdArray Int), plain.map Model.NdArray.shape = ts.map (fun t => t.ordinals.shape) → ∃ p, op plain = .ok p ∧ p.shape = o.shape ∧
          ∀ idx, Valid o.shape idx → ∃ t, plain[(source idx).1]? = some t ∧ p.get idx = t.get (source idx).2) ∧
        ∀ idx, Valid o.shape idx → ∃ t, ts[(source idx).1]? = some t ∧ Valid t.ordinals.shape (source idx).2 ∧ dateAt out idx = dateAt t (source idx).2) ∧
      ∀ idx, Valid o.shape idx → ∃ d, Represents (dateAt out idx) d := by
  obtain ⟨shapes, hsh⟩ : ∃ shapes, shapes = ts.map fun t => t.ordinals.shape := ⟨_, rfl⟩
  have e1 : (ts.map fun t => t.ordinals).map Model.NdArray.shape = shapes := by rw [hsh, List.map_map]; rfl
  have e2 : (ts.map fun t => t.years).map Model.NdArray.shape = shapes := by
    rw [hsh, List.map_map]
    exact List.map_congr_left fun t ht => by obtain ⟨s, hs, -⟩ := hts t ht; exact hs.2.1.trans hs.1.symm
  have e3 : (ts.map fun t => t.months).map Model.NdArray.shape = shapes := by
    rw [hsh, List.map_map]
    exact List.map_congr_left fun t ht => by obtain ⟨s, hs, -⟩ := hts t ht; exact hs.2.2.1.trans hs.1.symm
  have e4 : (ts.map fun t => t.days).map Model.NdArray.shape = shapes := by
    rw [hsh, List.map_map]
    exact List.map_congr_left fun t ht => by obtain ⟨s, hs, -⟩ := hts t ht; exact hs.2.2.2.trans hs.1.symm
  rcases h shapes with ⟨e, he⟩ | ⟨s, source, hs⟩
  · refine Or.inl ⟨e, he _ e1, ?_⟩
    unfold DateTensorNd.applySequence
    rw [he _ e1]
    rfl
  · obtain ⟨o, o1, o2, o3⟩ := hs _ e1
    obtain ⟨y, y1, y2, y3⟩ := hs _ e2
    obtain ⟨m, m1, m2, m3⟩ := hs _ e3
    obtain ⟨d, d1, d2, d3⟩ := hs _ e4
    have key : ∀ idx, Valid o.shape idx → ∃ t, ts[(source idx).1]? = some t ∧ Valid t.ordinals.shape (source idx).2 ∧ dateAt ⟨o, y, m, d⟩ idx = dateAt t (source idx).2 := by
      intro idx hi
      rw [o2] at hi
      obtain ⟨t, a1, a2, a3⟩ := o3 idx hi
      obtain ⟨t2, b1, -, b3⟩ := y3 idx hi
      obtain ⟨t3, c1, -, c3⟩ := m3 idx hi
      obtain ⟨t4, g1, -, g3⟩ := d3 idx hi
      rw [List.getElem?_map, Option.map_eq_some_iff] at a1 b1 c1 g1
      obtain ⟨u, u1, rfl⟩ := a1
      obtain ⟨u2, v2, rfl⟩ := b1
      obtain ⟨u3, v3, rfl⟩ := c1
      obtain ⟨u4, v4, rfl⟩ := g1
      rw [u1, Option.some.injEq] at v2 v3 v4
      subst v2 v3 v4
      refine ⟨u, u1, a2, ?_⟩
      unfold dateAt
      rw [a3, b3, c3, g3]
    refine Or.inr ⟨⟨o, y, m, d⟩, o, o1, TensorWrapper.seq_ok op ts o y m d o1 y1 m1 d1, rfl, ⟨rfl, y2.trans o2.symm, m2.trans o2.symm, d2.trans o2.symm⟩,
      ⟨source, fun plain hp => ?_, key⟩, fun idx hi => ?_⟩
    · obtain ⟨p, p1, p2, p3⟩ := hs plain (hp.trans hsh.symm)
      refine ⟨p, p1, p2.trans o2.symm, fun idx hi => ?_⟩
      obtain ⟨t, q1, -, q3⟩ := p3 idx (o2 ▸ hi)
      exact ⟨t, q1, q3⟩
    · obtain ⟨t, k1, k2, k3⟩ := key idx hi
      obtain ⟨s', hs', hr⟩ := hts t (List.mem_of_getElem? k1)
      rw [k3]
      exact hr _ (hs'.1 ▸ k2)

/-- **C108.** The operations on one date tensor are those on lists of one. -/
theorem C108_one (op : Model.NdArray Int → Except String (Model.NdArray Int)) (t : DateTensorNd) (p : PeriodTensorNd) :
    DateTensorNd.applyOp op t = DateTensorNd.applySequence (onOne op) [t] ∧ PeriodTensorNd.applyOp op p = PeriodTensorNd.applySequence (onOne op) [p] := by
  refine ⟨rfl, ?_⟩
  unfold PeriodTensorNd.applyOp PeriodTensorNd.applySequence
  simp [onOne]

/-- **C108.** Period tensors are combined only if they have the same type; the quantities are then combined as plain tensors. -/
theorem C108_periods (op : List (Model.NdArray Int) → Except String (Model.NdArray Int)) (ts : List PeriodTensorNd) (r : PeriodTensorNd) :
    PeriodTensorNd.applySequence op ts = .ok r ↔ ts ≠ [] ∧ (∀ t ∈ ts, t.type = r.type) ∧ op (ts.map fun t => t.quantity) = .ok r.quantity := by
  unfold PeriodTensorNd.applySequence
  cases h : op (ts.map fun t => t.quantity) with
  | error e => simp [bind, Except.bind]
  | ok q =>
    match ts with
    | [] => simp [bind, Except.bind]
    | t :: rest =>
      simp only [bind, Except.bind, List.all_eq_true, decide_eq_true_eq, ne_eq, reduceCtorEq, not_false_eq_true, true_and, List.mem_cons, forall_eq_or_imp, Except.ok.injEq]
      by_cases hc : ∀ u ∈ rest, u.type = t.type
      · rw [if_pos hc]
        constructor
        · intro he
          cases he
          exact ⟨⟨rfl, hc⟩, rfl⟩
        · rintro ⟨⟨h1, -⟩, h2⟩
          obtain ⟨q', ty⟩ := r
          dsimp only at h1 h2
          rw [h1, h2]
          rfl
      · rw [if_neg hc]
        constructor
        · intro he
          cases he
        · rintro ⟨⟨h1, h2⟩, -⟩
          exact absurd (fun u hu => (h2 u hu).trans h1.symm) hc

/-- **C108.** Sums and differences of period tensors of different types are refused; otherwise they are those of the quantities, with broadcasting. -/
theorem C108_arithmetic (p q : PeriodTensorNd) (n : Model.NdArray Int) :
    (p.type ≠ q.type → (∃ e, p.add q = .error e) ∧ ∃ e, p.sub q = .error e) ∧
    (p.type = q.type → ∀ s, broadcastShape p.quantity.shape q.quantity.shape = some s →
      (∃ r, p.add q = .ok r ∧ r.type = p.type ∧ r.quantity.shape = s ∧
        ∀ idx, r.quantity.get idx = p.quantity.get (broadcastIndex p.quantity.shape idx) + q.quantity.get (broadcastIndex q.quantity.shape idx)) ∧
      ∃ r, p.sub q = .ok r ∧ r.type = p.type ∧ r.quantity.shape = s ∧
        ∀ idx, r.quantity.get idx = p.quantity.get (broadcastIndex p.quantity.shape idx) - q.quantity.get (broadcastIndex q.quantity.shape idx)) ∧
    ∀ s, broadcastShape p.quantity.shape n.shape = some s → ∃ r, p.mul n = .ok r ∧ r.type = p.type ∧ r.quantity.shape = s ∧
      ∀ idx, r.quantity.get idx = p.quantity.get (broadcastIndex p.quantity.shape idx) * n.get (broadcastIndex n.shape idx) := by
  refine ⟨fun h => ?_, fun h s hs => ⟨?_, ?_⟩, fun s hs => ?_⟩
  · unfold PeriodTensorNd.add PeriodTensorNd.sub
    rw [if_pos (Ne.symm h), if_pos (Ne.symm h)]
    exact ⟨⟨_, rfl⟩, ⟨_, rfl⟩⟩
  · unfold PeriodTensorNd.add Model.NdArray.map2
    rw [if_neg (not_not.2 h.symm), hs]
    exact ⟨_, rfl, rfl, rfl, fun idx => rfl⟩
  · unfold PeriodTensorNd.sub Model.NdArray.map2
    rw [if_neg (not_not.2 h.symm), hs]
    exact ⟨_, rfl, rfl, rfl, fun idx => rfl⟩
  · unfold PeriodTensorNd.mul Model.NdArray.map2
    rw [hs]
    exact ⟨_, rfl, rfl, rfl, fun idx => rfl⟩

/-- **C108.** Adding periods one after the other is adding their sum, for days and weeks as long as no date before the first one is met, and for months and years if the day
is at most 28. -/
theorem C108_action (t : DateT) (d : YMD) (h : Represents t d) (m n : Int) :
    (∀ p t', p = PeriodType.DAY ∨ p = PeriodType.WEEK → t.add ⟨m, p⟩ = .ok t' → t'.add ⟨n, p⟩ = t.add ⟨m + n, p⟩) ∧
    (∀ p t', p = PeriodType.MONTH ∨ p = PeriodType.YEAR → d.day ≤ 28 → t.add ⟨m, p⟩ = .ok t' → t'.add ⟨n, p⟩ = t.add ⟨m + n, p⟩) := by
  constructor
  · intro p t' hp ht
    have key : ∀ k, (p = .DAY ∧ k = m) ∨ (p = .WEEK ∧ k = 7 * m) → ∀ l, (p = .DAY ∧ l = n) ∨ (p = .WEEK ∧ l = 7 * n) → t'.add ⟨n, p⟩ = t.add ⟨m + n, p⟩ := by
      intro k hk l hl
      rcases C04_add_days_total t d h m p k hk with ⟨-, e, he⟩ | ⟨-, t1, d1, h1, h2, h3, -⟩
      · rw [he] at ht
        cases ht
      · rw [h1] at ht
        cases ht
        have ho : t'.ordinal = t.ordinal + k := by rw [h2.2.2.2.2, h.2.2.2.2, h3]
        rcases hp with rfl | rfl
        · obtain rfl : k = m := by simpa using hk
          show fromOrdinals (t'.ordinal + n) = fromOrdinals (t.ordinal + (k + n))
          rw [ho, add_assoc]
        · obtain rfl : k = 7 * m := by simpa using hk
          show fromOrdinals (t'.ordinal + n * 7) = fromOrdinals (t.ordinal + (m + n) * 7)
          rw [ho, add_mul, add_assoc, mul_comm 7 m]
    rcases hp with rfl | rfl
    · exact key m (Or.inl ⟨rfl, rfl⟩) n (Or.inl ⟨rfl, rfl⟩)
    · exact key (7 * m) (Or.inr ⟨rfl, rfl⟩) (7 * n) (Or.inr ⟨rfl, rfl⟩)
  · intro p t' hp h28 ht
    have key : ∀ k l : Int, t.add ⟨k, .MONTH⟩ = .ok t' → t'.add ⟨l, .MONTH⟩ = t.add ⟨k + l, .MONTH⟩ := by
      intro k l hk
      obtain ⟨t1, d1, a1, a2, a3, a4⟩ := C03_add_months t d h k
      rw [a1] at hk
      cases hk
      obtain ⟨t2, d2, b1, b2, b3, b4⟩ := C03_add_months t' d1 a2 l
      obtain ⟨t3, d3, c1, c2, c3, c4⟩ := C03_add_months t d h (k + l)
      rw [b1, c1]
      have x1 := Lemmas.monthLength_pos d1.year d1.month
      have x2 := Lemmas.monthLength_pos d2.year d2.month
      have x3 := Lemmas.monthLength_pos d3.year d3.month
      have y2 := b2.1.1
      have y2' := b2.1.2.1
      have y3 := c2.1.1
      have y3' := c2.1.2.1
      have e : d2 = d3 := by
        obtain ⟨y2, m2, dd2⟩ := d2
        obtain ⟨y3, m3, dd3⟩ := d3
        simp only [YMD.mk.injEq] at *
        omega
      rw [(represents_iff _ _).1 b2 |>.2, (represents_iff _ _).1 c2 |>.2, e]
    rcases hp with rfl | rfl
    · exact key m n ht
    · rw [represents_iff] at h
      obtain ⟨hv, rfl⟩ := h
      have ht' := ht
      rw [Lemmas.add_year_eq d hv] at ht
      obtain ⟨t1, d1, a1, a2, -⟩ := C03_add_years _ d ((represents_iff _ _).2 ⟨hv, rfl⟩) m
      rw [a1] at ht'
      cases ht'
      rw [represents_iff] at a2
      have := key (12 * m) (12 * n) ht
      rw [Lemmas.add_year_eq d hv, mul_add, ← this, a2.2, Lemmas.add_year_eq d1 a2.1]

/-- For the last days of the month the bound is needed: a month after a month after January 31 is not two months after. -/
example : ((fromYearMonthDay 2021 1 31).bind fun t => (t.add ⟨1, .MONTH⟩).bind fun t => t.add ⟨1, .MONTH⟩) = fromYearMonthDay 2021 3 28 ∧
    ((fromYearMonthDay 2021 1 31).bind fun t => t.add ⟨2, .MONTH⟩) = fromYearMonthDay 2021 3 31 := by decide +kernel

/-- Two dates in a row, stacked with themselves, transposed and cut. -/
example : ∃ out, (do
      let t ← DateTensorNd.applySequence (MoveOps.stack 0) [⟨⟨[2], fun i => if i = [0] then 1 else 32⟩, ⟨[2], fun _ => 1⟩, ⟨[2], fun i => if i = [0] then 1 else 2⟩, ⟨[2], fun _ => 1⟩⟩,
        ⟨⟨[2], fun _ => 366⟩, ⟨[2], fun _ => 2⟩, ⟨[2], fun _ => 1⟩, ⟨[2], fun _ => 1⟩⟩]
      let t ← DateTensorNd.applyOp (MoveOps.transposeTo none) t
      DateTensorNd.applyOp (MoveOps.getItem [.at (-1), .slice none (some (-1))]) t) = .ok out ∧
    out.ordinals.shape = [1] ∧ dateAt out [0] = ⟨32, 1, 2, 1⟩ := ⟨_, rfl, rfl, rfl⟩

end Props
