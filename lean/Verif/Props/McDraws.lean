import Verif.Model.McDraws
import Verif.Props.RandomOpsQuasi

/-! # C113: draws for simulations -/

namespace McDraws
open Model Lemmas Props
open NdArray (Valid)

variable {K : Type}

theorem transpose_get (t : Model.NdArray K) (perm idx orig : List Nat) (hn : perm.Nodup) (hl : orig.length = t.shape.length)
    (h : ∀ a : Nat, a < t.shape.length → ∃ p : Nat, perm[p]? = some a ∧ idx[p]? = orig[a]?) : (t.transpose perm).get idx = t.get orig := by
  unfold Model.NdArray.transpose
  dsimp only
  congr 1
  apply List.ext_getElem?
  intro a
  by_cases ha : a < t.shape.length
  · obtain ⟨p, h1, h2⟩ := h a ha
    obtain ⟨hp, h3⟩ := List.getElem?_eq_some_iff.1 h1
    have hidx : perm.idxOf a = p := by rw [← h3]; exact hn.idxOf_getElem p hp
    rw [List.getElem?_map, List.getElem?_range ha, Option.map_some, hidx, List.getD_eq_getElem?_getD, h2, List.getElem?_eq_getElem (by omega)]
    rfl
  · rw [List.getElem?_eq_none (by simpa using ha), List.getElem?_eq_none (by omega)]

theorem permutation_plain (n : Nat) : ([n] ++ List.range n ++ [n + 1]).Nodup := by
  simp [List.nodup_append, List.nodup_range]
  omega

theorem permutation_antithetic (n : Nat) : ([n + 1] ++ List.range' 1 n ++ [0, n + 2]).Nodup := by
  simp [List.nodup_append, List.nodup_range', List.mem_range'_1]
  exact ⟨by omega, fun a h1 h2 => ⟨by omega, by omega⟩⟩

/-- The step goes to the front. -/
theorem transpose_plain (t : Model.NdArray K) (sample : List Nat) (a b : Nat) (hs : t.shape = sample ++ [a, b]) (s : List Nat) (hl : s.length = sample.length) (k d : Nat) :
    (t.transpose ([sample.length] ++ List.range sample.length ++ [sample.length + 1])).shape = a :: sample ++ [b] ∧
    (t.transpose ([sample.length] ++ List.range sample.length ++ [sample.length + 1])).get (k :: s ++ [d]) = t.get (s ++ [k, d]) := by
  constructor
  · unfold Model.NdArray.transpose
    simp only [hs, List.map_append, List.map_cons, List.map_nil, List.singleton_append]
    have h1 : (sample ++ [a, b]).getD sample.length 0 = a := by simp
    have h2 : (sample ++ [a, b]).getD (sample.length + 1) 0 = b := by simp
    rw [h1, h2]
    congr 2
    apply List.ext_getElem?
    intro q
    by_cases hq : q < sample.length
    · rw [List.getElem?_map, List.getElem?_range hq, Option.map_some, List.getD_eq_getElem?_getD, List.getElem?_append_left hq, List.getElem?_eq_getElem hq]
      rfl
    · rw [List.getElem?_eq_none (by simpa using hq), List.getElem?_eq_none (by omega)]
  · apply transpose_get t _ _ _ (permutation_plain _) (by simp [hs, hl])
    intro q hq
    rw [hs] at hq
    simp only [List.length_append, List.length_cons, List.length_nil] at hq
    rcases Nat.lt_trichotomy q sample.length with h | h | h
    · refine ⟨q + 1, ?_, ?_⟩
      · rw [List.append_assoc, List.singleton_append, List.getElem?_cons_succ, List.getElem?_append_left (by simpa using h), List.getElem?_range h]
      · rw [List.cons_append, List.getElem?_cons_succ, List.getElem?_append_left (by omega), List.getElem?_append_left (by omega)]
    · refine ⟨0, by simp [h], ?_⟩
      rw [h, ← hl]
      simp
    · have h' : q = sample.length + 1 := by omega
      refine ⟨q, ?_, ?_⟩
      · rw [h']
        simp
      · rw [h', ← hl]
        simp

/-- The step goes to the front and the path behind the batch. -/
theorem transpose_antithetic (t : Model.NdArray K) (batch : List Nat) (paths a c : Nat) (hs : t.shape = paths :: batch ++ [a, c]) (b : List Nat)
    (hl : b.length = batch.length) (k p d : Nat) :
    (t.transpose ([batch.length + 1] ++ List.range' 1 batch.length ++ [0, batch.length + 2])).shape = a :: batch ++ [paths, c] ∧
    (t.transpose ([batch.length + 1] ++ List.range' 1 batch.length ++ [0, batch.length + 2])).get (k :: b ++ [p, d]) = t.get (p :: b ++ [k, d]) := by
  constructor
  · unfold Model.NdArray.transpose
    simp only [hs, List.map_append, List.map_cons, List.map_nil, List.singleton_append]
    have h1 : (paths :: batch ++ [a, c]).getD (batch.length + 1) 0 = a := by simp
    have h2 : (paths :: batch ++ [a, c]).getD (batch.length + 2) 0 = c := by simp
    have h3 : (paths :: batch ++ [a, c]).getD 0 0 = paths := by simp
    rw [h1, h2, h3]
    congr 2
    apply List.ext_getElem?
    intro q
    by_cases hq : q < batch.length
    · rw [List.getElem?_map, List.getElem?_range' hq, Option.map_some, List.getD_eq_getElem?_getD, List.cons_append, one_mul, Nat.add_comm 1 q,
        List.getElem?_cons_succ, List.getElem?_append_left hq, List.getElem?_eq_getElem hq]
      rfl
    · rw [List.getElem?_eq_none (by simpa using hq), List.getElem?_eq_none (by omega)]
  · apply transpose_get t _ _ _ (permutation_antithetic _) (by simp [hs, hl])
    intro q hq
    rw [hs] at hq
    simp only [List.length_append, List.length_cons, List.length_nil] at hq
    rcases Nat.eq_zero_or_pos q with h0 | h0
    · refine ⟨batch.length + 1, ?_, ?_⟩
      · rw [h0]
        simp
      · rw [h0, ← hl]
        simp
    · rcases Nat.lt_trichotomy q (batch.length + 1) with h | h | h
      · obtain ⟨q', rfl⟩ : ∃ q', q = q' + 1 := ⟨q - 1, by omega⟩
        refine ⟨q' + 1, ?_, ?_⟩
        · rw [List.append_assoc, List.singleton_append, List.getElem?_cons_succ, List.getElem?_append_left (by simp; omega), List.getElem?_range' (by omega)]
          simp [Nat.add_comm]
        · rw [List.cons_append, List.cons_append, List.getElem?_cons_succ, List.getElem?_cons_succ, List.getElem?_append_left (by omega),
            List.getElem?_append_left (by omega)]
      · refine ⟨0, by simp [h], ?_⟩
        rw [h, ← hl]
        simp
      · have h' : q = batch.length + 2 := by omega
        refine ⟨q, ?_, ?_⟩
        · rw [h']
          simp
        · rw [h', ← hl]
          simp

/-- The reshape separates steps and draws. -/
theorem reshape_split (t : Model.NdArray K) (sample : List Nat) (steps draws : Nat) (hs : t.shape = sample ++ [steps * draws]) (s : List Nat) (hv : Valid sample s)
    (k d : Nat) (hk : k < steps) (hd : d < draws) : (t.reshape (sample ++ [steps, draws])).get (s ++ [k, d]) = t.get (s ++ [k * draws + d]) := by
  have hlt : k * draws + d < steps * draws := by
    calc k * draws + d < k * draws + draws := by omega
      _ = (k + 1) * draws := by ring
      _ ≤ steps * draws := Nat.mul_le_mul_right _ hk
  have hv' : Valid (sample ++ [steps * draws]) (s ++ [k * draws + d]) := NdArray.valid_append hv (List.Forall₂.cons hlt List.Forall₂.nil)
  rw [NdArray.reshape_get, hs, NdArray.flat_append hv]
  have : flatIndex sample s * [steps, draws].prod + flatIndex [steps, draws] [k, d] = flatIndex (sample ++ [steps * draws]) (s ++ [k * draws + d]) := by
    rw [NdArray.flat_append hv]
    simp [flatIndex]
  rw [this, NdArray.unflat_flat hv']

/-- The rearrangement without antithetic paths. -/
theorem arrange_plain (x : Model.NdArray K) (type : Option RandomType) (ht : RandomType.isAntithetic type = false) (batch : List Nat) (paths steps draws : Nat)
    (hs : x.shape = (batch ++ [paths]) ++ [steps * draws]) :
    ((x.reshape ((batch ++ [paths]) ++ [steps, draws])).transpose (mcPermutation type ((batch ++ [paths]) ++ [steps, draws]).length)).shape =
      steps :: batch ++ [paths, draws] ∧
    ∀ k b p d, k < steps → Valid batch b → p < paths → d < draws →
      ((x.reshape ((batch ++ [paths]) ++ [steps, draws])).transpose (mcPermutation type ((batch ++ [paths]) ++ [steps, draws]).length)).get (k :: b ++ [p, d]) =
        x.get (b ++ [p, k * draws + d]) := by
  have hperm : mcPermutation type ((batch ++ [paths]) ++ [steps, draws]).length = [(batch ++ [paths]).length] ++ List.range (batch ++ [paths]).length ++
      [(batch ++ [paths]).length + 1] := by
    unfold mcPermutation
    simp [ht]
  rw [hperm]
  constructor
  · rw [(transpose_plain (x.reshape ((batch ++ [paths]) ++ [steps, draws])) (batch ++ [paths]) steps draws rfl (batch ++ [paths]) rfl 0 0).1]
    simp
  · intro k b p d hk hb hp hd
    have hv : Valid (batch ++ [paths]) (b ++ [p]) := NdArray.valid_append hb (List.Forall₂.cons hp List.Forall₂.nil)
    have h1 := (transpose_plain (x.reshape ((batch ++ [paths]) ++ [steps, draws])) (batch ++ [paths]) steps draws rfl (b ++ [p]) (NdArray.valid_length hv) k d).2
    rw [reshape_split x (batch ++ [paths]) steps draws hs (b ++ [p]) hv k d hk hd] at h1
    simpa using h1

/-- The rearrangement with antithetic paths. -/
theorem arrange_antithetic (x : Model.NdArray K) (type : Option RandomType) (ht : RandomType.isAntithetic type = true) (batch : List Nat) (paths steps draws : Nat)
    (hs : x.shape = (paths :: batch) ++ [steps * draws]) :
    ((x.reshape ((paths :: batch) ++ [steps, draws])).transpose (mcPermutation type ((paths :: batch) ++ [steps, draws]).length)).shape =
      steps :: batch ++ [paths, draws] ∧
    ∀ k b p d, k < steps → Valid batch b → p < paths → d < draws →
      ((x.reshape ((paths :: batch) ++ [steps, draws])).transpose (mcPermutation type ((paths :: batch) ++ [steps, draws]).length)).get (k :: b ++ [p, d]) =
        x.get (p :: b ++ [k * draws + d]) := by
  have hperm : mcPermutation type ((paths :: batch) ++ [steps, draws]).length = [batch.length + 1] ++ List.range' 1 batch.length ++ [0, batch.length + 2] := by
    unfold mcPermutation
    rw [ht]
    cases batch with
    | nil => simp
    | cons c cs => simp
  rw [hperm]
  constructor
  · rw [(transpose_antithetic (x.reshape ((paths :: batch) ++ [steps, draws])) batch paths steps draws rfl batch rfl 0 0 0).1]
  · intro k b p d hk hb hp hd
    have hv : Valid (paths :: batch) (p :: b) := List.Forall₂.cons hp hb
    rw [(transpose_antithetic (x.reshape ((paths :: batch) ++ [steps, draws])) batch paths steps draws rfl b (NdArray.valid_length hb) k p d).2,
      reshape_split x (paths :: batch) steps draws hs (p :: b) hv k d hk hd]

/-- The mean of the draws fits. -/
theorem fits_total (n : Nat) : RandomOps.Fits [] n (some (⟨[n], fun _ => 0⟩ : Model.NdArray ℝ)) none :=
  ⟨fun m hm => by rw [← Option.some.inj hm]; rfl, fun l hl => by simp at hl, Or.inl (by simp)⟩

theorem affine_zero {sample : List Nat} {n : Nat} {z out : List Nat → ℝ}
    (h : Spec.IsAffineDraw sample [] n (RandomOps.meanValue (some (⟨[n], fun _ => 0⟩ : Model.NdArray ℝ))) (RandomOps.scaleValue none) z out)
    (s : List Nat) (hs : Valid sample s) (i : Nat) (hi : i < n) : out (s ++ [i]) = z (s ++ [i]) := by
  have := h s [] i hs List.Forall₂.nil hi
  simpa [RandomOps.meanValue, RandomOps.scaleValue, hi] using this

end McDraws

namespace McDraws
open Model
open NdArray (Valid)

variable {K : Type}

theorem mc_ok {src : RandomSource} {chol : Model.NdArray ℝ → Model.NdArray ℝ} {call draws steps paths : Nat} {type : Option RandomType} {batch : List Nat}
    {skip : Option Nat} {seed : Option Seed} {x : Model.NdArray ℝ}
    (h : multivariateNormal src chol call (mcSampleShape type batch paths) (some ⟨[steps * draws], fun _ => 0⟩) none none type seed (skip.getD 0) = .ok x) :
    mcNormalDraws src chol call draws steps paths type batch skip seed = .ok ((x.reshape (mcSampleShape type batch paths ++ [steps, draws])).transpose
      (mcPermutation type (mcSampleShape type batch paths ++ [steps, draws]).length)) := by
  unfold mcNormalDraws
  dsimp only
  rw [h]
  rfl

/-- A shape that can be broadcast to another one of the same rank. -/
abbrev Fits (a b : List Nat) : Prop := List.Forall₂ (fun x y => x = y ∨ x = 1) a b

theorem broadcastRev_fits : ∀ {a b : List Nat}, Fits a b → broadcastRev a b = some b
  | [], [], _ => rfl
  | x :: a, y :: b, h => by
    cases h with
    | cons h1 h2 =>
      unfold broadcastRev
      rw [broadcastRev_fits h2]
      dsimp only
      rcases h1 with h1 | h1
      · rw [if_pos (Or.inl h1), h1]
      · by_cases hy : x = y ∨ y = 1
        · rw [if_pos hy]
          rcases hy with hy | hy
          · rw [hy]
          · rw [h1, hy]
        · rw [if_neg hy, if_pos h1]

theorem broadcastRev_both : ∀ {a b c : List Nat}, Fits a c → Fits b c → ∃ d, broadcastRev a b = some d ∧ Fits d c
  | [], [], [], _, _ => ⟨[], rfl, List.Forall₂.nil⟩
  | [], _ :: _, _, h, h' => by cases h; cases h'
  | _ :: _, [], _, h, h' => by cases h'; cases h
  | x :: a, y :: b, z :: c, h, h' => by
    cases h with
    | cons h1 h2 =>
      cases h' with
      | cons h1' h2' =>
        obtain ⟨d, hd, hf⟩ := broadcastRev_both h2 h2'
        unfold broadcastRev
        rw [hd]
        dsimp only
        by_cases hy : x = y ∨ y = 1
        · rw [if_pos hy]
          exact ⟨_, rfl, List.Forall₂.cons h1 hf⟩
        · rw [if_neg hy]
          have hx : x = 1 := by
            rcases h1 with h1 | h1
            · rcases h1' with h1' | h1'
              · exact absurd (Or.inl (h1.trans h1'.symm)) hy
              · exact absurd (Or.inr h1') hy
            · exact h1
          rw [if_pos hx]
          exact ⟨_, rfl, List.Forall₂.cons h1' hf⟩

theorem broadcastShape_fits {a b : List Nat} (h : Fits a b) : broadcastShape a b = some b := by
  unfold broadcastShape
  rw [broadcastRev_fits (List.rel_reverse h)]
  simp

theorem broadcastShape_both {a b c : List Nat} (h : Fits a c) (h' : Fits b c) : ∃ d, broadcastShape a b = some d ∧ Fits d c := by
  obtain ⟨d, h1, h2⟩ := broadcastRev_both (List.rel_reverse h) (List.rel_reverse h')
  refine ⟨d.reverse, ?_, ?_⟩
  · unfold broadcastShape
    rw [h1]
    rfl
  · have := List.rel_reverse h2
    rwa [List.reverse_reverse] at this

theorem mask_fits {shape : List Nat} {axis size : Nat} (h : shape[axis]? = some size) :
    Fits (List.replicate axis 1 ++ [size] ++ List.replicate (shape.length - axis - 1) 1) shape := by
  obtain ⟨hl, hg⟩ := List.getElem?_eq_some_iff.1 h
  refine List.forall₂_iff_get.2 ⟨by simp; omega, fun i h1 h2 => ?_⟩
  simp only [List.get_eq_getElem]
  rcases Nat.lt_trichotomy i axis with hi | hi | hi
  · right
    simp [List.getElem_append, hi, Nat.lt_succ_of_lt hi]
  · left
    subst hi
    simp [List.getElem_append, hg]
  · right
    rw [List.getElem_append_right (by simp; omega)]
    simp

theorem zip_ones_zeros : ∀ (n : Nat) (l : List Nat), l.length = n → List.zipWith (fun i d => if d = 1 then 0 else i) l (List.replicate n 1) = List.replicate n 0
  | 0, [], _ => rfl
  | n + 1, x :: l, h => by
    rw [List.replicate_succ, List.replicate_succ, List.zipWith_cons_cons, zip_ones_zeros n l (by simpa using h)]
    rfl

theorem mask_get {shape idx : List Nat} {axis size : Nat} (h : shape[axis]? = some size) (h1 : 1 < size) (hv : Valid shape idx) (ind : Int) :
    (axisMask shape.length axis size ind).get (broadcastIndex (axisMask shape.length axis size ind).shape idx) = decide ((idx.getD axis 0 : Int) = ind) := by
  obtain ⟨hl, hg⟩ := List.getElem?_eq_some_iff.1 h
  have hil : idx.length = shape.length := NdArray.valid_length hv
  have hlt : idx.getD axis 0 < size := by
    have := (List.forall₂_iff_get.1 hv).2 axis (by omega) hl
    rw [List.get_eq_getElem, List.get_eq_getElem, hg] at this
    rwa [List.getD_eq_getElem _ _ (by omega)]
  have hsplit : idx = idx.take axis ++ [idx.getD axis 0] ++ idx.drop (axis + 1) := by
    rw [List.append_assoc, List.singleton_append, List.getD_eq_getElem _ _ (by omega), ← List.drop_eq_getElem_cons (by omega), List.take_append_drop]
  have hb : broadcastIndex (List.replicate axis 1 ++ [size] ++ List.replicate (shape.length - axis - 1) 1) idx =
      List.replicate axis 0 ++ ([idx.getD axis 0] ++ List.replicate (shape.length - axis - 1) 0) := by
    unfold broadcastIndex
    have h0 : idx.length - (List.replicate axis 1 ++ [size] ++ List.replicate (shape.length - axis - 1) 1).length = 0 := by simp; omega
    rw [h0, List.drop_zero]
    conv_lhs => rw [hsplit]
    rw [List.append_assoc, List.append_assoc, List.zipWith_append (by simp; omega), List.zipWith_append (by simp),
      zip_ones_zeros axis _ (by simp; omega), zip_ones_zeros _ _ (by simp; omega)]
    simp
    intro h2
    omega
  have hflat : flatIndex (List.replicate axis 1 ++ [size] ++ List.replicate (shape.length - axis - 1) 1)
      (List.replicate axis 0 ++ ([idx.getD axis 0] ++ List.replicate (shape.length - axis - 1) 0)) = idx.getD axis 0 := by
    have hv0 : Valid (List.replicate axis 1) (List.replicate axis 0) := by
      rw [NdArray.Valid, List.forall₂_iff_get]
      exact ⟨by simp, fun i a b => by simp⟩
    rw [List.append_assoc, NdArray.flat_append hv0, NdArray.flat_zeros, Nat.zero_mul, Nat.zero_add, List.singleton_append, List.singleton_append, NdArray.flat_cons,
      NdArray.flat_zeros]
    simp
  change decide (((unflatIndex [size] (flatIndex _ (broadcastIndex _ idx))).getD 0 0 : Int) = ind) = _
  have hshape : (axisMask shape.length axis size ind).shape = List.replicate axis 1 ++ [size] ++ List.replicate (shape.length - axis - 1) 1 := rfl
  rw [hshape, hb, hflat]
  simp [unflatIndex]

theorem broadcastIndex_valid {shape idx : List Nat} (hv : Valid shape idx) : broadcastIndex shape idx = idx := NdArray.broadcastIndex_self hv

end McDraws

namespace Props
open Model Lemmas
open NdArray (Valid)

/-- C113: the pseudo random draw of a path at a step is the draw of the generator for this path with the number of the step and the draw. -/
theorem C113_pseudo (src : RandomSource) (hsrc : src.Valid) (chol : Model.NdArray ℝ → Model.NdArray ℝ) (call draws steps paths : Nat) (batch : List Nat)
    (skip : Option Nat) (seed : Option Seed) :
    (∃ r, mcNormalDraws src chol call draws steps paths none batch skip seed = .ok r ∧ r.shape = steps :: batch ++ [paths, draws] ∧
      ∀ k b p d, k < steps → List.Forall₂ (· < ·) b batch → p < paths → d < draws →
        r.get (k :: b ++ [p, d]) = (src.normal call seed (batch ++ [paths, steps * draws])).get (b ++ [p, k * draws + d])) ∧
    (∀ s, seed = some s → ∃ r, mcNormalDraws src chol call draws steps paths (some .stateless) batch skip seed = .ok r ∧ r.shape = steps :: batch ++ [paths, draws] ∧
      ∀ k b p d, k < steps → List.Forall₂ (· < ·) b batch → p < paths → d < draws →
        r.get (k :: b ++ [p, d]) = (src.statelessNormal s (batch ++ [paths, steps * draws])).get (b ++ [p, k * draws + d])) := by
  obtain ⟨h1, h2⟩ := C103_pseudo src hsrc chol call (batch ++ [paths]) [] (steps * draws) (some ⟨[steps * draws], fun _ => 0⟩) none none seed (Or.inl rfl)
    (McDraws.fits_total (steps * draws))
  have hlt : ∀ k d, k < steps → d < draws → k * draws + d < steps * draws := by
    intro k d hk hd
    calc k * draws + d < k * draws + draws := by omega
      _ = (k + 1) * draws := by ring
      _ ≤ steps * draws := Nat.mul_le_mul_right _ hk
  have hv : ∀ b p, List.Forall₂ (· < ·) b batch → p < paths → Valid (batch ++ [paths]) (b ++ [p]) := fun b p hb hp =>
    NdArray.valid_append hb (List.Forall₂.cons hp List.Forall₂.nil)
  constructor
  · obtain ⟨x, hx, hs, ha⟩ := h1
    obtain ⟨e1, e2⟩ := McDraws.arrange_plain x none rfl batch paths steps draws (by simpa using hs)
    refine ⟨_, McDraws.mc_ok hx, e1, fun k b p d hk hb hp hd => ?_⟩
    have := e2 k b p d hk hb hp hd
    refine this.trans ?_
    have h3 := McDraws.affine_zero ha (b ++ [p]) (hv b p hb hp) (k * draws + d) (hlt k d hk hd)
    simpa using h3
  · intro s hs0
    obtain ⟨x, hx, hs, ha⟩ := h2 s hs0
    obtain ⟨e1, e2⟩ := McDraws.arrange_plain x (some .stateless) rfl batch paths steps draws (by simpa using hs)
    refine ⟨_, McDraws.mc_ok hx, e1, fun k b p d hk hb hp hd => ?_⟩
    have := e2 k b p d hk hb hp hd
    refine this.trans ?_
    have h3 := McDraws.affine_zero ha (b ++ [p]) (hv b p hb hp) (k * draws + d) (hlt k d hk hd)
    simpa using h3

/-- C113: with a sequence of low discrepancy every path of every batch has a point of its own, whose coordinates are the draws of its steps. -/
theorem C113_quasi (src : RandomSource) (hsrc : src.Valid) (chol : Model.NdArray ℝ → Model.NdArray ℝ) (call draws steps paths : Nat) (batch : List Nat)
    (hpos : 0 < steps * draws) (skip : Option Nat) (seed : Option Seed) (type : RandomType) (points : Model.NdArray ℝ)
    (ht : (type = .sobol ∧ points = src.sobol (steps * draws) (batch.prod * paths) (skip.getD 0)) ∨
      (type = .halton ∧ points = src.halton (steps * draws) ((List.range (batch.prod * paths)).map (skip.getD 0 + ·)) false seed) ∨
      (type = .haltonRandomized ∧ points = src.halton (steps * draws) ((List.range (batch.prod * paths)).map (skip.getD 0 + ·)) true seed)) :
    ∃ r, mcNormalDraws src chol call draws steps paths (some type) batch skip seed = .ok r ∧ r.shape = steps :: batch ++ [paths, draws] ∧
      ∀ k b p d, k < steps → List.Forall₂ (· < ·) b batch → p < paths → d < draws →
        r.get (k :: b ++ [p, d]) = erfinv ((points.get [flatIndex batch b * paths + p, k * draws + d] - 0.5) * 2) * Real.sqrt 2 := by
  have hanti : RandomType.isAntithetic (some type) = false := by rcases ht with ⟨h, -⟩ | ⟨h, -⟩ | ⟨h, -⟩ <;> rw [h] <;> rfl
  have hshape : mcSampleShape (some type) batch paths = batch ++ [paths] := by unfold mcSampleShape; rw [hanti]; rfl
  have hprod : (batch ++ [paths]).prod * ([] : List Nat).prod = batch.prod * paths := by simp
  obtain ⟨x, z, hx, hs, ha, hz⟩ := C103_quasi src hsrc chol call (batch ++ [paths]) [] (steps * draws) hpos (some ⟨[steps * draws], fun _ => 0⟩) none none seed
    (skip.getD 0) (Or.inl rfl) (McDraws.fits_total (steps * draws)) type points (by rw [hprod]; exact ht)
  obtain ⟨e1, e2⟩ := McDraws.arrange_plain x (some type) hanti batch paths steps draws (by simpa using hs)
  refine ⟨_, McDraws.mc_ok (by rw [hshape]; exact hx), by rw [hshape]; exact e1, fun k b p d hk hb hp hd => ?_⟩
  have hlt : k * draws + d < steps * draws := by
    calc k * draws + d < k * draws + draws := by omega
      _ = (k + 1) * draws := by ring
      _ ≤ steps * draws := Nat.mul_le_mul_right _ hk
  have hv : Valid (batch ++ [paths]) (b ++ [p]) := NdArray.valid_append hb (List.Forall₂.cons hp List.Forall₂.nil)
  rw [hshape]
  refine (e2 k b p d hk hb hp hd).trans ?_
  have h3 := McDraws.affine_zero ha (b ++ [p]) hv (k * draws + d) hlt
  have h4 := hz (b ++ [p]) [] (k * draws + d) hv List.Forall₂.nil hlt
  have hposn : RandomOps.position (batch ++ [paths]) [] (b ++ [p]) [] = flatIndex batch b * paths + p := by
    change flatIndex (batch ++ [paths]) (b ++ [p]) = _
    rw [NdArray.flat_append hb]
    simp [flatIndex]
  rw [hposn] at h4
  rw [List.nil_append] at h4
  rw [← h4, ← h3]
  simp

/-- C113: antithetic paths: the second half of the paths has the negative draws of the first half, in every step and every batch. -/
theorem C113_antithetic (src : RandomSource) (hsrc : src.Valid) (chol : Model.NdArray ℝ → Model.NdArray ℝ) (call draws steps n : Nat) (batch : List Nat)
    (skip : Option Nat) (seed : Option Seed) (st : Bool) (hst : st = true → seed ≠ none) :
    ∃ r, mcNormalDraws src chol call draws steps (n + n) (some (if st then .statelessAntithetic else .pseudoAntithetic)) batch skip seed = .ok r ∧
      r.shape = steps :: batch ++ [n + n, draws] ∧
      ∀ k b p d, k < steps → List.Forall₂ (· < ·) b batch → p < n → d < draws →
        r.get (k :: b ++ [p, d]) = (if st then src.statelessNormal (seed.getD []) (n :: batch ++ [steps * draws]) else
          src.normal call seed (n :: batch ++ [steps * draws])).get (p :: b ++ [k * draws + d]) ∧
        r.get (k :: b ++ [n + p, d]) = -r.get (k :: b ++ [p, d]) := by
  have hanti : RandomType.isAntithetic (some (if st then RandomType.statelessAntithetic else .pseudoAntithetic)) = true := by cases st <;> rfl
  have hshape : mcSampleShape (some (if st then RandomType.statelessAntithetic else .pseudoAntithetic)) batch (n + n) = (n + n) :: batch := by
    unfold mcSampleShape; rw [hanti]; rfl
  have hfit := McDraws.fits_total (steps * draws)
  obtain ⟨half, x, hhalf, hx, hs, ha⟩ := C103_antithetic src hsrc chol call n batch [] (steps * draws) (some ⟨[steps * draws], fun _ => 0⟩) none none seed (Or.inl rfl)
    hfit st hst
  have hx' : multivariateNormal src chol call ((n + n) :: batch) (some ⟨[steps * draws], fun _ => 0⟩) none none
      (some (if st then .statelessAntithetic else .pseudoAntithetic)) seed (skip.getD 0) = .ok x := by
    rw [← hx]
    cases st <;> rfl
  obtain ⟨e1, e2⟩ := McDraws.arrange_antithetic x _ hanti batch (n + n) steps draws (by simpa using hs)
  refine ⟨_, McDraws.mc_ok (by rw [hshape]; exact hx'), by rw [hshape]; exact e1, fun k b p d hk hb hp hd => ?_⟩
  have hlt : k * draws + d < steps * draws := by
    calc k * draws + d < k * draws + draws := by omega
      _ = (k + 1) * draws := by ring
      _ ≤ steps * draws := Nat.mul_le_mul_right _ hk
  have hv : Valid (n :: batch) (p :: b) := List.Forall₂.cons hp hb
  rw [hshape, e2 k b p d hk hb (by omega) hd, e2 k b (n + p) d hk hb (by omega) hd]
  obtain ⟨a1, a2⟩ := ha p b [] (k * draws + d) hp hb List.Forall₂.nil hlt
  simp only [List.nil_append, RandomOps.meanValue] at a1 a2
  constructor
  · rw [a1]
    obtain ⟨h1, h2⟩ := C103_pseudo src hsrc chol call (n :: batch) [] (steps * draws) (some ⟨[steps * draws], fun _ => 0⟩) none none seed (Or.inl rfl) hfit
    cases st with
    | false =>
      obtain ⟨y, hy, -, hya⟩ := h1
      have hyh : y = half := by
        have : multivariateNormal src chol call (n :: batch) (some ⟨[steps * draws], fun _ => 0⟩) none none (some .pseudo) seed = .ok y := hy
        exact Except.ok.inj (this.symm.trans hhalf)
      have := McDraws.affine_zero hya (p :: b) hv (k * draws + d) hlt
      rw [← hyh]
      simpa using this
    | true =>
      cases seed with
      | none => exact absurd rfl (hst rfl)
      | some s =>
        obtain ⟨y, hy, -, hya⟩ := h2 s rfl
        have hyh : y = half := Except.ok.inj (hy.symm.trans hhalf)
        have := McDraws.affine_zero hya (p :: b) hv (k * draws + d) hlt
        rw [← hyh]
        simpa using this
  · linarith

/-- C113: an odd number of antithetic paths and stateless draws without a seed are refused. -/
theorem C113_rejects (src : RandomSource) (chol : Model.NdArray ℝ → Model.NdArray ℝ) (call draws steps paths : Nat) (batch : List Nat) (skip : Option Nat)
    (seed : Option Seed) (type : Option RandomType) :
    ((type = some .stateless ∨ type = some .statelessAntithetic) ∧ seed = none ∨
      (type = some .pseudoAntithetic ∨ type = some .statelessAntithetic) ∧ paths % 2 = 1) →
    ∃ e, mcNormalDraws src chol call draws steps paths type batch skip seed = .error e := by
  intro h
  obtain ⟨e, he⟩ := C103_rejects src chol call (mcSampleShape type batch paths) (some ⟨[steps * draws], fun _ => 0⟩) none none type seed (skip.getD 0) (by
    rcases h with h | ⟨h1, h2⟩
    · exact Or.inr (Or.inr (Or.inl h))
    · refine Or.inr (Or.inr (Or.inr ⟨h1, ?_⟩))
      rcases h1 with h1 | h1 <;> rw [h1] <;> exact h2)
  refine ⟨e, ?_⟩
  unfold mcNormalDraws
  dsimp only
  rw [he]
  rfl

/-- C113: the draws of the Milstein scheme are used once each: the increments and the three sets of auxiliary draws are all draws of the step, and different
ones have different numbers. -/
theorem C113_milstein {K : Type} (all : Model.NdArray K) (steps paths dim order : Nat) (hs : all.shape = [steps, paths, milsteinNumDraws dim order]) :
    ∃ number : Option (Nat × Nat × Nat) × Nat → Nat,
      (∀ step p i, step < steps → p < paths → i < dim → number (none, i) < milsteinNumDraws dim order ∧
        milsteinIncrement all step p i = all.get [step, p, number (none, i)]) ∧
      (∀ set step p i r, set < 3 → step < steps → p < paths → i < dim → r < order → number (some (set, i, r), 0) < milsteinNumDraws dim order ∧
        milsteinAux all dim order set step p i r = all.get [step, p, number (some (set, i, r), 0)]) ∧
      (∀ i set i' r', i < dim → number (none, i) ≠ number (some (set, i', r'), 0)) ∧
      (∀ i i', number (none, i) = number (none, i') → i = i') ∧
      (∀ set i r set' i' r', i < dim → r < order → i' < dim → r' < order → number (some (set, i, r), 0) = number (some (set', i', r'), 0) →
        set = set' ∧ i = i' ∧ r = r') := by
  have hstart : ∀ set, milsteinStart dim order set = dim + set * (dim * order) := by
    intro set
    induction set with
    | zero => simp [milsteinStart]
    | succ n ih => rw [milsteinStart, ih]; ring
  have hin : ∀ i r, i < dim → r < order → i * order + r < dim * order := by
    intro i r hi hr
    calc i * order + r < i * order + order := by omega
      _ = (i + 1) * order := by ring
      _ ≤ dim * order := Nat.mul_le_mul_right _ hi
  refine ⟨fun q => match q with
    | (none, i) => i
    | (some (set, i, r), _) => milsteinStart dim order set + (i * order + r), ?_, ?_, ?_, ?_, ?_⟩
  · intro step p i _ _ hi
    exact ⟨by unfold milsteinNumDraws; dsimp only; omega, rfl⟩
  · intro set step p i r hset _ hp hi hr
    have h1 := hin i r hi hr
    constructor
    · dsimp only
      rw [hstart]
      unfold milsteinNumDraws
      have : set * (dim * order) ≤ 2 * (dim * order) := Nat.mul_le_mul_right _ (by omega)
      have h3 : 3 * dim * order = 2 * (dim * order) + dim * order := by ring
      omega
    · unfold milsteinAux
      dsimp only
      have hpath : all.shape.getD 1 0 = paths := by rw [hs]; rfl
      rw [hpath, NdArray.reshape_get]
      have hflat : flatIndex [paths, dim, order] [p, i, r] = flatIndex [paths, dim * order] [p, i * order + r] := by simp [flatIndex]
      rw [hflat, NdArray.unflat_flat (List.Forall₂.cons hp (List.Forall₂.cons h1 List.Forall₂.nil))]
      rfl
  · intro i set i' r' hi
    dsimp only
    rw [hstart]
    omega
  · intro i i' h
    exact h
  · intro set i r set' i' r' hi hr hi' hr' h
    dsimp only at h
    rw [hstart, hstart] at h
    have h1 := hin i r hi hr
    have h2 := hin i' r' hi' hr'
    have h3 : set * (dim * order) + (i * order + r) = set' * (dim * order) + (i' * order + r') := by omega
    have hpos : 0 < dim * order := by omega
    have hset : set = set' := by
      have e1 : (set * (dim * order) + (i * order + r)) / (dim * order) = set := by
        rw [Nat.mul_comm, Nat.mul_add_div hpos, Nat.div_eq_of_lt h1, Nat.add_zero]
      have e2 : (set' * (dim * order) + (i' * order + r')) / (dim * order) = set' := by
        rw [Nat.mul_comm, Nat.mul_add_div hpos, Nat.div_eq_of_lt h2, Nat.add_zero]
      rw [← e1, ← e2, h3]
    subst hset
    have h4 : i * order + r = i' * order + r' := by omega
    have hpo : 0 < order := by omega
    have hi2 : i = i' := by
      have e1 : (i * order + r) / order = i := by rw [Nat.mul_comm, Nat.mul_add_div hpo, Nat.div_eq_of_lt hr, Nat.add_zero]
      have e2 : (i' * order + r') / order = i' := by rw [Nat.mul_comm, Nat.mul_add_div hpo, Nat.div_eq_of_lt hr', Nat.add_zero]
      rw [← e1, ← e2, h4]
    subst hi2
    exact ⟨rfl, rfl, by omega⟩

/-- C113: an update along an axis with more than one entry replaces the entries with the given index and no others; an index that does not exist replaces none. -/
theorem C113_update {K : Type} (tensor new : Model.NdArray K) (axis size : Nat) (ind : Int) (ha : tensor.shape[axis]? = some size) (hs : 1 < size)
    (hn : List.Forall₂ (fun x y => x = y ∨ x = 1) new.shape tensor.shape) :
    maybeUpdateAlongAxis tensor new axis ind false = .ok tensor ∧
    ∃ r, maybeUpdateAlongAxis tensor new axis ind true = .ok r ∧ r.shape = tensor.shape ∧
      ∀ idx, List.Forall₂ (· < ·) idx tensor.shape →
        r.get idx = if (idx.getD axis 0 : Int) = ind then new.get (List.zipWith (fun i d => if d = 1 then 0 else i) idx new.shape) else tensor.get idx := by
  constructor
  · unfold maybeUpdateAlongAxis
    rw [ha]
    simp [hs]
  · obtain ⟨d, hd, hdf⟩ := McDraws.broadcastShape_both (McDraws.mask_fits ha) hn
    have hbs : (broadcastShape (axisMask tensor.shape.length axis size ind).shape new.shape).bind (fun s => broadcastShape s tensor.shape) = some tensor.shape := by
      have hshape : (axisMask tensor.shape.length axis size ind).shape = List.replicate axis 1 ++ [size] ++ List.replicate (tensor.shape.length - axis - 1) 1 := rfl
      rw [hshape, hd, Option.bind_some, McDraws.broadcastShape_fits hdf]
    refine ⟨⟨tensor.shape, fun idx => if (axisMask tensor.shape.length axis size ind).get (broadcastIndex (axisMask tensor.shape.length axis size ind).shape idx)
      then new.get (broadcastIndex new.shape idx) else tensor.get (broadcastIndex tensor.shape idx)⟩, ?_, rfl, fun idx hv => ?_⟩
    · unfold maybeUpdateAlongAxis
      rw [ha]
      dsimp only
      rw [if_pos hs, if_pos rfl]
      unfold ndWhere
      rw [hbs]
    dsimp only
    rw [McDraws.mask_get ha hs hv ind, McDraws.broadcastIndex_valid hv]
    have hlen : idx.length - new.shape.length = 0 := by rw [NdArray.valid_length hv, hn.length_eq]; omega
    by_cases h : (idx.getD axis 0 : Int) = ind
    · rw [if_pos h, if_pos (by simpa using h)]
      unfold broadcastIndex
      rw [hlen, List.drop_zero]
    · rw [if_neg h, if_neg (by simpa using h)]

/-- C113: along an axis with a single entry the new tensor is returned, whether or not an update was asked for. -/
theorem C113_update_single {K : Type} (tensor new : Model.NdArray K) (axis : Nat) (ind : Int) (doUpdate : Bool) (ha : tensor.shape[axis]? = some 1) :
    maybeUpdateAlongAxis tensor new axis ind doUpdate = .ok new := by
  unfold maybeUpdateAlongAxis
  rw [ha]
  rfl

/-- C113 (deviation): the result is documented to have the shape of the tensor. Along an axis with a single entry a new tensor that has to be broadcast is
returned with its own shape. -/
theorem C113_update_shape_deviates : ∃ tensor new : Model.NdArray Nat, List.Forall₂ (fun x y => x = y ∨ x = 1) new.shape tensor.shape ∧
    ∃ r, maybeUpdateAlongAxis tensor new 1 0 true = .ok r ∧ r.shape ≠ tensor.shape :=
  ⟨⟨[3, 1], fun _ => 0⟩, ⟨[1, 1], fun _ => 1⟩, by simp, ⟨[1, 1], fun _ => 1⟩, rfl, by decide⟩

/-- The second column of a matrix is replaced. -/
example : ∃ r, maybeUpdateAlongAxis (⟨[2, 3], fun i => i.getD 0 0 * 3 + i.getD 1 0⟩ : Model.NdArray Nat) ⟨[2, 1], fun i => 10 + i.getD 0 0⟩ 1 1 true = .ok r ∧
    [[0, 0], [0, 1], [0, 2], [1, 0], [1, 1], [1, 2]].map r.get = [0, 10, 2, 3, 11, 5] := ⟨_, rfl, by decide +kernel⟩

/-- Two steps, a batch of two, three paths and one draw, from a generator that returns the position of the number. -/
example : ((((⟨[2, 3, 2], fun i => flatIndex [2, 3, 2] i⟩ : Model.NdArray Nat).reshape [2, 3, 2, 1]).transpose (mcPermutation none 4)).get [1, 0, 2, 0]) = 5 := by
  decide +kernel

end Props
