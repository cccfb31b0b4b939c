import Verif.Model.HwBermudan
import Verif.Lemmas.NdArray
import Verif.Props.HjmOptions
import Mathlib.Data.List.Dedup
import Mathlib.Data.List.Lattice

/-! Flat lists of indices and sparse tensors. -/

namespace HwBermudan
open Model
open NdArray (Valid)

variable {A : Type}

theorem flatValues_get (shape : List Nat) (f : List Nat → A) {idx : List Nat} (h : Valid shape idx) :
    (flatValues shape f)[flatIndex shape idx]? = some (f idx) := by
  unfold flatValues
  rw [List.getElem?_map, List.getElem?_range (NdArray.flat_lt h), Option.map_some, NdArray.unflat_flat h]

theorem flatValues_length (shape : List Nat) (f : List Nat → A) : (flatValues shape f).length = shape.prod := by
  simp [flatValues]

theorem mem_flatValues (shape : List Nat) (f : List Nat → A) (x : A) : x ∈ flatValues shape f ↔ ∃ idx, Valid shape idx ∧ f idx = x := by
  unfold flatValues
  rw [List.mem_map]
  constructor
  · rintro ⟨k, hk, rfl⟩
    exact ⟨_, (NdArray.unflat_valid (List.mem_range.1 hk)).1, rfl⟩
  · rintro ⟨idx, h, rfl⟩
    exact ⟨flatIndex shape idx, List.mem_range.2 (NdArray.flat_lt h), by rw [NdArray.unflat_flat h]⟩

theorem unflat_getD : ∀ (shape : List Nat) (k d : Nat), k < shape.prod → d < shape.length →
    (unflatIndex shape k).getD d 0 = (k / (shape.drop (d + 1)).prod) % shape.getD d 0
  | [], _, d, _, hd => by simp at hd
  | n :: ds, k, 0, hk, _ => by
    rw [List.prod_cons] at hk
    have : k / ds.prod < n := Nat.div_lt_of_lt_mul (by rwa [Nat.mul_comm])
    simp [unflatIndex, Nat.mod_eq_of_lt this]
  | n :: ds, k, d + 1, hk, hd => by
    rw [List.prod_cons] at hk
    have hpos : 0 < ds.prod := by
      rcases Nat.eq_zero_or_pos ds.prod with h0 | h0
      · rw [h0] at hk; omega
      · exact h0
    have hd' : d < ds.length := by simpa using hd
    have ih := unflat_getD ds (k % ds.prod) d (Nat.mod_lt _ hpos) hd'
    simp only [unflatIndex, List.getD_cons_succ, List.drop_succ_cons]
    rw [ih]
    have e : ds.prod = (ds.drop (d + 1)).prod * (ds.getD d 0 * (ds.take d).prod) := by
      conv_lhs => rw [← List.take_append_drop d ds, List.prod_append, List.drop_eq_getElem_cons hd', List.prod_cons]
      rw [List.getD_eq_getElem?_getD, List.getElem?_eq_getElem hd']
      simp only [Option.getD_some]
      ring
    rw [e, Nat.mod_mul_right_div_self, Nat.mod_mul_right_mod]

theorem column_get (n P Q k : Nat) (hk : k < Q * (n * P)) : (tileList (repeatList (List.range n) P) Q)[k]? = some (k / P % n) := by
  have hnP : 0 < n * P := by
    rcases Nat.eq_zero_or_pos (n * P) with h | h
    · rw [h] at hk; omega
    · exact h
  have hP : 0 < P := Nat.pos_of_mul_pos_left hnP
  have hlen : (repeatList (List.range n) P).length = n * P := by simp [repeatList, List.length_flatMap, Nat.mul_comm]
  have h1 := Lemmas.tile_getElem? (repeatList (List.range n) P) Q (k / (n * P)) (k % (n * P)) (Nat.div_lt_of_lt_mul (by rwa [Nat.mul_comm]))
    (by rw [hlen]; exact Nat.mod_lt _ hnP)
  rw [hlen, Nat.div_add_mod'] at h1
  unfold tileList
  rw [h1]
  have h2 := Lemmas.repeatEach_getElem? (List.range n) P (k % (n * P) / P) (k % (n * P) % P) (Nat.mod_lt _ hP)
  rw [Nat.div_add_mod'] at h2
  unfold repeatList
  rw [h2]
  have e : k % (n * P) / P = k / P % n := by rw [Nat.mul_comm n P, Nat.mod_mul_right_div_self]
  have hn : 0 < n := Nat.pos_of_mul_pos_right hnP
  rw [e, List.getElem?_range (Nat.mod_lt _ hn)]

/-- The sparse index at a place: the index of the place with its last entry replaced. -/
theorem sparse_index (shape last : List Nat) (hs : shape ≠ []) {idx : List Nat} (h : Valid shape idx) :
    (stackLists shape.prod (sparseIndexLists shape last))[flatIndex shape idx]? = some (idx.dropLast ++ [last.getD (flatIndex shape idx) 0]) := by
  have hk := NdArray.flat_lt h
  unfold stackLists sparseIndexLists
  rw [List.getElem?_map, List.getElem?_range hk, Option.map_some, List.map_append, List.map_map]
  refine congrArg some ?_
  refine congrArg₂ (fun (x y : List Nat) => x ++ y) ?_ rfl
  have hl : idx.length = shape.length := NdArray.valid_length h
  apply List.ext_getElem?
  intro d
  by_cases hd : d < shape.length - 1
  · rw [List.getElem?_map, List.getElem?_range hd, Option.map_some, List.getElem?_dropLast, if_pos (by omega), List.getElem?_eq_getElem (by omega)]
    refine congrArg some ?_
    have e : shape.prod = (shape.take d).prod * (shape.getD d 0 * (shape.drop (d + 1)).prod) := by
      conv_lhs => rw [← List.take_append_drop d shape, List.prod_append, List.drop_eq_getElem_cons (by omega), List.prod_cons]
      rw [List.getD_eq_getElem?_getD, List.getElem?_eq_getElem (show d < shape.length by omega)]
      simp only [Option.getD_some]
    have hc := column_get (shape.getD d 0) (shape.drop (d + 1)).prod (shape.take d).prod (flatIndex shape idx) (by rw [← e]; exact hk)
    simp only [Function.comp]
    rw [List.getD_eq_getElem?_getD, hc, Option.getD_some, ← unflat_getD shape _ d hk (by omega), NdArray.unflat_flat h, List.getD_eq_getElem?_getD,
      List.getElem?_eq_getElem (by omega)]
    rfl
  · rw [List.getElem?_eq_none (by simp; omega), List.getElem?_eq_none (by simp; omega)]

variable {K : Type} [Zero K]

theorem sparse_hit (indices : List (List Nat)) (values : List K) (shape idx : List Nat) (k : Nat) (v : K) (hi : indices[k]? = some idx)
    (hv : values[k]? = some v) (hu : ∀ k', indices[k']? = some idx → k' = k) : (sparseToDense indices values shape).get idx = v := by
  unfold sparseToDense
  dsimp only
  cases hf : (indices.zip values).reverse.find? (fun (p : List Nat × K) => decide (p.1 = idx)) with
  | none =>
    exfalso
    have hm : (idx, v) ∈ (indices.zip values).reverse := by
      rw [List.mem_reverse]
      refine List.mem_of_getElem? (i := k) ?_
      rw [List.getElem?_zip_eq_some]
      exact ⟨hi, hv⟩
    have := List.find?_eq_none.1 hf _ hm
    simp at this
  | some p =>
    have h1 := List.find?_some hf
    have h2 := List.mem_of_find?_eq_some hf
    rw [List.mem_reverse] at h2
    obtain ⟨k', hk'⟩ := List.mem_iff_getElem?.1 h2
    rw [List.getElem?_zip_eq_some] at hk'
    simp only [decide_eq_true_eq] at h1
    rw [h1] at hk'
    have := hu k' hk'.1
    rw [this, hv] at hk'
    simp only [Option.map_some, Option.getD_some]
    exact (Option.some.inj hk'.2).symm

theorem sparse_miss (indices : List (List Nat)) (values : List K) (shape idx : List Nat) (h : idx ∉ indices) :
    (sparseToDense indices values shape).get idx = 0 := by
  unfold sparseToDense
  dsimp only
  cases hf : (indices.zip values).reverse.find? (fun (p : List Nat × K) => decide (p.1 = idx)) with
  | none => rfl
  | some p =>
    exfalso
    have h1 := List.find?_some hf
    have h2 := List.mem_of_find?_eq_some hf
    rw [List.mem_reverse] at h2
    simp only [decide_eq_true_eq] at h1
    exact h (h1 ▸ (List.of_mem_zip (a := p.1) (b := p.2) h2).1)

theorem valid_cons {s n : Nat} {idx shape : List Nat} (hs : s < n) (h : Valid shape idx) : Valid (n :: shape) (s :: idx) := .cons hs h

theorem valid_snoc {e n : Nat} {idx shape : List Nat} (he : e < n) (h : Valid shape idx) : Valid (shape ++ [n]) (idx ++ [e]) :=
  NdArray.valid_append h (.cons he .nil)

theorem valid_snoc_inv {n : Nat} {idx shape : List Nat} (h : Valid (shape ++ [n]) idx) : ∃ b e, idx = b ++ [e] ∧ Valid shape b ∧ e < n := by
  have h1 := List.forall₂_take_append idx shape [n] h
  have h2 := List.forall₂_drop_append idx shape [n] h
  have e := (List.take_append_drop shape.length idx).symm
  generalize List.take shape.length idx = b at *
  generalize List.drop shape.length idx = c at *
  cases h2 with
  | cons h3 h4 =>
    cases h4
    exact ⟨b, _, e, h1, h3⟩

end HwBermudan
