import Verif.Model.NdArray
import Mathlib.Data.List.Forall2
import Mathlib.Data.List.Range
import Mathlib.Tactic.Ring
import Mathlib.Data.List.Nodup

/-! Indices of tensors. -/

namespace NdArray
open Model

/-- `idx` is an index into the shape. -/
abbrev Valid (shape idx : List Nat) : Prop := List.Forall₂ (· < ·) idx shape

theorem flat_lt : ∀ {shape idx : List Nat}, Valid shape idx → flatIndex shape idx < shape.prod
  | _, _, .nil => by simp [flatIndex]
  | d :: ds, i :: is, .cons h1 h2 => by
    have := flat_lt h2
    simp only [flatIndex, List.prod_cons]
    calc i * ds.prod + flatIndex ds is < i * ds.prod + ds.prod := by omega
      _ = (i + 1) * ds.prod := by ring
      _ ≤ d * ds.prod := Nat.mul_le_mul_right _ h1

theorem unflat_flat : ∀ {shape idx : List Nat}, Valid shape idx → unflatIndex shape (flatIndex shape idx) = idx
  | _, _, .nil => rfl
  | d :: ds, i :: is, .cons h1 h2 => by
    have hlt := flat_lt h2
    have hpos : 0 < ds.prod := by omega
    simp only [flatIndex, unflatIndex]
    rw [Nat.add_comm, Nat.add_mul_div_right _ _ hpos, Nat.div_eq_of_lt hlt, Nat.zero_add, Nat.add_mul_mod_self_right, Nat.mod_eq_of_lt hlt, unflat_flat h2]

theorem unflat_valid : ∀ {shape : List Nat} {k : Nat}, k < shape.prod → Valid shape (unflatIndex shape k) ∧ flatIndex shape (unflatIndex shape k) = k
  | [], k, h => by
    simp at h
    exact ⟨.nil, by simp [flatIndex, h]⟩
  | d :: ds, k, h => by
    rw [List.prod_cons] at h
    have hpos : 0 < ds.prod := by
      rcases Nat.eq_zero_or_pos ds.prod with h0 | h0
      · rw [h0] at h; omega
      · exact h0
    have hm : k % ds.prod < ds.prod := Nat.mod_lt _ hpos
    obtain ⟨h1, h2⟩ := unflat_valid hm
    refine ⟨.cons ?_ h1, ?_⟩
    · exact Nat.div_lt_of_lt_mul (by rwa [Nat.mul_comm])
    · simp only [unflatIndex, flatIndex]
      rw [h2]
      exact Nat.div_add_mod' k ds.prod

theorem flat_inj {shape i j : List Nat} (hi : Valid shape i) (hj : Valid shape j) (h : flatIndex shape i = flatIndex shape j) : i = j := by
  rw [← unflat_flat hi, ← unflat_flat hj, h]

theorem valid_append {s1 s2 i1 i2 : List Nat} (h1 : Valid s1 i1) (h2 : Valid s2 i2) : Valid (s1 ++ s2) (i1 ++ i2) := List.rel_append h1 h2

theorem valid_length {s i : List Nat} (h : Valid s i) : i.length = s.length := h.length_eq

theorem zip_valid : ∀ {shape idx : List Nat}, Valid shape idx → List.zipWith (fun i d => if d = 1 then 0 else i) idx shape = idx
  | _, _, .nil => rfl
  | d :: ds, i :: is, .cons h1 h2 => by
    rw [List.zipWith_cons_cons, zip_valid h2]
    congr 1
    split_ifs with h
    · omega
    · rfl

theorem broadcastIndex_suffix {s b shape : List Nat} (h : Valid shape b) : broadcastIndex shape (s ++ b) = b := by
  unfold broadcastIndex
  rw [List.length_append, valid_length h, Nat.add_sub_cancel, List.drop_left, zip_valid h]

theorem broadcastIndex_self {b shape : List Nat} (h : Valid shape b) : broadcastIndex shape b = b := broadcastIndex_suffix (s := []) h

theorem broadcastIndex_nil (idx : List Nat) : broadcastIndex [] idx = [] := by
  unfold broadcastIndex
  simp

theorem broadcastRev_left : ∀ a c : List Nat, broadcastRev a (a ++ c) = some (a ++ c)
  | [], c => by simp [broadcastRev]
  | a :: as, c => by
    rw [List.cons_append, broadcastRev, broadcastRev_left as c]
    simp

theorem broadcastRev_right : ∀ a c : List Nat, broadcastRev (a ++ c) a = some (a ++ c)
  | [], [] => rfl
  | [], c :: cs => rfl
  | a :: as, c => by
    rw [List.cons_append, broadcastRev, broadcastRev_right as c]
    simp

theorem broadcastShape_suffix (s b : List Nat) : broadcastShape b (s ++ b) = some (s ++ b) ∧ broadcastShape (s ++ b) b = some (s ++ b) := by
  unfold broadcastShape
  rw [List.reverse_append, broadcastRev_left, broadcastRev_right]
  simp

theorem broadcastShape_nil (b : List Nat) : broadcastShape [] b = some b := by
  have := (broadcastShape_suffix b []).1
  rwa [List.append_nil] at this

variable {K : Type}

/-- Entries after a reshape. -/
theorem reshape_get (t : Model.NdArray K) (shape idx : List Nat) : (t.reshape shape).get idx = t.get (unflatIndex t.shape (flatIndex shape idx)) := rfl

theorem unflat_two (a b k : Nat) : unflatIndex [a, b] k = [k / b, k % b] := by
  simp [unflatIndex]

theorem flat_cons (d i : Nat) (ds is : List Nat) : flatIndex (d :: ds) (i :: is) = i * ds.prod + flatIndex ds is := rfl

theorem flat_append : ∀ {s1 i1 : List Nat} (_ : Valid s1 i1) (s2 i2 : List Nat), flatIndex (s1 ++ s2) (i1 ++ i2) = flatIndex s1 i1 * s2.prod + flatIndex s2 i2
  | _, _, .nil, s2, i2 => by simp [flatIndex]
  | d :: ds, i :: is, .cons _ h2, s2, i2 => by
    rw [List.cons_append, List.cons_append, flat_cons, flat_cons, flat_append h2, List.prod_append]
    ring

theorem concat0_first {a b : Model.NdArray K} {n i : Nat} (h : a.shape.headD 0 = n) (hi : i < n) (t : List Nat) : (a.concat0 b).get (i :: t) = a.get (i :: t) := by
  have : (i :: t).headD 0 < a.shape.headD 0 := by rw [h]; exact hi
  exact if_pos this

theorem concat0_second {a b : Model.NdArray K} {n : Nat} (h : a.shape.headD 0 = n) (i : Nat) (t : List Nat) : (a.concat0 b).get ((n + i) :: t) = b.get (i :: t) := by
  have h1 : ¬((n + i) :: t).headD 0 < a.shape.headD 0 := by rw [h]; simp
  have h2 : ((n + i) :: t).headD 0 - a.shape.headD 0 = i := by rw [h]; simp
  refine (if_neg h1).trans ?_
  rw [h2]
  rfl

theorem broadcastRev_ones : ∀ (y x : List Nat), broadcastRev (List.replicate y.length 1 ++ x) y = some (y ++ x)
  | [], x => by cases x <;> rfl
  | b :: bs, x => by
    rw [List.length_cons, List.replicate_succ, List.cons_append, broadcastRev, broadcastRev_ones bs x]
    by_cases hb : b = 1
    · simp [hb]
    · simp [hb, Ne.symm hb]

theorem broadcastShape_ones (x y : List Nat) : broadcastShape (x ++ List.replicate y.length 1) y = some (x ++ y) := by
  unfold broadcastShape
  rw [List.reverse_append, List.reverse_replicate, ← List.length_reverse (as := y), broadcastRev_ones]
  simp

theorem zip_ones : ∀ (b : List Nat), List.zipWith (fun i d => if d = 1 then 0 else i) b (List.replicate b.length 1) = List.replicate b.length 0
  | [] => rfl
  | b :: bs => by
    rw [List.length_cons, List.replicate_succ, List.replicate_succ, List.zipWith_cons_cons, zip_ones bs]
    simp

theorem flat_zeros : ∀ (n : Nat) (s : List Nat), flatIndex s (List.replicate n 0) = 0
  | 0, [] => rfl
  | 0, _ :: _ => rfl
  | n + 1, [] => rfl
  | n + 1, d :: ds => by rw [List.replicate_succ, flat_cons, flat_zeros n ds]; simp

/-- Shapes that are the same. -/
theorem map2_same (f : K → K → K) {a b : Model.NdArray K} (h : a.shape = b.shape) :
    ∃ r, Model.NdArray.map2 f a b = .ok r ∧ r.shape = a.shape ∧ ∀ idx, Valid a.shape idx → r.get idx = f (a.get idx) (b.get idx) := by
  have e := (broadcastShape_suffix [] a.shape).1
  rw [List.nil_append] at e
  refine ⟨⟨a.shape, fun idx => f (a.get (broadcastIndex a.shape idx)) (b.get (broadcastIndex a.shape idx))⟩, by simp only [Model.NdArray.map2, ← h, e], rfl, fun idx hi => ?_⟩
  dsimp only
  rw [broadcastIndex_self hi]

/-- The second shape is a suffix of the first. -/
theorem map2_suffix (f : K → K → K) {a b : Model.NdArray K} {s t : List Nat} (ha : a.shape = s ++ t) (hb : b.shape = t) :
    ∃ r, Model.NdArray.map2 f a b = .ok r ∧ r.shape = a.shape ∧ ∀ i j, Valid s i → Valid t j → r.get (i ++ j) = f (a.get (i ++ j)) (b.get j) := by
  have e := (broadcastShape_suffix s t).2
  refine ⟨_, by simp only [Model.NdArray.map2, ha, hb, e]; rfl, ha.symm, fun i j hi hj => ?_⟩
  dsimp only
  rw [broadcastIndex_self (valid_append hi hj), broadcastIndex_suffix hj]

/-- The first operand is a scalar. -/
theorem map2_scalar_left (f : K → K → K) {a b : Model.NdArray K} (ha : a.shape = []) :
    ∃ r, Model.NdArray.map2 f a b = .ok r ∧ r.shape = b.shape ∧ ∀ idx, Valid b.shape idx → r.get idx = f (a.get []) (b.get idx) := by
  refine ⟨⟨b.shape, fun idx => f (a.get (broadcastIndex [] idx)) (b.get (broadcastIndex b.shape idx))⟩, by simp only [Model.NdArray.map2, ha, broadcastShape_nil], rfl, fun idx hi => ?_⟩
  dsimp only
  rw [broadcastIndex_self hi, broadcastIndex_nil]

end NdArray
