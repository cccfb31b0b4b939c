import Mathlib.Algebra.BigOperators.Group.List.Basic
import Mathlib.Algebra.BigOperators.Group.Finset.Basic
import Mathlib.Algebra.Field.Defs

/-!
# Tensors

A tensor is its shape with the entries by lists of indices. The operations are those of TensorFlow, as documented.
-/

namespace Model
open scoped BigOperators

structure NdArray (K : Type) where
  shape : List Nat
  get : List Nat → K

/-- The position of an index in row-major order. -/
def flatIndex : List Nat → List Nat → Nat
  | _ :: ds, i :: is => i * ds.prod + flatIndex ds is
  | _, _ => 0

/-- The index at a position in row-major order. -/
def unflatIndex : List Nat → Nat → List Nat
  | [], _ => []
  | _ :: ds, k => k / ds.prod :: unflatIndex ds (k % ds.prod)

/-- Shapes from the last dimension backwards, broadcast to a common one. -/
def broadcastRev : List Nat → List Nat → Option (List Nat)
  | [], b => some b
  | a :: as, [] => some (a :: as)
  | a :: as, b :: bs =>
    match broadcastRev as bs with
    | none => none
    | some r => if a = b ∨ b = 1 then some (a :: r) else if a = 1 then some (b :: r) else none

def broadcastShape (a b : List Nat) : Option (List Nat) := (broadcastRev a.reverse b.reverse).map List.reverse

/-- The index into a tensor of shape `shape` for the index `idx` into the broadcast tensor. -/
def broadcastIndex (shape idx : List Nat) : List Nat :=
  List.zipWith (fun i d => if d = 1 then 0 else i) (idx.drop (idx.length - shape.length)) shape

namespace NdArray
variable {K : Type}

/-- `tf.reshape`. -/
def reshape (t : NdArray K) (shape : List Nat) : NdArray K := ⟨shape, fun idx => t.get (unflatIndex t.shape (flatIndex shape idx))⟩

/-- `tf.transpose`. -/
def transpose (t : NdArray K) (perm : List Nat) : NdArray K :=
  ⟨perm.map (fun a => t.shape.getD a 0), fun idx => t.get ((List.range t.shape.length).map fun a => idx.getD (perm.idxOf a) 0)⟩

def map {L : Type} (f : K → L) (t : NdArray K) : NdArray L := ⟨t.shape, fun idx => f (t.get idx)⟩

/-- A binary operation with broadcasting. -/
def map2 (f : K → K → K) (a b : NdArray K) : Except String (NdArray K) :=
  match broadcastShape a.shape b.shape with
  | some s => .ok ⟨s, fun idx => f (a.get (broadcastIndex a.shape idx)) (b.get (broadcastIndex b.shape idx))⟩
  | none => .error "Incompatible shapes"

/-- `tf.linalg.matvec`. -/
def matvec [AddCommMonoid K] [Mul K] (a x : NdArray K) : Except String (NdArray K) :=
  let cols := a.shape.getLastD 0
  let rows := a.shape.dropLast.getLastD 0
  let ab := a.shape.dropLast.dropLast
  let xb := x.shape.dropLast
  if cols ≠ x.shape.getLastD 0 then .error "Matrix size-incompatible"
  else match broadcastShape ab xb with
    | some s => .ok ⟨s ++ [rows], fun idx =>
        ∑ j ∈ Finset.range cols, a.get (broadcastIndex ab idx.dropLast ++ [idx.getLastD 0, j]) * x.get (broadcastIndex xb idx.dropLast ++ [j])⟩
    | none => .error "Incompatible shapes"

/-- `tf.concat` of two tensors along the first dimension. -/
def concat0 (a b : NdArray K) : NdArray K :=
  ⟨(a.shape.headD 0 + b.shape.headD 0) :: a.shape.tail,
    fun idx => if idx.headD 0 < a.shape.headD 0 then a.get idx else b.get ((idx.headD 0 - a.shape.headD 0) :: idx.tail)⟩

end NdArray

end Model
