import Verif.Model.TensorWrapper
import Verif.Lemmas.NdArray

/-! Operations that move the elements of tensors. -/

namespace Spec
open Model
open NdArray (Valid)

/-- The operation only moves elements: for arguments of given shapes it fails, or each element of the result is the element of a given argument at a given index. -/
def MovesElements (op : List (Model.NdArray Int) → Except String (Model.NdArray Int)) : Prop :=
  ∀ shapes : List (List Nat),
    (∃ e, ∀ ts, ts.map Model.NdArray.shape = shapes → op ts = .error e) ∨
    ∃ (s : List Nat) (source : List Nat → Nat × List Nat), ∀ ts, ts.map Model.NdArray.shape = shapes → ∃ out, op ts = .ok out ∧ out.shape = s ∧
      ∀ idx, Valid s idx → ∃ t, ts[(source idx).1]? = some t ∧ Valid t.shape (source idx).2 ∧ out.get idx = t.get (source idx).2

/-- An operation on one tensor as one on lists. -/
def onOne (op : Model.NdArray Int → Except String (Model.NdArray Int)) : List (Model.NdArray Int) → Except String (Model.NdArray Int)
  | [t] => op t
  | _ => .error "one tensor is expected"

/-- The date at an index. -/
def dateAt (t : DateTensorNd) (idx : List Nat) : DateT := ⟨t.ordinals.get idx, t.years.get idx, t.months.get idx, t.days.get idx⟩

/-- The four tensors have the shape. -/
def DatesOfShape (t : DateTensorNd) (s : List Nat) : Prop := t.ordinals.shape = s ∧ t.years.shape = s ∧ t.months.shape = s ∧ t.days.shape = s

end Spec
