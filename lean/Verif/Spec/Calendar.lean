import Verif.Spec.Gregorian

/-!
# Specification: business days

`B` is a set of days (ordinals) regarded as business days.
-/

namespace Spec

/-- Weekday of an ordinal, Monday = 0 (ordinal 1, 0001-01-01, is a Monday; see C02). -/
def weekday (o : Int) : Nat := ((o - 1) % 7).toNat

/-- A day is a business day when its weekday is not masked as a weekend day (`mask` lists Monday to
Sunday, 0 = working day, 1 = weekend) and it is not one of the holidays. -/
def IsBusinessDay (mask : List Nat) (holidays : List Int) (o : Int) : Prop :=
  mask[weekday o]? = some 0 ∧ o ∉ holidays

instance (mask : List Nat) (holidays : List Int) (o : Int) :
    Decidable (IsBusinessDay mask holidays o) := by unfold IsBusinessDay; infer_instance

/-- `r` is the first day of `B` on or after `d`. -/
def FirstOnOrAfter (B : Int → Prop) (d r : Int) : Prop := d ≤ r ∧ B r ∧ ∀ x, d ≤ x → x < r → ¬ B x

/-- `r` is the last day of `B` on or before `d`. -/
def LastOnOrBefore (B : Int → Prop) (d r : Int) : Prop := r ≤ d ∧ B r ∧ ∀ x, r < x → x ≤ d → ¬ B x

/-- Number of days of `B` in `[a, b)` (0 when `b ≤ a`). -/
def countIn (B : Int → Prop) [DecidablePred B] (a b : Int) : Nat :=
  ((List.range (b - a).toNat).filter (fun k => decide (B (a + Int.ofNat k)))).length

/-- Two days (given by number) lie in the same calendar month of the same year. -/
def SameMonth (a b : Int) : Prop :=
  ∃ d e : YMD, d.Valid ∧ e.Valid ∧ d.number = a ∧ e.number = b ∧ d.year = e.year ∧ d.month = e.month

/-- Modified following: the first day of `B` on or after `d` if that lies in the month of `d`,
otherwise the last day of `B` on or before `d`. -/
def ModifiedFollowing (B : Int → Prop) (d r : Int) : Prop :=
  (FirstOnOrAfter B d r ∧ SameMonth r d) ∨
  ((∀ x, FirstOnOrAfter B d x → ¬ SameMonth x d) ∧ LastOnOrBefore B d r)

/-- Modified preceding: the last day of `B` on or before `d` if that lies in the month of `d`,
otherwise the first day of `B` on or after `d`. -/
def ModifiedPreceding (B : Int → Prop) (d r : Int) : Prop :=
  (LastOnOrBefore B d r ∧ SameMonth r d) ∨
  ((∀ x, LastOnOrBefore B d x → ¬ SameMonth x d) ∧ FirstOnOrAfter B d r)

/-- `r` is `n` business days after `d` (before, for negative `n`): `r` is a day of `B` and there
are exactly `|n|` days of `B` in `[d, r)` (in `[r, d)`). -/
def BusinessDaysAfter (B : Int → Prop) [DecidablePred B] (d n r : Int) : Prop :=
  B r ∧ (0 ≤ n → d ≤ r ∧ (countIn B d r : Int) = n) ∧ (n ≤ 0 → r ≤ d ∧ (countIn B r d : Int) = -n)

end Spec

namespace Spec

/-- The days of `B` from `a` to `b`, both included, in increasing order. -/
def daysFromTo (B : Int → Prop) [DecidablePred B] (a b : Int) : List Int :=
  ((List.range (b - a + 1).toNat).map (fun (k : Nat) => a + (k : Int))).filter (fun x => decide (B x))

/-- `l` filled up to length `len` with copies of its last element. -/
def padAfter (l : List Int) (len : Nat) : List Int :=
  l ++ List.replicate (len - l.length) (l.getLastD 0)

/-- `l` filled up to length `len` with copies of its first element in front. -/
def padBefore (l : List Int) (len : Nat) : List Int :=
  List.replicate (len - l.length) (l.headD 0) ++ l

end Spec
