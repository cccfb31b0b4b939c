/-!
# Specification: the proleptic Gregorian calendar

Independent of the library's code: leap rule, month lengths, valid dates and the
"next day" function.  Years may be any integer (astronomical numbering).
-/

namespace Spec

/-- A calendar date. -/
structure YMD where
  year : Int
  month : Int
  day : Int
deriving DecidableEq, Repr

/-- The Gregorian leap year rule. -/
def Leap (y : Int) : Prop := 4 ∣ y ∧ (¬ 100 ∣ y ∨ 400 ∣ y)

instance (y : Int) : Decidable (Leap y) := by unfold Leap; infer_instance

/-- Number of days of a month: thirty days hath September, April, June and November,
February has 28 or 29, all the rest have 31. -/
def monthLength (y m : Int) : Int :=
  if m = 2 then (if Leap y then 29 else 28)
  else if m = 4 ∨ m = 6 ∨ m = 9 ∨ m = 11 then 30 else 31

/-- A valid Gregorian date. -/
def YMD.Valid (d : YMD) : Prop :=
  1 ≤ d.month ∧ d.month ≤ 12 ∧ 1 ≤ d.day ∧ d.day ≤ monthLength d.year d.month

instance (d : YMD) : Decidable d.Valid := by unfold YMD.Valid; infer_instance

/-- The calendar successor of a date. -/
def YMD.next (d : YMD) : YMD :=
  if d.day < monthLength d.year d.month then ⟨d.year, d.month, d.day + 1⟩
  else if d.month < 12 then ⟨d.year, d.month + 1, 1⟩
  else ⟨d.year + 1, 1, 1⟩

/-- Chronological (lexicographic) strict order. -/
def YMD.Before (a b : YMD) : Prop :=
  a.year < b.year ∨ (a.year = b.year ∧ (a.month < b.month ∨ (a.month = b.month ∧ a.day < b.day)))

/-- Number of days in a year. -/
def yearLength (y : Int) : Int := if Leap y then 366 else 365

end Spec

namespace Spec

/-- Days in the months of year `y` preceding month `m`. -/
def daysBeforeMonth (y m : Int) : Int :=
  ((List.range (m - 1).toNat).map (fun k => monthLength y (Int.ofNat k + 1))).sum

/-- Days from 0001-01-01 (inclusive) to 1 January of year `y` (exclusive); negative for `y < 1`. -/
def daysBeforeYear (y : Int) : Int :=
  365 * (y - 1) + ((y - 1) / 4 - (y - 1) / 100 + (y - 1) / 400)

/-- The ordinal (day number) of a date: 0001-01-01 has number 1. -/
def YMD.number (d : YMD) : Int := daysBeforeYear d.year + daysBeforeMonth d.year d.month + d.day

/-- `n` steps of "next day". -/
def YMD.nextN : Nat → YMD → YMD
  | 0, d => d
  | n + 1, d => (nextN n d).next

end Spec

namespace Spec

/-- How many of the `n` days `d, d+1, ..., d+n-1` satisfy `P`. -/
def YMD.countDays (P : YMD → Bool) (d : YMD) (n : Nat) : Nat :=
  ((List.range n).filter (fun k => P (d.nextN k))).length

end Spec
