import Verif.Model.DateTensor
import Verif.Model.BoundedCalendar
import Verif.Model.UnboundedCalendar
import Mathlib.Algebra.Order.Floor.Ring
import Mathlib.Algebra.Field.Defs

/-!
# Model of the conversions to dates in `tf_quant_finance/datetime/date_tensor.py` and of `subtract_period_and_roll`

Python values are told apart by what the code asks about them.  A `DateTensor` is its shape with the list of its elements.
-/

namespace Model

/-- A `DateTensor`: shape and elements in row-major order. -/
abbrev DateArray := List Nat × List DateT

/-- An object with the attributes `year`, `month` and `day`. -/
structure PyDate where
  year : Int
  month : Int
  day : Int
deriving DecidableEq, Repr

/-- An element of a sequence: an object with a year, a sequence of numbers, or a tensor (numbers are tensors of rank zero). -/
inductive DateItem
  | date (d : PyDate)
  | sequence (l : List Int)
  | tensor (shape : List Nat) (values : List Int)
deriving DecidableEq, Repr

/-- What is passed to `convert_to_date_tensor`. `npArray` has the days since 1970-01-01 after `astype("datetime64[D]")`; `other` is any
object without a year that is no array, tensor or sequence and that `tf.convert_to_tensor` refuses. -/
inductive DateInput
  | dateTensor (t : DateArray)
  | date (d : PyDate)
  | npArray (shape : List Nat) (days : List Int)
  | tensor (shape : List Nat) (values : List Int)
  | sequence (l : List DateItem)
  | other
deriving DecidableEq, Repr

/-- `date_tensor.py` L628-662 on a tensor. -/
def ordinalsArray (shape : List Nat) (values : List Int) (validate : Bool) : Except String DateArray := do
  let l ← values.mapM (fun o => fromOrdinals o validate)
  return (shape, l)

/-- `date_tensor.py` L566-625 on three vectors of the same length. -/
def yearMonthDayArray (shape : List Nat) (years months days : List Int) (validate : Bool) : Except String DateArray := do
  let l ← (years.zip (months.zip days)).mapM (fun t => fromYearMonthDay t.1 t.2.1 t.2.2 validate)
  return (shape, l)

/-- The attributes of an element in L497-499. -/
def DateItem.attributes : DateItem → Except String PyDate
  | .date d => .ok d
  | _ => .error "AttributeError"

/-- L494-496: a single date. -/
def fromDatetime (d : PyDate) : Except String DateArray :=
  yearMonthDayArray [] [d.year] [d.month] [d.day] false

/-- L497-504: a sequence of dates. -/
def fromDatetimes (l : List DateItem) : Except String DateArray := do
  let ds ← l.mapM DateItem.attributes
  yearMonthDayArray [l.length] (ds.map (·.year)) (ds.map (·.month)) (ds.map (·.day)) false

/-- `t[0], t[1], t[2]` in L556-559. -/
def DateItem.firstThree : DateItem → Except String PyDate
  | .sequence (y :: m :: d :: _) => .ok ⟨y, m, d⟩
  | .tensor [3] [y, m, d] => .ok ⟨y, m, d⟩
  | _ => .error "IndexError"

/-- L537-563 `from_tuples`. -/
def fromTuples (l : List DateItem) (validate : Bool) : Except String DateArray := do
  let ds ← l.mapM DateItem.firstThree
  yearMonthDayArray [l.length] (ds.map (·.year)) (ds.map (·.month)) (ds.map (·.day)) validate

/-- The tensor of an element: shape and values. -/
def DateItem.asTensor : DateItem → Except String (List Nat × List Int)
  | .tensor shape values => .ok (shape, values)
  | .sequence l => .ok ([l.length], l)
  | .date _ => .error "ValueError"

/-- L464-465: three tensors, here of the same shape (the code would broadcast others). -/
def fromThree (a b c : DateItem) : Except String DateArray := do
  let y ← a.asTensor
  let m ← b.asTensor
  let d ← c.asTensor
  if y.1 ≠ m.1 ∨ y.1 ≠ d.1 then throw "not modelled: shapes to be broadcast"
  yearMonthDayArray y.1 y.2 m.2 d.2 true

/-- `tf.convert_to_tensor` of a sequence in L469: the elements must have one shape. -/
def packItems (l : List DateItem) : Except String (List Nat × List Int) := do
  let ts ← l.mapM DateItem.asTensor
  match ts with
  | [] => return ([0], [])
  | t :: _ =>
    if ts.all (fun u => u.1 == t.1) then return (l.length :: t.1, (ts.map (·.2)).flatten)
    else throw "ValueError"

/-- L468-473: the last attempt.  The handler adds the exception to a string, which raises `TypeError`. -/
def lastAttempt (packed : Except String (List Nat × List Int)) : Except String DateArray :=
  match packed with
  | .ok t => ordinalsArray t.1 t.2 true
  | .error _ => .error "TypeError"

/-- L455-473: the conversion of a sequence. -/
def convertSequence (l : List DateItem) : Except String DateArray :=
  match l with
  | [] => ordinalsArray [0] [] true
  | .date d :: rest => fromDatetimes (.date d :: rest)
  | .sequence t :: rest => fromTuples (.sequence t :: rest) true
  | [.tensor s v, b, c] => fromThree (.tensor s v) b c
  | l => lastAttempt (packItems l)

/-- L421-473 `convert_to_date_tensor`. -/
def convertToDateTensor : DateInput → Except String DateArray
  | .dateTensor t => .ok t
  | .date d => fromDatetime d
  | .npArray shape days => ordinalsArray shape (days.map (· + ordinalOf1_1_1970)) false
  | .tensor shape values => ordinalsArray shape values true
  | .sequence l => convertSequence l
  | .other => lastAttempt (.error "ValueError")

/-- `tf.cast` of a float to an integer: towards zero. -/
def castInt {K : Type} [Field K] [LinearOrder K] [FloorRing K] (x : K) : Int := if 0 ≤ x then ⌊x⌋ else ⌈x⌉

/-- L748-759: one random date, from a uniform number `u` in `[0, 1)`; `tf.random.uniform` with `maxval` is `u * maxval`. -/
def randomDate {K : Type} [Field K] [LinearOrder K] [FloorRing K] (start stop : DateT) (u : K) : Except String DateT :=
  let range : K := ((stop.ordinal - start.ordinal : Int) : K)
  fromOrdinals (start.ordinal + castInt (u * range)) (validate := false)

/-- L739-759 `random_dates` for starts and ends of the same shape, with one row of uniform numbers for each of the `size` samples. -/
def randomDates {K : Type} [Field K] [LinearOrder K] [FloorRing K] (starts stops : DateArray) (draws : List (List K)) : Except String DateArray := do
  let rows ← draws.mapM (fun row => ((starts.2.zip stops.2).zip row).mapM (fun t => randomDate t.1.1 t.1.2 t.2))
  return (draws.length :: starts.1, rows.flatten)

/-- `bounded_holiday_calendar.py` L186-207 `subtract_period_and_roll`. -/
def BoundedCal.subtractPeriodAndRoll (c : BoundedCal) (t : DateT) (p : Period) (conv : BusinessDayConvention) : Except String DateT :=
  c.addPeriodAndRoll t ⟨-p.quantity, p.type⟩ conv

/-- `unbounded_holiday_calendar.py` L173-195 `subtract_period_and_roll`. -/
def UnboundedCal.subtractPeriodAndRoll (c : UnboundedCal) (t : DateT) (p : Period) (conv : BusinessDayConvention) : Except String DateT :=
  c.addPeriodAndRoll t ⟨-p.quantity, p.type⟩ conv

end Model
