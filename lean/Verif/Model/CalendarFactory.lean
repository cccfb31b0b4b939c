import Verif.Model.UnboundedCalendar

/-!
# Model of `tf_quant_finance/datetime/holiday_calendar_factory.py`

What Python does with an argument depends on its type, so the arguments carry it. Arrays are those of numpy with more than one
element when used as a mask.
-/

namespace Model

/-- A weekend mask: missing, a list or tuple, or an array or tensor. -/
inductive MaskArg
  | missing
  | sequence (mask : List Nat)
  | tensor (mask : List Nat)

/-- Holidays: missing, a list or tuple, an array of numpy, a tensor, or a `DateTensor`. -/
inductive HolidaysArg
  | missing
  | sequence (dates : List DateT)
  | array (dates : List DateT)
  | tensor (dates : List DateT)
  | dateTensor (dates : List DateT)

/-- The dates of the argument, after `convert_to_date_tensor`. -/
def HolidaysArg.dates : HolidaysArg → Option (List DateT)
  | .missing => none
  | .sequence d | .array d | .tensor d | .dateTensor d => some d

/-- The entries of the mask. -/
def MaskArg.mask : MaskArg → Option (List Nat)
  | .missing => none
  | .sequence m | .tensor m => some m

/-- `_tensor_is_not_empty`, L95-105. For a tensor the method `num_elements` itself is compared with zero, which is an error.
`DateTensor` has neither `__bool__` nor `__len__`, so that it counts as true. -/
def tensorIsNotEmpty : HolidaysArg → Except String Bool
  | .missing => .ok false
  | .array d => .ok (decide (d.length > 0))
  | .tensor _ => .error "TypeError: '>' not supported between instances of 'method' and 'int'"
  | .sequence d => .ok (!d.isEmpty)
  | .dateTensor _ => .ok true

/-- `weekend_mask or constants.WeekendMask.NONE`, `bounded_holiday_calendar.py` L68-69: the truth value of an array or tensor
of seven elements is an error. -/
def maskOrNone : MaskArg → Except String (List Nat)
  | .missing => .ok weekendMaskNone
  | .sequence m => .ok (if m.isEmpty then weekendMaskNone else m)
  | .tensor _ => .error "ValueError: The truth value of an array with more than one element is ambiguous"

/-- The result of the factory. -/
inductive HolidayCal
  | bounded (c : BoundedCal)
  | unbounded (c : UnboundedCal)

/-- `create_holiday_calendar`, L23-92. -/
def createHolidayCalendar (weekendMask : MaskArg) (holidays : HolidaysArg) (startYear endYear : Option Int) :
    Except String HolidayCal :=
  (tensorIsNotEmpty holidays).bind fun notEmpty =>
    match notEmpty || (startYear.isSome && endYear.isSome) with
    | true => (maskOrNone weekendMask).bind fun mask =>
        (BoundedCal.init (some mask) holidays.dates startYear endYear).map fun c => .bounded c
    | false => .ok (.unbounded (UnboundedCal.init weekendMask.mask holidays.dates))

end Model
