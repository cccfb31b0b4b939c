import Verif.Model.BoundedCalendar

/-!
# Model of `tf_quant_finance/datetime/unbounded_holiday_calendar.py` and `holiday_utils.py`

Element-wise model of the arithmetic calendar. Integers are unbounded.
-/

namespace Model

/-- The loop of `std::lower_bound`, which `tf.searchsorted(..., side='left')` runs (TF CPU kernel
`LowerBound`); `fuel` bounds the number of halvings. -/
def lowerBoundLoop (a : List Int) (x : Int) : Nat → Nat → Nat → Nat
  | 0, first, _ => first
  | fuel + 1, first, len =>
    if len = 0 then first
    else
      let half := len / 2
      if a.getD (first + half) 0 < x then lowerBoundLoop a x fuel (first + half + 1) (len - (half + 1))
      else lowerBoundLoop a x fuel first half

/-- `tf.searchsorted(a, x, side='left')` for a one dimensional `a`. -/
def searchsortedLeft (a : List Int) (x : Int) : Int := (lowerBoundLoop a x a.length 0 a.length : Nat)

/-- `tf.cumsum` (inclusive). -/
def cumsumInclusive (l : List Int) : List Int := go 0 l
where go (acc : Int) : List Int → List Int
  | [] => []
  | a :: t => (acc + a) :: go (acc + a) t

/-- `holiday_utils.py` L106-107: the weekday mask, Sunday first (`tf.roll` by `-6`, negated). -/
def weekdayMask (m : List Bool) : List Bool := (List.range 7).map (fun i => !(m.getD ((i + 6) % 7) false))

/-- `holiday_utils.py` L108, L110: `weekday_offsets`. -/
def weekdayOffsets (m : List Bool) : List Int :=
  (cumsumInclusive ((weekdayMask m).map (fun b => if b then 1 else 0))).map (fun v => v - 1)

/-- `holiday_utils.py` L109: `num_workdays`. -/
def numWorkdays (m : List Bool) : Int := (weekdayOffsets m).getLastD 0 + 1

/-- `holiday_utils.py` L111-112: `ordinal_offsets`. -/
def ordinalOffsets (m : List Bool) : List Int :=
  ((List.range 7).filter (fun i => (weekdayMask m).getD i false)).map Int.ofNat

/-- `holiday_utils.py` L114-119: `forward`. -/
def weekdayForward (m : List Bool) (o : Int) : Int × Bool :=
  ((o / 7) * numWorkdays m + (weekdayOffsets m).getD (o % 7).toNat 0,
   (weekdayMask m).getD (o % 7).toNat false)

/-- `holiday_utils.py` L121-124: `backward`; integer division by zero is an error in TF. -/
def weekdayBackward (m : List Bool) (w : Int) : Except String Int :=
  if numWorkdays m = 0 then .error "Integer division by zero"
  else do
    let r ← gather (ordinalOffsets m) (w % numWorkdays m)
    return (w / numWorkdays m) * 7 + r

/-- `holiday_utils.py` L101-104 (no mask) and L105-126: `_week_day_mappers`. Without a mask every
day is reported as *not* a weekday. -/
def weekDayMappers : Option (List Bool) → (Int → Int × Bool) × (Int → Except String Int)
  | none => (fun x => (x, false), fun x => .ok x)
  | some m => (weekdayForward m, weekdayBackward m)

/-- `holiday_utils.py` L37-42: weekday values of the holidays that fall on weekdays, preceded by a
fake holiday 0. -/
def bizHolidays (fwd : Int → Int × Bool) (holidays : List Int) : List Int :=
  0 :: ((holidays.map fwd).filter (fun p => p.2)).map (fun p => p.1)

/-- `holiday_utils.py` L46-52 `bizday_fwd`. -/
def bizdayFwd (hs : List Int) (x : Int) : Int × Bool :=
  let reverseHolidays := (hs.map (fun h => -h)).reverse
  let numHolidays : Int := hs.length - 1
  let left := searchsortedLeft hs x
  let right := numHolidays - searchsortedLeft reverseHolidays (-x)
  (x - right, left != right)

/-- `holiday_utils.py` L54-55 `bizday_at_holidays`. -/
def bizdayAtHolidays (hs : List Int) : List Int :=
  (List.range hs.length).map (fun i => hs.getD i 0 - Int.ofNat i)

/-- `holiday_utils.py` L57-60 `bizday_back`. -/
def bizdayBack (hs : List Int) (x : Int) : Int := x + searchsortedLeft (bizdayAtHolidays hs) x - 1

/-- `unbounded_holiday_calendar.py` L35-54: the constructor arguments, after casting the mask to
booleans and the holidays to ordinals. -/
structure UnboundedCal where
  mask : Option (List Bool)
  holidays : Option (List Int)

namespace UnboundedCal

/-- The constructor, L49-54. -/
def init (weekendMask : Option (List Nat)) (holidays : Option (List DateT)) : UnboundedCal :=
  ⟨weekendMask.map (fun m => m.map (fun b => b != 0)), holidays.map (fun h => h.map DateT.ordinal)⟩

variable (c : UnboundedCal)

/-- `holiday_utils.py` L23-73: the map from ordinals to business day space. -/
def toBiz (o : Int) : Int × Bool :=
  match c.mask, c.holidays with
  | none, none => (o, true)
  | m, none => (weekDayMappers m).1 o
  | m, some h =>
    let fwd := (weekDayMappers m).1
    let w := fwd o
    let b := bizdayFwd (bizHolidays fwd h) w.1
    (b.1, w.2 && b.2)

/-- `holiday_utils.py` L23-73: the map from business day space to ordinals. -/
def fromBiz (x : Int) : Except String Int :=
  match c.mask, c.holidays with
  | none, none => .ok x
  | m, none => (weekDayMappers m).2 x
  | m, some h => (weekDayMappers m).2 (bizdayBack (bizHolidays (weekDayMappers m).1 h) x)

/-- L56-59 `is_business_day`. -/
def isBusinessDay (t : DateT) : Bool := (c.toBiz t.ordinal).2

/-- L266-267 `_get_month`. -/
def getMonth (o : Int) : Int := (ordinalToYearMonthDay o).2.1

/-- L80-110 `_apply_roll_biz_space`. -/
def applyRoll (t : DateT) (biz : Int) (isBiz : Bool) (conv : BusinessDayConvention) :
    Except String Int :=
  match conv with
  | .NONE => .ok biz
  | .FOLLOWING => .ok (if isBiz then biz else biz + 1)
  | .PRECEDING => .ok biz
  | .MODIFIED_FOLLOWING => do
    let next := if isBiz then biz else biz + 1
    let nextOrdinal ← c.fromBiz next
    return if getMonth nextOrdinal ≠ t.month then biz else next
  | .MODIFIED_PRECEDING => do
    let next := if isBiz then biz else biz + 1
    let prevOrdinal ← c.fromBiz biz
    return if getMonth prevOrdinal ≠ t.month then next else biz

/-- L61-78 `roll_to_business_day`. -/
def roll (t : DateT) (conv : BusinessDayConvention) : Except String DateT :=
  match conv with
  | .NONE => .ok t
  | conv => do
    let b := c.toBiz t.ordinal
    let k ← c.applyRoll t b.1 b.2 conv
    let o ← c.fromBiz k
    fromOrdinals o

/-- L112-130 `add_period_and_roll`. -/
def addPeriodAndRoll (t : DateT) (p : Period) (conv : BusinessDayConvention) :
    Except String DateT := do
  let t' ← t.add p
  c.roll t' conv

/-- L132-171 `add_business_days`. -/
def addBusinessDays (t : DateT) (numDays : Int) (conv : BusinessDayConvention) :
    Except String DateT := do
  let b := c.toBiz t.ordinal
  if conv = .NONE ∧ b.2 = false then throw "Non business starting day with no roll convention."
  let k ← c.applyRoll t b.1 b.2 conv
  let o ← c.fromBiz (k + numDays)
  fromOrdinals o

/-- L197-223 `subtract_business_days`. -/
def subtractBusinessDays (t : DateT) (numDays : Int) (conv : BusinessDayConvention) :
    Except String DateT := c.addBusinessDays t (-numDays) conv

/-- L241-263 `business_days_between`. -/
def businessDaysBetween (a b : DateT) : Int :=
  let f := c.toBiz a.ordinal
  let g := c.toBiz b.ordinal
  let fromBiz := if f.2 then f.1 else f.1 + 1
  let toBiz := if g.2 then g.1 else g.1 + 1
  max (toBiz - fromBiz) 0

/-- L225-239 `business_days_in_period`. -/
def businessDaysInPeriod (t : DateT) (p : Period) : Except String Int := do
  let t' ← t.add p
  return c.businessDaysBetween t t'

end UnboundedCal

end Model
