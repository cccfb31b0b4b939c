import Mathlib.Algebra.Field.Defs
import Mathlib.Algebra.BigOperators.Group.Finset.Basic
import Mathlib.Data.Int.Cast.Defs
import Verif.Spec.Schedule

/-!
# Specification: coupon dates, year fractions and present values of coupon payments

Independent of the code: dates are calendar dates, curves are functions giving the discount factor of a date.
-/

namespace Spec
open Model (PeriodType)

/-- Conventions for the length of a period in years. -/
inductive Basis
  | actual360
  | actual365
  | thirty360

/-- The length of the period from `d` to `e` in years. -/
def yearFraction {K : Type} [Field K] (b : Basis) (d e : YMD) : K :=
  match b with
  | .actual360 => ((e.number - d.number : Int) : K) / 360
  | .actual365 => ((e.number - d.number : Int) : K) / 365
  | .thirty360 => ((360 * (e.year - d.year) + 30 * (e.month - d.month) +
        ((if e.day = 31 ∧ (d.day = 30 ∨ d.day = 31) then 30 else e.day) -
          (if d.day = 31 then 30 else d.day)) : Int) : K) / 360

/-- `c 0, …, c k` are the dates `d, d + q, d + 2q, …` before `e`, followed by `e`. -/
def ForwardCoupons (u : PeriodType) (q : Int) (d e : YMD) (k : Nat) (c : Nat → YMD) : Prop :=
  (∀ i, i < k → ShiftedBy u (q * (i : Int)) d (c i) ∧ (c i).Before e) ∧ c k = e ∧
    ∀ f, ShiftedBy u (q * (k : Int)) d f → ¬ f.Before e

/-- `c k, …, c 0` are the dates `e, e - q, e - 2q, …` after `d`, followed by `d`. -/
def BackwardCoupons (u : PeriodType) (q : Int) (d e : YMD) (k : Nat) (c : Nat → YMD) : Prop :=
  (∀ i, i < k → ShiftedBy u (-(q * (i : Int))) e (c (k - i)) ∧ d.Before (c (k - i))) ∧ c 0 = d ∧
    ∀ f, ShiftedBy u (-(q * (k : Int))) e f → ¬ d.Before f

/-- Which coupon, if any, is irregular. -/
inductive Stub
  | none
  | first (payment : YMD)
  | last (previous : YMD)

/-- A stream from `d` to `e` with coupon period `q` units has `k` coupons, with dates `c 0, …, c k`. -/
def CouponDates (u : PeriodType) (q : Int) (stub : Stub) (d e : YMD) (k : Nat) (c : Nat → YMD) : Prop :=
  match stub with
  | .none => ForwardCoupons u q d e k c
  | .first f => c 0 = d ∧ ∃ n, k = n + 1 ∧ ForwardCoupons u q f e n (fun i => c (i + 1))
  | .last f => c k = e ∧ ∃ n, k = n + 1 ∧ BackwardCoupons u q d f n c

/-- Is coupon `j` of `k` an irregular one? -/
def Stub.irregular (stub : Stub) (k j : Nat) : Prop :=
  match stub with
  | .none => False
  | .first _ => j = 0
  | .last _ => j + 1 = k

section
variable {K : Type} [Field K]

open Classical in
/-- The present value of the payments `amount j` at the dates `c (j + 1)`, counting those not before `v`. -/
noncomputable def couponValue (discount : YMD → K) (v : YMD) (k : Nat) (c : Nat → YMD) (amount : Nat → K) : K :=
  ∑ j ∈ Finset.range k, if (c (j + 1)).Before v then 0 else amount j * discount (c (j + 1))

/-- The simple rate a curve implies between two dates. -/
def simpleRate (curve : YMD → K) (b : Basis) (d e : YMD) : K := (curve d / curve e - 1) / yearFraction b d e

end
end Spec
