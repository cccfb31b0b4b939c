import Verif.Model.Hjm
import Verif.Model.PlatformSwap
import Mathlib.MeasureTheory.Integral.Bochner.Basic
import Mathlib.Tactic.Linarith
import Mathlib.Tactic.FieldSimp
import Mathlib.Tactic.NormNum
import Mathlib.Algebra.Order.Field.Rat

/-!
# Property theorems C90 and C93: decimal numbers of messages, moments of a step of the sampler of the Heath-Jarrow-Morton model
-/

namespace Props
open Model MeasureTheory

/-- C93.  A step of the sampler, for draws with mean zero and unit covariance, moves the state `x` in the mean by the drift times the
step; the covariance of the rest is the step times the product of the diffusion matrix with its transpose; `y` moves by its drift. -/
theorem C93_step {n : Nat} (m : Hjm n) {Ω : Type} [MeasurableSpace Ω] (P : Measure Ω) [IsProbabilityMeasure P] (z : Ω → Fin n → ℝ)
    (hz : ∀ i, Integrable (fun ω => z ω i) P) (hzz : ∀ i j, Integrable (fun ω => z ω i * z ω j) P)
    (mean : ∀ i, ∫ ω, z ω i ∂P = 0) (cov : ∀ i j, ∫ ω, z ω i * z ω j ∂P = if i = j then 1 else 0)
    (t dt : ℝ) (hdt : 0 ≤ dt) (s : (Fin n → ℝ) × (Fin n → Fin n → ℝ)) (i j : Fin n) :
    let d := fun i => (∑ j, s.2 i j) - m.meanReversion i * s.1 i
    let v := m.volatility t (m.shortRate t s.1)
    ∫ ω, (m.eulerStep t dt s (z ω)).1 i ∂P = s.1 i + d i * dt ∧
    ∫ ω, ((m.eulerStep t dt s (z ω)).1 i - (s.1 i + d i * dt)) * ((m.eulerStep t dt s (z ω)).1 j - (s.1 j + d j * dt)) ∂P =
      v i * v j * (∑ k, m.sqrtRho i k * m.sqrtRho j k) * dt ∧
    ∀ ω, (m.eulerStep t dt s (z ω)).2 i j = s.2 i j + (m.rho i j * v i * v j - (m.meanReversion i + m.meanReversion j) * s.2 i j) * dt := by
  intro d v
  have hs : Real.sqrt dt * Real.sqrt dt = dt := Real.mul_self_sqrt hdt
  have hx : ∀ ω i, (m.eulerStep t dt s (z ω)).1 i = (s.1 i + d i * dt) + ∑ k, (m.sqrtRho i k * v i * Real.sqrt dt) * z ω k := by
    intro ω i
    simp only [Hjm.eulerStep, Hjm.driftX, Hjm.diffusion, d, v]
    rw [Finset.sum_mul]
    congr 1
    exact Finset.sum_congr rfl fun k _ => by ring
  have hi : ∀ i, Integrable (fun ω => ∑ k, (m.sqrtRho i k * v i * Real.sqrt dt) * z ω k) P := fun i =>
    integrable_finset_sum _ fun k _ => (hz k).const_mul _
  refine ⟨?_, ?_, ?_⟩
  · simp only [hx]
    rw [integral_add (integrable_const _) (hi i), integral_finset_sum _ (fun k _ => (hz k).const_mul _)]
    simp [integral_const_mul, mean]
  · have e : ∀ ω, ((m.eulerStep t dt s (z ω)).1 i - (s.1 i + d i * dt)) * ((m.eulerStep t dt s (z ω)).1 j - (s.1 j + d j * dt)) =
        ∑ k, ∑ l, (m.sqrtRho i k * v i * Real.sqrt dt * (m.sqrtRho j l * v j * Real.sqrt dt)) * (z ω k * z ω l) := by
      intro ω
      rw [hx, hx, add_sub_cancel_left, add_sub_cancel_left, Finset.sum_mul_sum]
      exact Finset.sum_congr rfl fun k _ => Finset.sum_congr rfl fun l _ => by ring
    simp only [e]
    rw [integral_finset_sum _ (fun k _ => integrable_finset_sum _ fun l _ => (hzz k l).const_mul _)]
    rw [Finset.mul_sum, Finset.sum_mul]
    refine Finset.sum_congr rfl fun k _ => ?_
    rw [integral_finset_sum _ (fun l _ => (hzz k l).const_mul _)]
    simp only [integral_const_mul, cov, mul_ite, mul_one, mul_zero, Finset.sum_ite_eq, Finset.mem_univ, if_true]
    calc m.sqrtRho i k * v i * Real.sqrt dt * (m.sqrtRho j k * v j * Real.sqrt dt) =
        v i * v j * (m.sqrtRho i k * m.sqrtRho j k) * (Real.sqrt dt * Real.sqrt dt) := by ring
      _ = _ := by rw [hs]
  · intro ω
    simp only [Hjm.eulerStep, Hjm.driftY, v]
    ring

/-- C90.  A decimal number of a message is its units plus its billionths. -/
theorem C90_decimal {K : Type} [Field K] [CharZero K] (units nanos : Int) :
    (Platform.decimalToDouble units nanos : K) * 10 ^ 9 = ((units * 10 ^ 9 + nanos : Int) : K) := by
  unfold Platform.decimalToDouble
  push_cast
  norm_num
  ring

example : (Platform.decimalToDouble 1 250000000 : Rat) = 5 / 4 := by decide +kernel

end Props
