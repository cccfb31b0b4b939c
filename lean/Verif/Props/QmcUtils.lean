import Verif.Model.QmcUtils
import Mathlib.Data.Int.Bitwise
import Mathlib.Data.Nat.Bitwise
import Mathlib.Analysis.SpecialFunctions.Log.Base
import Mathlib.MeasureTheory.Measure.Lebesgue.Basic
import Mathlib.MeasureTheory.Constructions.Pi
import Mathlib.MeasureTheory.Constructions.BorelSpace.Order
import Mathlib.Tactic.Linarith
import Mathlib.Tactic.Positivity

/-! # C107: the helpers of the quasi random sequences -/

namespace Props
open Model MeasureTheory

/-- **C107.** `exp2` is the power of two, cut at the largest number of the type. -/
theorem C107_exp2 (size : Nat) (hs : 0 < size) (unsigned : Bool) (value : Nat) :
    exp2Int size unsigned value = min (2 ^ value) (intTypeMax size unsigned) := by
  have hpow : ∀ {a b : Nat}, a ≤ b → (2 : Int) ^ a ≤ 2 ^ b := fun {a b} h => pow_le_pow_right₀ (by norm_num) h
  have hlt : ∀ {a b : Nat}, a < b → (2 : Int) ^ a < 2 ^ b := fun {a b} h => pow_lt_pow_right₀ (by norm_num) h
  have hmod : ∀ v, v < 8 * size → (((1 : Nat) <<< v : Nat) : Int) % 2 ^ (8 * size) = 2 ^ v := by
    intro v hv
    rw [Nat.one_shiftLeft, Nat.cast_pow, Nat.cast_ofNat]
    exact Int.emod_eq_of_lt (by positivity) (hlt hv)
  unfold exp2Int intTypeMax
  dsimp only
  rw [Int.toNat_natCast]
  cases unsigned
  · simp only [Bool.false_eq_true, if_false]
    by_cases h : 8 * (size : Int) - 1 ≤ value
    · rw [if_pos h, min_eq_right]
      have := hpow (a := 8 * size - 1) (b := value) (by omega)
      omega
    · rw [if_neg h, hmod _ (by omega), min_eq_left]
      have := hlt (a := value) (b := 8 * size - 1) (by omega)
      omega
  · simp only [if_true]
    by_cases h : 8 * (size : Int) ≤ value
    · rw [if_pos h, min_eq_right]
      have := hpow (a := 8 * size) (b := value) (by omega)
      omega
    · rw [if_neg h, hmod _ (by omega), min_eq_left]
      have := hlt (a := value) (b := 8 * size) (by omega)
      omega

example : exp2Int 4 false 30 = 1073741824 ∧ exp2Int 4 false 31 = 2147483647 ∧ exp2Int 4 true 31 = 2147483648 := by decide

/-- **C107.** `log2` inverts the power of two. -/
theorem C107_log2 (x : ℝ) (hx : 0 < x) : (2 : ℝ) ^ log2Real x = x ∧ log2Real (2 ^ x) = x := by
  have h : ∀ y, log2Real y = Real.logb 2 y := fun y => rfl
  rw [h, h]
  exact ⟨Real.rpow_logb (by norm_num) (by norm_num) hx, Real.logb_rpow (by norm_num) (by norm_num)⟩

namespace QmcUtils

theorem ceil_log2 (n : Nat) (hn : 0 < n) : ⌈log2Real (n : ℝ)⌉ = (Nat.clog 2 n : Int) := by
  have h : log2Real (n : ℝ) = Real.logb 2 n := rfl
  rw [h]
  exact_mod_cast Real.ceil_logb_natCast (b := 2) (r := (n : ℝ)) (by positivity) |>.trans (Int.clog_natCast 2 n)

theorem cast_small (n : Nat) (h : n ≤ 2 ^ 24) : castFloat32 n = n := by
  unfold castFloat32
  dsimp only
  by_cases hn : n < 2 ^ 24
  · have he : Nat.log 2 n - 23 = 0 := by
      by_cases h0 : n = 0
      · subst h0
        simp
      · have := (Nat.log_lt_iff_lt_pow (b := 2) (by norm_num) h0).2 hn
        omega
    rw [he]
    simp [Nat.mod_one]
  · have : n = 2 ^ 24 := by omega
    subst this
    rw [Nat.log_pow (by norm_num)]
    norm_num

end QmcUtils

/-- **C107.** Up to `2 ^ 24` results the number of digits is the least one with which all results can be numbered. -/
theorem C107_digits (n : Nat) (hn : 0 < n) (h : n ≤ 2 ^ 24) : numDigitsOf n = (Nat.clog 2 n : Int) ∧ ∀ m : Nat, n ≤ 2 ^ m ↔ numDigitsOf n ≤ m := by
  have : numDigitsOf n = (Nat.clog 2 n : Int) := by
    unfold numDigitsOf
    rw [QmcUtils.cast_small n h, QmcUtils.ceil_log2 n hn]
  refine ⟨this, fun m => ?_⟩
  rw [this, Nat.cast_le, Nat.clog_le_iff_le_pow (by norm_num)]

/-- **Deviation.** The number of results is cast to `float32`, which has 24 binary digits. For `2 ^ 24 + 1` results one digit is missing, and the last point repeats the
first one, whatever the generating matrices. -/
theorem C107_digits_deviates : numDigitsOf (2 ^ 24 + 1) = 24 ∧ ¬ 2 ^ 24 + 1 ≤ 2 ^ 24 ∧
    ∀ columns shift, digitalNetPoint columns 24 shift (2 ^ 24) = digitalNetPoint columns 24 shift 0 := by
  refine ⟨?_, by norm_num, fun columns shift => ?_⟩
  · have hc : castFloat32 (2 ^ 24 + 1) = 2 ^ 24 := by decide +kernel
    unfold numDigitsOf
    rw [hc, QmcUtils.ceil_log2 _ (by norm_num), Nat.clog_pow _ _ (by norm_num)]
    rfl
  · unfold digitalNetPoint
    refine List.foldl_ext _ _ _ fun p j hj => ?_
    congr 1
    rw [List.mem_range] at hj
    unfold filterTensor
    have : ∀ j < 24, ((2 ^ 24) >>> j) &&& 1 = 0 := by decide
    rw [this j hj, Nat.zero_shiftRight]
    rfl

/-- **C107.** `filter_tensor` keeps the value exactly where the bit is set, for masks of both signs, and agrees with the filter of natural numbers. -/
theorem C107_filter (value bitMask : Int) (bitIndex : Nat) : filterTensorInt value bitMask bitIndex = if bitMask.testBit bitIndex then value else 0 := by
  have h : ∀ x : Int, x.land 1 = 1 ↔ x.testBit 0 = true := by
    intro x
    rcases x with x | x
    · show ((x &&& 1 : Nat) : Int) = 1 ↔ x.testBit 0 = true
      rw [Nat.testBit_zero, Nat.and_one_is_mod]
      simp
      omega
    · show ((Nat.ldiff 1 x : Nat) : Int) = 1 ↔ (!x.testBit 0) = true
      have e : Nat.ldiff 1 x = 1 - x % 2 := by
        refine Nat.eq_of_testBit_eq fun i => ?_
        rw [Nat.testBit_ldiff]
        rcases i with _ | i
        · rcases Nat.mod_two_eq_zero_or_one x with hx | hx <;> simp [Nat.testBit_zero, hx]
        · rcases Nat.mod_two_eq_zero_or_one x with hx | hx <;> simp [Nat.testBit_succ, hx]
      rw [e, Nat.testBit_zero]
      rcases Nat.mod_two_eq_zero_or_one x with hx | hx <;> simp [hx]
  have hs : (bitMask >>> bitIndex).testBit 0 = bitMask.testBit bitIndex := by
    rcases bitMask with x | x
    · show (x >>> bitIndex).testBit 0 = x.testBit bitIndex
      rw [Nat.testBit_shiftRight, Nat.add_zero]
    · show (!(x >>> bitIndex).testBit 0) = !x.testBit bitIndex
      rw [Nat.testBit_shiftRight, Nat.add_zero]
  unfold filterTensorInt
  by_cases hb : bitMask.testBit bitIndex = true
  · rw [if_pos ((h _).2 (hs.trans hb)), if_pos hb]
  · rw [if_neg fun hc => hb (hs ▸ (h _).1 hc), if_neg hb]

theorem C107_filter_nat (value bitMask bitIndex : Nat) : (filterTensor value bitMask bitIndex : Int) = filterTensorInt value bitMask bitIndex := by
  rw [C107_filter]
  unfold filterTensor
  show ((if (bitMask >>> bitIndex) &&& 1 = 1 then value else 0 : Nat) : Int) = if bitMask.testBit bitIndex = true then (value : Int) else 0
  have : bitMask.testBit bitIndex = true ↔ (bitMask >>> bitIndex) &&& 1 = 1 := by
    rw [Nat.and_one_is_mod, ← Nat.add_zero bitIndex, ← Nat.testBit_shiftRight, Nat.testBit_zero, decide_eq_true_iff, Nat.add_zero]
  by_cases h : (bitMask >>> bitIndex) &&& 1 = 1
  · rw [if_pos h, if_pos (this.2 h)]
  · rw [if_neg h, if_neg fun hc => h (this.1 hc)]
    rfl

example : filterTensorInt 6 (-2) 1 = 6 ∧ filterTensorInt 6 (-2) 0 = 0 := by decide +kernel

/-- **C107.** The tent transform maps the unit interval to itself, is symmetric, and is the distance from the middle, turned over. -/
theorem C107_tent {K : Type} [Field K] [LinearOrder K] [IsStrictOrderedRing K] (x : K) :
    tentTransform x = 1 - |2 * x - 1| ∧ tentTransform (1 - x) = tentTransform x ∧ (0 ≤ x → x ≤ 1 → 0 ≤ tentTransform x ∧ tentTransform x ≤ 1) := by
  have h : ∀ x : K, tentTransform x = 1 - |2 * x - 1| := by
    intro x
    unfold tentTransform
    split
    · rename_i hx
      rw [lt_div_iff₀ (by norm_num)] at hx
      rw [abs_of_neg (by linarith)]
      ring
    · rename_i hx
      rw [not_lt, div_le_iff₀ (by norm_num)] at hx
      rw [abs_of_nonneg (by linarith)]
      ring
  refine ⟨h x, ?_, fun h0 h1 => ?_⟩
  · rw [h, h, ← abs_neg]
    congr 2
    ring
  · rw [h]
    have : |2 * x - 1| ≤ 1 := abs_le.2 ⟨by linarith, by linarith⟩
    exact ⟨by linarith, by linarith [abs_nonneg (2 * x - 1)]⟩

/-- **C107.** The tent transform of a uniform number is uniform; so is the transform of all coordinates of a uniform point of the unit cube. -/
theorem C107_tent_uniform (d : Nat) :
    MeasurePreserving (tentTransform : ℝ → ℝ) (volume.restrict (Set.Icc 0 1)) (volume.restrict (Set.Icc 0 1)) ∧
    MeasurePreserving (fun (p : Fin d → ℝ) i => tentTransform (p i)) (Measure.pi fun _ => volume.restrict (Set.Icc 0 1)) (Measure.pi fun _ => volume.restrict (Set.Icc 0 1)) := by
  have hm : Measurable (tentTransform : ℝ → ℝ) := by
    unfold tentTransform
    exact Measurable.ite measurableSet_Iio (by fun_prop) (by fun_prop)
  have h1 : MeasurePreserving (tentTransform : ℝ → ℝ) (volume.restrict (Set.Icc 0 1)) (volume.restrict (Set.Icc 0 1)) := by
    refine ⟨hm, ?_⟩
    haveI : IsFiniteMeasure ((volume.restrict (Set.Icc (0 : ℝ) 1)).map tentTransform) := Measure.isFiniteMeasure_map _ _
    refine Measure.ext_of_Iic _ _ fun a => ?_
    rw [Measure.map_apply hm measurableSet_Iic, Measure.restrict_apply (hm measurableSet_Iic), Measure.restrict_apply measurableSet_Iic]
    rcases lt_or_ge a 0 with ha | ha
    · have e1 : (tentTransform ⁻¹' Set.Iic a ∩ Set.Icc (0 : ℝ) 1) = ∅ := by
        ext x
        simp only [Set.mem_inter_iff, Set.mem_preimage, Set.mem_Iic, Set.mem_Icc, Set.mem_empty_iff_false, iff_false]
        rintro ⟨h, h0, h1⟩
        have := ((C107_tent x).2.2 h0 h1).1
        linarith
      have e2 : (Set.Iic a ∩ Set.Icc (0 : ℝ) 1) = ∅ := by
        ext x
        simp only [Set.mem_inter_iff, Set.mem_Iic, Set.mem_Icc, Set.mem_empty_iff_false, iff_false]
        rintro ⟨h, h0, h1⟩
        linarith
      rw [e1, e2]
    · rcases lt_or_ge a 1 with ha1 | ha1
      · have e1 : (tentTransform ⁻¹' Set.Iic a ∩ Set.Icc (0 : ℝ) 1) = Set.Icc 0 (a / 2) ∪ Set.Icc (1 - a / 2) 1 := by
          ext x
          simp only [Set.mem_inter_iff, Set.mem_preimage, Set.mem_Iic, Set.mem_Icc, Set.mem_union]
          unfold tentTransform
          split <;> rename_i hx
          · constructor
            · rintro ⟨h, h0, h1⟩
              exact Or.inl ⟨h0, by linarith⟩
            · rintro (⟨h0, h1⟩ | ⟨h0, h1⟩)
              · exact ⟨by linarith, h0, by linarith⟩
              · linarith
          · rw [not_lt] at hx
            constructor
            · rintro ⟨h, h0, h1⟩
              exact Or.inr ⟨by linarith, h1⟩
            · rintro (⟨h0, h1⟩ | ⟨h0, h1⟩)
              · linarith
              · exact ⟨by linarith, by linarith, h1⟩
        have e2 : (Set.Iic a ∩ Set.Icc (0 : ℝ) 1) = Set.Icc 0 a := by
          ext x
          simp only [Set.mem_inter_iff, Set.mem_Iic, Set.mem_Icc]
          exact ⟨fun h => ⟨h.2.1, h.1⟩, fun h => ⟨h.2, h.1, by linarith [h.2]⟩⟩
        rw [e1, e2, measure_union _ measurableSet_Icc, Real.volume_Icc, Real.volume_Icc, Real.volume_Icc, ← ENNReal.ofReal_add (by linarith) (by linarith)]
        · congr 1
          ring
        · rw [Set.disjoint_left]
          rintro x ⟨-, h1⟩ ⟨h2, -⟩
          linarith
      · have e1 : (tentTransform ⁻¹' Set.Iic a ∩ Set.Icc (0 : ℝ) 1) = Set.Icc 0 1 := by
          refine Set.inter_eq_right.2 fun x hx => ?_
          exact le_trans ((C107_tent x).2.2 hx.1 hx.2).2 ha1
        have e2 : (Set.Iic a ∩ Set.Icc (0 : ℝ) 1) = Set.Icc 0 1 := Set.inter_eq_right.2 fun x hx => le_trans hx.2 ha1
        rw [e1, e2]
  exact ⟨h1, measurePreserving_pi _ _ fun _ => h1⟩

example : [(0 : ℚ), 1 / 5, 2 / 5, 3 / 5, 4 / 5, 1].map tentTransform = [0, 2 / 5, 4 / 5, 4 / 5, 2 / 5, 0] := by decide +kernel

end Props
