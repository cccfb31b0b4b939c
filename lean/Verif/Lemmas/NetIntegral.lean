import Verif.Spec.Net
import Mathlib.MeasureTheory.Integral.Bochner.Set
import Mathlib.MeasureTheory.Measure.Lebesgue.Basic
import Mathlib.Algebra.Order.Floor.Ring
import Mathlib.Algebra.BigOperators.Field
import Mathlib.Topology.UniformSpace.HeineCantor
import Mathlib.MeasureTheory.Function.LocallyIntegrable

/-! Averages over the points of a net. -/

namespace Spec

/-- The half open unit cube. -/
def unitCube (s : ℕ) : Set (Fin s → ℝ) := {u | ∀ c, 0 ≤ u c ∧ u c < 1}

end Spec

namespace Lemmas
open Spec MeasureTheory

/-- The elementary box with side lengths `b c ^ (-d c)`. -/
def elementaryBox (s : ℕ) (b d : Fin s → ℕ) (k : (c : Fin s) → Fin (b c ^ d c)) : Set (Fin s → ℝ) := {u | ∀ c, InCell (b c) (d c) (k c) (u c)}

theorem elementaryBox_eq (s : ℕ) (b d : Fin s → ℕ) (k : (c : Fin s) → Fin (b c ^ d c)) : elementaryBox s b d k =
    Set.pi Set.univ (fun c => Set.Ico (((k c : ℕ) : ℝ) / (b c : ℝ) ^ d c) ((((k c : ℕ) : ℝ) + 1) / (b c : ℝ) ^ d c)) := by
  ext u
  simp [elementaryBox, InCell, Set.mem_pi]

theorem inCell_unit (b d k : ℕ) (hb : 0 < b) (hk : k < b ^ d) (x : ℝ) (h : InCell b d k x) : 0 ≤ x ∧ x < 1 := by
  obtain ⟨h1, h2⟩ := h
  have hp : (0 : ℝ) < (b : ℝ) ^ d := by positivity
  refine ⟨le_trans (by positivity) h1, lt_of_lt_of_le h2 ?_⟩
  rw [div_le_one hp]
  exact_mod_cast hk

theorem inCell_unique (b d k k' : ℕ) (hb : 0 < b) (x : ℝ) (h : InCell b d k x) (h' : InCell b d k' x) : k = k' := by
  have hp : (0 : ℝ) < (b : ℝ) ^ d := by positivity
  have a := lt_of_le_of_lt h.1 h'.2
  have a1 := lt_of_le_of_lt h'.1 h.2
  rw [div_lt_div_iff_of_pos_right hp] at a a1
  have a' : k < k' + 1 := by exact_mod_cast a
  have b' : k' < k + 1 := by exact_mod_cast a1
  omega

theorem inCell_exists (b d : ℕ) (hb : 0 < b) (x : ℝ) (h0 : 0 ≤ x) (h1 : x < 1) : ∃ k, k < b ^ d ∧ InCell b d k x := by
  have hp : (0 : ℝ) < (b : ℝ) ^ d := by positivity
  have hx : 0 ≤ x * (b : ℝ) ^ d := by positivity
  refine ⟨⌊x * (b : ℝ) ^ d⌋₊, ?_, ?_, ?_⟩
  · rw [Nat.floor_lt hx]
    push_cast
    have : x * (b : ℝ) ^ d < 1 * (b : ℝ) ^ d := mul_lt_mul_of_pos_right h1 hp
    simpa using this
  · rw [div_le_iff₀ hp]; exact Nat.floor_le hx
  · rw [lt_div_iff₀ hp]; exact Nat.lt_floor_add_one _

theorem inCell_close (b d k : ℕ) (x y : ℝ) (h : InCell b d k x) (h' : InCell b d k y) : |x - y| ≤ 1 / (b : ℝ) ^ d := by
  have e : (((k : ℕ) : ℝ) + 1) / (b : ℝ) ^ d = (k : ℝ) / (b : ℝ) ^ d + 1 / (b : ℝ) ^ d := add_div _ _ _
  obtain ⟨a, b⟩ := h
  obtain ⟨a', b'⟩ := h'
  rw [e] at b b'
  rw [abs_le]
  constructor <;> linarith

theorem boxes_disjoint (s : ℕ) (b d : Fin s → ℕ) (hb : ∀ c, 0 < b c) : Pairwise (Function.onFun Disjoint (elementaryBox s b d)) := by
  intro k k' hne
  rw [Function.onFun, Set.disjoint_left]
  intro u hu hu'
  exact hne (funext fun c => Fin.ext (inCell_unique _ _ _ _ (hb c) _ (hu c) (hu' c)))

theorem boxes_union (s : ℕ) (b d : Fin s → ℕ) (hb : ∀ c, 0 < b c) : ⋃ k, elementaryBox s b d k = unitCube s := by
  ext u
  rw [Set.mem_iUnion]
  constructor
  · rintro ⟨k, hk⟩ c
    exact inCell_unit _ _ _ (hb c) (k c).isLt _ (hk c)
  · intro hu
    choose k hk1 hk2 using fun c => inCell_exists (b c) (d c) (hb c) (u c) (hu c).1 (hu c).2
    exact ⟨fun c => ⟨k c, hk1 c⟩, hk2⟩

theorem box_volume (s : ℕ) (b d : Fin s → ℕ) (k : (c : Fin s) → Fin (b c ^ d c)) : volume.real (elementaryBox s b d k) = 1 / ∏ c, (b c : ℝ) ^ d c := by
  rw [elementaryBox_eq, Measure.real, Real.volume_pi_Ico_toReal]
  · rw [Finset.prod_congr rfl (g := fun c => ((b c : ℝ) ^ d c)⁻¹) (fun c _ => by
      rw [← sub_div, add_sub_cancel_left, one_div]), Finset.prod_inv_distrib, one_div]
  · intro c
    show ((k c : ℕ) : ℝ) / (b c : ℝ) ^ d c ≤ (((k c : ℕ) : ℝ) + 1) / (b c : ℝ) ^ d c
    exact div_le_div_of_nonneg_right (by linarith) (by positivity)

theorem box_measurable (s : ℕ) (b d : Fin s → ℕ) (k : (c : Fin s) → Fin (b c ^ d c)) : MeasurableSet (elementaryBox s b d k) := by
  rw [elementaryBox_eq]
  exact MeasurableSet.univ_pi fun c => measurableSet_Ico

theorem box_finite (s : ℕ) (b d : Fin s → ℕ) (k : (c : Fin s) → Fin (b c ^ d c)) : volume (elementaryBox s b d k) < ⊤ := by
  rw [elementaryBox_eq, Real.volume_pi_Ico]
  exact ENNReal.prod_lt_top fun c _ => ENNReal.ofReal_lt_top

/-- The sum over points of which every elementary box contains `w` differs from their number times the integral by at most
their number times the oscillation over elementary boxes. -/
theorem equal_boxes_sum (s : ℕ) (b d : Fin s → ℕ) (hb : ∀ c, 0 < b c) (w : ℕ) (hw : 0 < w) (T : Finset ℕ) (x : ℕ → Fin s → ℝ)
    (hx : ∀ n ∈ T, x n ∈ unitCube s) (S : ((c : Fin s) → Fin (b c ^ d c)) → Finset ℕ) (hS1 : ∀ k, (S k).card = w)
    (hS2 : ∀ k n, n ∈ S k ↔ n ∈ T ∧ x n ∈ elementaryBox s b d k) (f : (Fin s → ℝ) → ℝ) (ω : ℝ)
    (hf : ∀ u v, u ∈ unitCube s → v ∈ unitCube s → (∀ c, |u c - v c| ≤ 1 / (b c : ℝ) ^ d c) → |f u - f v| ≤ ω)
    (hint : IntegrableOn f (unitCube s)) :
    |(∑ n ∈ T, f (x n)) - (w * ∏ c, (b c : ℝ) ^ d c) * ∫ u in unitCube s, f u| ≤ (w * ∏ c, (b c : ℝ) ^ d c) * ω := by
  have hsum : ∑ n ∈ T, f (x n) = ∑ k, ∑ n ∈ S k, f (x n) := by
    rw [← Finset.sum_biUnion]
    · apply Finset.sum_congr _ (fun _ _ => rfl)
      ext n
      rw [Finset.mem_biUnion]
      constructor
      · intro hn
        have := hx n hn
        rw [← boxes_union s b d hb, Set.mem_iUnion] at this
        obtain ⟨k, hk⟩ := this
        exact ⟨k, Finset.mem_univ _, (hS2 _ n).2 ⟨hn, hk⟩⟩
      · rintro ⟨k, _, hk⟩
        exact ((hS2 k n).1 hk).1
    · intro k _ k' _ hne
      rw [Function.onFun, Finset.disjoint_left]
      intro n hn hn'
      exact hne (funext fun c => Fin.ext (inCell_unique _ _ _ _ (hb c) _ (((hS2 k n).1 hn).2 c) (((hS2 k' n).1 hn').2 c)))
  have hsub : ∀ k, elementaryBox s b d k ⊆ unitCube s := fun k => by
    rw [← boxes_union s b d hb]; exact Set.subset_iUnion _ k
  have hintk : ∀ k, IntegrableOn f (elementaryBox s b d k) := fun k => hint.mono_set (hsub k)
  have hP : (0 : ℝ) < ∏ c, (b c : ℝ) ^ d c := Finset.prod_pos fun c _ => by have := hb c; positivity
  have hw' : (0 : ℝ) < w := by exact_mod_cast hw
  set P : ℝ := ∏ c, (b c : ℝ) ^ d c with hPdef
  rw [hsum, ← boxes_union s b d hb, integral_iUnion_fintype (box_measurable s b d) (boxes_disjoint s b d hb) hintk, Finset.mul_sum, ← Finset.sum_sub_distrib]
  have hbox : ∀ k : (c : Fin s) → Fin (b c ^ d c), |(∑ n ∈ S k, f (x n)) - w * P * ∫ u in elementaryBox s b d k, f u| ≤ w * ω := by
    intro k
    have hone : ∀ n ∈ S k, |f (x n) - P * ∫ u in elementaryBox s b d k, f u| ≤ ω := by
      intro n hn
      have hmem : x n ∈ elementaryBox s b d k := ((hS2 k n).1 hn).2
      have hc : ∫ u in elementaryBox s b d k, f (x n) = f (x n) * (1 / P) := by
        rw [setIntegral_const, box_volume, smul_eq_mul, mul_comm]
      have hcst : IntegrableOn (fun _ : Fin s → ℝ => f (x n)) (elementaryBox s b d k) := integrableOn_const (box_finite s b d k).ne
      have := norm_setIntegral_le_of_norm_le_const (μ := volume) (s := elementaryBox s b d k) (f := fun u => f (x n) - f u) (C := ω)
        (box_finite s b d k) (fun u hu => by
          rw [Real.norm_eq_abs]
          exact hf _ _ (hsub k hmem) (hsub k hu) (fun c => inCell_close _ _ _ _ _ (hmem c) (hu c)))
      rw [integral_sub hcst (hintk k), hc, box_volume, Real.norm_eq_abs, ← hPdef] at this
      have e : f (x n) - P * ∫ u in elementaryBox s b d k, f u = P * (f (x n) * (1 / P) - ∫ u in elementaryBox s b d k, f u) := by
        field_simp
      rw [e, abs_mul, abs_of_pos hP]
      calc P * |f (x n) * (1 / P) - ∫ u in elementaryBox s b d k, f u| ≤ P * (ω * (1 / P)) := mul_le_mul_of_nonneg_left this hP.le
        _ = ω := by field_simp
    have e : (∑ n ∈ S k, f (x n)) - w * P * ∫ u in elementaryBox s b d k, f u = ∑ n ∈ S k, (f (x n) - P * ∫ u in elementaryBox s b d k, f u) := by
      rw [Finset.sum_sub_distrib, Finset.sum_const, nsmul_eq_mul, hS1, mul_assoc]
    rw [e]
    refine le_trans (Finset.abs_sum_le_sum_abs _ _) (le_trans (Finset.sum_le_card_nsmul _ _ _ hone) ?_)
    rw [nsmul_eq_mul, hS1]
  refine le_trans (Finset.abs_sum_le_sum_abs _ _) (le_trans (Finset.sum_le_sum fun k _ => hbox k) ?_)
  rw [Finset.sum_const, nsmul_eq_mul, Finset.card_univ, Fintype.card_pi]
  simp only [Fintype.card_fin]
  push_cast
  rw [← hPdef]
  apply le_of_eq
  ring

/-- The average over a net differs from the integral by at most the oscillation over elementary boxes. -/
theorem net_average (t m s : ℕ) (x : ℕ → ℕ → ℝ) (hnet : IsNet t m s (2 ^ m) x) (hx : ∀ n, n < 2 ^ m → ∀ c : Fin s, 0 ≤ x n c ∧ x n c < 1)
    (d : Fin s → ℕ) (hd : (∑ c, d c) + t = m) (f : (Fin s → ℝ) → ℝ) (ω : ℝ)
    (hf : ∀ u v, u ∈ unitCube s → v ∈ unitCube s → (∀ c, |u c - v c| ≤ 1 / 2 ^ d c) → |f u - f v| ≤ ω)
    (hint : IntegrableOn f (unitCube s)) :
    |(∑ n ∈ Finset.range (2 ^ m), f (fun c => x n c)) / 2 ^ m - ∫ u in unitCube s, f u| ≤ ω := by
  choose S hS1 hS2 using fun k : (c : Fin s) → Fin (2 ^ d c) => hnet d hd (fun c => k c) (fun c => (k c).isLt)
  have key := equal_boxes_sum s (fun _ => 2) d (fun _ => by omega) (2 ^ t) (Nat.two_pow_pos t) (Finset.range (2 ^ m)) (fun n c => x n c)
    (fun n hn c => hx n (Finset.mem_range.1 hn) c) S hS1 (fun k n => by rw [hS2 k n, Finset.mem_range]; rfl) f ω
    (fun u v hu hv h => hf u v hu hv (fun c => by simpa using h c)) hint
  have hpow : ((2 ^ t : ℕ) : ℝ) * ∏ c : Fin s, ((2 : ℕ) : ℝ) ^ d c = 2 ^ m := by
    rw [Finset.prod_pow_eq_pow_sum]
    push_cast
    rw [← pow_add, ← hd, add_comm]
  rw [hpow] at key
  have hm : (0 : ℝ) < 2 ^ m := by positivity
  have e : (∑ n ∈ Finset.range (2 ^ m), f (fun c => x n c)) / 2 ^ m - ∫ u in unitCube s, f u =
      ((∑ n ∈ Finset.range (2 ^ m), f (fun c => x n c)) - 2 ^ m * ∫ u in unitCube s, f u) / 2 ^ m := by
    field_simp
  rw [e, abs_div, abs_of_pos hm, div_le_iff₀ hm]
  linarith

/-- The digits of a net shared evenly between the coordinates. -/
theorem even_digits (s r : ℕ) (hs : 0 < s) : ∃ d : Fin s → ℕ, ∑ c, d c = r ∧ ∀ c, r / s ≤ d c := by
  refine ⟨fun c => r / s + if c = ⟨0, hs⟩ then r % s else 0, ?_, fun c => Nat.le_add_right _ _⟩
  rw [Finset.sum_add_distrib, Finset.sum_const, Finset.card_univ, Fintype.card_fin, smul_eq_mul, Finset.sum_ite_eq' Finset.univ]
  simp only [Finset.mem_univ, if_true]
  exact Nat.div_add_mod r s

theorem cube_integrable (s : ℕ) (f : (Fin s → ℝ) → ℝ) (hf : ContinuousOn f (Set.Icc 0 1)) : IntegrableOn f (unitCube s) :=
  (hf.integrableOn_compact isCompact_Icc).mono_set (fun _ hu => ⟨fun c => (hu c).1, fun c => (hu c).2.le⟩)

/-- Functions with a bounded rate of change. -/
theorem net_lipschitz (t m s : ℕ) (hs : 0 < s) (htm : t ≤ m) (x : ℕ → ℕ → ℝ) (hnet : IsNet t m s (2 ^ m) x)
    (hx : ∀ n, n < 2 ^ m → ∀ c : Fin s, 0 ≤ x n c ∧ x n c < 1) (f : (Fin s → ℝ) → ℝ) (L : ℝ)
    (hf : ∀ u v, u ∈ unitCube s → v ∈ unitCube s → ∀ δ : ℝ, (∀ c, |u c - v c| ≤ δ) → |f u - f v| ≤ L * δ) (hint : IntegrableOn f (unitCube s)) :
    |(∑ n ∈ Finset.range (2 ^ m), f (fun c => x n c)) / 2 ^ m - ∫ u in unitCube s, f u| ≤ L * (1 / 2 ^ ((m - t) / s)) := by
  obtain ⟨d, hd1, hd2⟩ := even_digits s (m - t) hs
  refine net_average t m s x hnet hx d (by omega) f _ (fun u v hu hv h => hf u v hu hv _ fun c => le_trans (h c) ?_) hint
  exact one_div_le_one_div_of_le (by positivity) (pow_le_pow_right₀ (by norm_num) (hd2 c))

/-- Averages of continuous functions over nets with more and more points tend to the integral. -/
theorem net_limit (t s : ℕ) (hs : 0 < s) (f : (Fin s → ℝ) → ℝ) (hf : ContinuousOn f (Set.Icc 0 1)) (ε : ℝ) (hε : 0 < ε) :
    ∃ m0, ∀ m, m0 ≤ m → ∀ x : ℕ → ℕ → ℝ, IsNet t m s (2 ^ m) x → (∀ n, n < 2 ^ m → ∀ c : Fin s, 0 ≤ x n c ∧ x n c < 1) →
      |(∑ n ∈ Finset.range (2 ^ m), f (fun c => x n c)) / 2 ^ m - ∫ u in unitCube s, f u| ≤ ε := by
  obtain ⟨δ, hδ, hu⟩ := Metric.uniformContinuousOn_iff.1 (isCompact_Icc.uniformContinuousOn_of_continuous hf) ε hε
  obtain ⟨K, hK⟩ := exists_pow_lt_of_lt_one hδ (by norm_num : (1 / 2 : ℝ) < 1)
  refine ⟨t + s * K, fun m hm x hnet hx => ?_⟩
  obtain ⟨d, hd1, hd2⟩ := even_digits s (m - t) hs
  refine net_average t m s x hnet hx d (by omega) f ε (fun u v hu' hv' h => ?_) (cube_integrable s f hf)
  have hKd : ∀ c, K ≤ d c := fun c => le_trans ((Nat.le_div_iff_mul_le hs).2 (by rw [Nat.mul_comm]; omega)) (hd2 c)
  have := hu u ⟨fun c => (hu' c).1, fun c => (hu' c).2.le⟩ v ⟨fun c => (hv' c).1, fun c => (hv' c).2.le⟩ (by
    rw [dist_pi_lt_iff hδ]
    intro c
    rw [Real.dist_eq]
    refine lt_of_le_of_lt (h c) (lt_of_le_of_lt ?_ hK)
    rw [one_div_pow]
    exact one_div_le_one_div_of_le (by positivity) (pow_le_pow_right₀ (by norm_num) (hKd c)))
  rw [Real.dist_eq] at this
  exact this.le

end Lemmas
