import Verif.Lemmas.NetIntegral
import Verif.Props.Halton
import Mathlib.Data.Nat.GCD.BigOperators
import Mathlib.Data.Nat.Factorization.Basic
import Mathlib.RingTheory.Coprime.Lemmas
import Mathlib.Topology.Order.Compact

/-! Halton points in several dimensions. -/

namespace Lemmas
open Model Spec MeasureTheory

/-- Reversed digits with coprime bases: among consecutive indices every combination of leading digits occurs once. -/
theorem rev_boxes (s : ℕ) (b d : Fin s → ℕ) (S : Fin s → ℕ) (π : Fin s → ℕ → ℕ → ℕ) (hb : ∀ c, 0 < b c) (hd : ∀ c, d c ≤ S c)
    (hπ : ∀ c, DigitPerms (b c) (S c) (π c)) (hcop : ∀ c c', c ≠ c' → Nat.Coprime (b c) (b c')) (a : ℕ) (k : Fin s → ℕ) (hk : ∀ c, k c < b c ^ d c) :
    ∃! n, (a ≤ n ∧ n < a + ∏ c, b c ^ d c) ∧ ∀ c, rev (b c) (π c) n (d c) = k c := by
  set M := ∏ c, b c ^ d c with hM
  let g : Fin M → ((c : Fin s) → Fin (b c ^ d c)) := fun i c => ⟨rev (b c) (π c) (a + i.val) (d c), rev_lt _ (S c) _ (hb c) (hπ c) _ _ (hd c)⟩
  have hmod : ∀ n n' : ℕ, (∀ c, rev (b c) (π c) n (d c) = rev (b c) (π c) n' (d c)) → n ≡ n' [MOD M] := by
    intro n n' h
    have hc : ∀ c, n ≡ n' [MOD b c ^ d c] := fun c => rev_inj _ (S c) _ (hb c) (hπ c) _ _ _ (hd c) (h c)
    rw [Nat.modEq_iff_dvd]
    rw [hM]
    push_cast
    refine Finset.prod_dvd_of_coprime (fun c _ c' _ hne => ?_) (fun c _ => ?_)
    · have : IsCoprime (b c : ℤ) (b c' : ℤ) := Nat.isCoprime_iff_coprime.2 (hcop c c' hne)
      exact this.pow
    · have := (Nat.modEq_iff_dvd).1 (hc c)
      push_cast at this
      exact this
  have hinj : Function.Injective g := by
    intro i j h
    have h' : ∀ c, rev (b c) (π c) (a + i.val) (d c) = rev (b c) (π c) (a + j.val) (d c) := fun c => congrArg Fin.val (congrFun h c)
    have := (Nat.ModEq.add_left_cancel' a (hmod _ _ h'))
    rw [Nat.ModEq, Nat.mod_eq_of_lt i.isLt, Nat.mod_eq_of_lt j.isLt] at this
    exact Fin.ext this
  have hbij : Function.Bijective g := by
    rw [Fintype.bijective_iff_injective_and_card]
    refine ⟨hinj, ?_⟩
    rw [Fintype.card_fin, Fintype.card_pi]
    simp only [Fintype.card_fin]
    exact hM
  obtain ⟨i, hi⟩ := hbij.2 (fun c => ⟨k c, hk c⟩)
  have hik : ∀ c, rev (b c) (π c) (a + i.val) (d c) = k c := fun c => congrArg Fin.val (congrFun hi c)
  refine ⟨a + i.val, ⟨⟨by omega, by have := i.isLt; omega⟩, hik⟩, ?_⟩
  rintro n ⟨⟨h1, h2⟩, h3⟩
  have : (⟨n - a, by omega⟩ : Fin M) = i := by
    apply hinj
    funext c
    apply Fin.ext
    show rev (b c) (π c) (a + (n - a)) (d c) = rev (b c) (π c) (a + i.val) (d c)
    rw [hik c, show a + (n - a) = n by omega, h3 c]
  rw [← this]
  show n = a + (n - a)
  omega

/-- Points of which every run of `M` consecutive ones has one in each elementary box: the sum over the first `N`. -/
theorem runs_sum (s : ℕ) (b d : Fin s → ℕ) (hb : ∀ c, 0 < b c) (N : ℕ) (x : ℕ → Fin s → ℝ) (hx : ∀ n, n < N → x n ∈ unitCube s)
    (hbox : ∀ a, a + ∏ c, b c ^ d c ≤ N → ∀ k : (c : Fin s) → Fin (b c ^ d c),
      ∃! n, (a ≤ n ∧ n < a + ∏ c, b c ^ d c) ∧ x n ∈ elementaryBox s b d k)
    (f : (Fin s → ℝ) → ℝ) (ω B : ℝ) (hω : 0 ≤ ω)
    (hf : ∀ u v, u ∈ unitCube s → v ∈ unitCube s → (∀ c, |u c - v c| ≤ 1 / (b c : ℝ) ^ d c) → |f u - f v| ≤ ω)
    (hB : ∀ u, u ∈ unitCube s → |f u| ≤ B) (hI : |∫ u in unitCube s, f u| ≤ B) (hint : IntegrableOn f (unitCube s)) :
    |(∑ n ∈ Finset.range N, f (x n)) - N * ∫ u in unitCube s, f u| ≤ N * ω + 2 * B * ∏ c, (b c : ℝ) ^ d c := by
  set M := ∏ c, b c ^ d c with hM
  have hMr : (∏ c, (b c : ℝ) ^ d c) = (M : ℝ) := by rw [hM]; push_cast; rfl
  have hMpos : 0 < M := Finset.prod_pos fun c _ => Nat.pow_pos (hb c)
  set I := ∫ u in unitCube s, f u with hIdef
  have hB0 : 0 ≤ B := le_trans (abs_nonneg _) hI
  rw [hMr]
  have hblock : ∀ a, a + M ≤ N → |(∑ n ∈ Finset.Ico a (a + M), f (x n)) - M * I| ≤ M * ω := by
    intro a ha
    choose n hn hu using fun k => hbox a ha k
    have := equal_boxes_sum s b d hb 1 (by omega) (Finset.Ico a (a + M)) x (fun n hn => hx n (by rw [Finset.mem_Ico] at hn; omega))
      (fun k => {n k}) (fun k => Finset.card_singleton _) (fun k m => by
        rw [Finset.mem_singleton, Finset.mem_Ico]
        constructor
        · rintro rfl; exact hn k
        · intro h; exact hu k m h) f ω hf hint
    rw [hMr, Nat.cast_one, one_mul] at this
    exact this
  have hq : ∀ q, q * M ≤ N → |(∑ n ∈ Finset.range (q * M), f (x n)) - (q * M : ℕ) * I| ≤ (q * M : ℕ) * ω := by
    intro q
    induction q with
    | zero => intro _; simp
    | succ q ih =>
      intro h
      have e : (q + 1) * M = q * M + M := by ring
      rw [e] at h ⊢
      have h1 := ih (by omega)
      have h2 := hblock (q * M) h
      rw [← Finset.sum_range_add_sum_Ico _ (Nat.le_add_right (q * M) M)]
      push_cast at h1 ⊢
      rw [abs_le] at *
      constructor <;> nlinarith [h1.1, h1.2, h2.1, h2.2]
  have hN := Nat.div_add_mod N M
  have hlast := hq (N / M) (Nat.div_mul_le_self N M)
  have hle : N / M * M ≤ N := Nat.div_mul_le_self N M
  rw [← Finset.sum_range_add_sum_Ico _ hle]
  have hr : |∑ n ∈ Finset.Ico (N / M * M) N, f (x n)| ≤ M * B := by
    refine le_trans (Finset.abs_sum_le_sum_abs _ _) (le_trans (Finset.sum_le_card_nsmul _ _ B (fun n hn => hB _ (hx n (Finset.mem_Ico.1 hn).2))) ?_)
    rw [nsmul_eq_mul, Nat.card_Ico]
    apply mul_le_mul_of_nonneg_right _ hB0
    have : N - N / M * M ≤ M := by
      have := Nat.mod_lt N hMpos
      have e : M * (N / M) = N / M * M := Nat.mul_comm _ _
      omega
    exact_mod_cast this
  have hr2 : |((N : ℝ) - (N / M * M : ℕ)) * I| ≤ M * B := by
    rw [abs_mul]
    refine mul_le_mul ?_ hI (abs_nonneg _) (by positivity)
    rw [← Nat.cast_sub hle, abs_of_nonneg (by positivity)]
    have : N - N / M * M ≤ M := by
      have := Nat.mod_lt N hMpos
      have e : M * (N / M) = N / M * M := Nat.mul_comm _ _
      omega
    exact_mod_cast this
  have hω' : ((N / M * M : ℕ) : ℝ) * ω ≤ N * ω := mul_le_mul_of_nonneg_right (by exact_mod_cast hle) hω
  generalize (∑ n ∈ Finset.range (N / M * M), f (x n)) = A at *
  generalize (∑ n ∈ Finset.Ico (N / M * M) N, f (x n)) = R at *
  generalize ((N / M * M : ℕ) : ℝ) = Q at *
  rw [abs_le] at *
  constructor <;> nlinarith [hlast.1, hlast.2, hr.1, hr.2, hr2.1, hr2.2]

end Lemmas
