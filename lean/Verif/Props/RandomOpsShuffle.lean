import Verif.Props.RandomOpsQuasi
import Mathlib.Data.Fin.Tuple.Sort
import Mathlib.MeasureTheory.Measure.Lebesgue.EqHaar

/-! # C103: the random shuffle -/

namespace Props
open Model

namespace RandomOps
open MeasureTheory

theorem argsort_perm (n : Nat) (u : Nat → ℝ) : (argsortFn n u).Perm (List.range n) := List.perm_insertionSort _ _

theorem argsort_pairwise (n : Nat) (u : Nat → ℝ) : (argsortFn n u).Pairwise (fun i j => u i ≤ u j) := by
  haveI : Std.Total (fun i j : Nat => u i ≤ u j) := ⟨fun i j => le_total _ _⟩
  haveI : IsTrans Nat (fun i j => u i ≤ u j) := ⟨fun i j k => le_trans⟩
  exact List.pairwise_insertionSort _ _

/-- The order found by the sort. -/
theorem argsort_eq {n : Nat} (u : Nat → ℝ) (σ : Equiv.Perm (Fin n)) (h : StrictMono fun i : Fin n => u (σ i).1) : argsortFn n u = List.ofFn fun i => (σ i).1 := by
  have hinj : ∀ a b, a < n → b < n → u a = u b → a = b := by
    intro a b ha hb hab
    have := h.injective (a₁ := σ.symm ⟨a, ha⟩) (a₂ := σ.symm ⟨b, hb⟩) (by simpa using hab)
    simpa using this
  have hperm : (List.ofFn fun i => (σ i).1).Perm (List.range n) := by
    refine (List.perm_ext_iff_of_nodup ?_ List.nodup_range).2 fun a => ?_
    · exact List.nodup_ofFn.2 fun i j hij => σ.injective (Fin.ext hij)
    · simp only [List.mem_ofFn, List.mem_range]
      constructor
      · rintro ⟨i, rfl⟩
        exact (σ i).2
      · intro ha
        exact ⟨σ.symm ⟨a, ha⟩, by simp⟩
  refine List.Perm.eq_of_pairwise ?_ (argsort_pairwise n u) ?_ ((argsort_perm n u).trans hperm.symm)
  · intro a b ha hb h1 h2
    have ha' := List.mem_range.1 ((argsort_perm n u).subset ha)
    have hb' := List.mem_range.1 (hperm.subset hb)
    exact hinj a b ha' hb' (le_antisymm h1 h2)
  · rw [List.pairwise_ofFn]
    intro i j hij
    exact (h hij).le

/-- The law of `n` independent uniform numbers. -/
noncomputable def uniforms (n : Nat) : Measure (Fin n → ℝ) := Measure.pi fun _ => (volume : Measure ℝ).restrict (Set.Ioo 0 1)

instance uniformUnit : IsProbabilityMeasure ((volume : Measure ℝ).restrict (Set.Ioo 0 1)) := ⟨by simp⟩

instance uniformsUnit (n : Nat) : IsProbabilityMeasure (uniforms n) := by
  unfold uniforms
  infer_instance

theorem ties_null (n : Nat) : uniforms n {u | ¬Function.Injective u} = 0 := by
  have hsub : {u : Fin n → ℝ | ¬Function.Injective u} ⊆ ⋃ i : Fin n, ⋃ j : Fin n, {u | i ≠ j ∧ u i = u j} := by
    intro u hu
    simp only [Set.mem_setOf_eq, Function.Injective, not_forall] at hu
    obtain ⟨i, j, h1, h2⟩ := hu
    simp only [Set.mem_iUnion, Set.mem_setOf_eq]
    exact ⟨i, j, h2, h1⟩
  refine measure_mono_null hsub ?_
  refine measure_iUnion_null fun i => measure_iUnion_null fun j => ?_
  by_cases hij : i = j
  · simp [hij]
  · have hv : (volume : Measure (Fin n → ℝ)) {u | i ≠ j ∧ u i = u j} = 0 := by
      obtain ⟨l, hl⟩ : ∃ l : (Fin n → ℝ) →ₗ[ℝ] ℝ, l = LinearMap.proj (R := ℝ) (φ := fun _ : Fin n => ℝ) i - LinearMap.proj (R := ℝ) (φ := fun _ : Fin n => ℝ) j := ⟨_, rfl⟩
      have hne : LinearMap.ker l ≠ ⊤ := by
        intro htop
        have : Pi.single i (1 : ℝ) ∈ LinearMap.ker l := htop ▸ Submodule.mem_top
        rw [LinearMap.mem_ker, hl] at this
        simp [Ne.symm hij] at this
      have := Measure.addHaar_submodule (volume : Measure (Fin n → ℝ)) _ hne
      refine measure_mono_null ?_ this
      rintro u ⟨-, hu⟩
      rw [SetLike.mem_coe, LinearMap.mem_ker, hl]
      simp [hu]
    unfold uniforms
    rw [← Measure.restrict_pi_pi]
    exact measure_mono_null (fun x hx => hx) (Measure.absolutelyContinuous_of_le Measure.restrict_le_self hv)

def ordered {n : Nat} (σ : Equiv.Perm (Fin n)) : Set (Fin n → ℝ) := {u | StrictMono (u ∘ σ)}

theorem ordered_measurable {n : Nat} (σ : Equiv.Perm (Fin n)) : MeasurableSet (ordered σ) := by
  have : ordered σ = ⋂ i, ⋂ j, {u : Fin n → ℝ | i < j → u (σ i) < u (σ j)} := by
    ext u
    simp only [ordered, Set.mem_setOf_eq, Set.mem_iInter, StrictMono, Function.comp_apply]
  rw [this]
  refine MeasurableSet.iInter fun i => MeasurableSet.iInter fun j => ?_
  by_cases hij : i < j
  · simp only [hij, forall_true_left]
    exact measurableSet_lt (measurable_pi_apply _) (measurable_pi_apply _)
  · simp [hij]

theorem ordered_eq {n : Nat} (σ : Equiv.Perm (Fin n)) : uniforms n (ordered σ) = uniforms n (ordered 1) := by
  have h := measurePreserving_arrowCongr' (fun _ : Fin n => (volume : Measure ℝ).restrict (Set.Ioo 0 1)) (fun _ : Fin n => (volume : Measure ℝ).restrict (Set.Ioo 0 1))
    σ.symm (MeasurableEquiv.refl ℝ) (fun _ => MeasurePreserving.id _)
  have := h.measure_preimage (ordered_measurable (1 : Equiv.Perm (Fin n))).nullMeasurableSet
  unfold uniforms
  rw [← this]
  rfl

theorem ordered_disjoint {n : Nat} {σ τ : Equiv.Perm (Fin n)} {u : Fin n → ℝ} (h1 : u ∈ ordered σ) (h2 : u ∈ ordered τ) : σ = τ := by
  have hu : Function.Injective u := by
    have := h1.injective.comp σ.symm.injective
    rwa [Function.comp_assoc, Equiv.self_comp_symm] at this
  have : u ∘ σ = u ∘ τ := (h1.range_inj h2).1 (by rw [Set.range_comp, Set.range_comp, σ.surjective.range_eq, τ.surjective.range_eq])
  ext i
  exact congrArg Fin.val (hu (congrFun this i))

theorem ordered_measure {n : Nat} (σ : Equiv.Perm (Fin n)) : uniforms n (ordered σ) = 1 / (n.factorial : ENNReal) := by
  have hcover : uniforms n (⋃ σ : Equiv.Perm (Fin n), ordered σ) = 1 := by
    rw [← measure_univ (μ := uniforms n)]
    refine measure_congr ?_
    rw [ae_eq_univ]
    refine measure_mono_null (fun u hu => ?_) (ties_null n)
    intro hinj
    refine hu (Set.mem_iUnion.2 ⟨Tuple.sort u, ?_⟩)
    exact (Tuple.monotone_sort u).strictMono_of_injective (hinj.comp (Tuple.sort u).injective)
  rw [measure_iUnion (fun σ τ hne => Set.disjoint_left.2 fun u h1 h2 => hne (ordered_disjoint h1 h2)) ordered_measurable, tsum_fintype] at hcover
  rw [Finset.sum_congr rfl fun σ _ => ordered_eq σ, Finset.sum_const, Finset.card_univ, Fintype.card_perm, Fintype.card_fin, nsmul_eq_mul] at hcover
  rw [ordered_eq]
  exact ENNReal.eq_div_iff (by simp [Nat.factorial_ne_zero]) (by simp) |>.2 hcover

end RandomOps

/-- **C103, shuffle.** The result has the same entries, in another order, and the same seed gives the same order, namely that of the drawn numbers. -/
theorem C103_shuffle {α : Type} (src : RandomSource) (input : List α) (seed : Seed) :
    (statelessShuffle src input seed).Perm (input.map some) ∧
    ∃ order : List Nat, order.Perm (List.range input.length) ∧
      order.Pairwise (fun i j => (src.statelessUniform seed [input.length]).get [i] ≤ (src.statelessUniform seed [input.length]).get [j]) ∧
      statelessShuffle src input seed = order.map fun i => input[i]? := by
  refine ⟨?_, _, RandomOps.argsort_perm _ _, RandomOps.argsort_pairwise _ _, rfl⟩
  have h := (RandomOps.argsort_perm input.length fun i => (src.statelessUniform seed [input.length]).get [i]).map fun i => input[i]?
  have e : (List.range input.length).map (fun i => input[i]?) = input.map some := by
    refine List.ext_getElem (by simp) fun i h1 h2 => ?_
    simp
  rwa [e] at h

open MeasureTheory in
/-- **C103, law of the shuffle.** Where the drawn numbers are independent and uniform, each order of different entries has the same probability. -/
theorem C103_shuffle_law {Ω : Type*} [MeasurableSpace Ω] (P : Measure Ω) {α : Type} (src : Ω → RandomSource) (input : List α) (hnd : input.Nodup) (seed : Seed)
    (hm : Measurable fun ω (i : Fin input.length) => ((src ω).statelessUniform seed [input.length]).get [i.1])
    (hu : P.map (fun ω (i : Fin input.length) => ((src ω).statelessUniform seed [input.length]).get [i.1]) =
      Measure.pi fun _ => (volume : Measure ℝ).restrict (Set.Ioo 0 1)) (σ : Equiv.Perm (Fin input.length)) :
    P {ω | statelessShuffle (src ω) input seed = List.ofFn fun i => some (input.get (σ i))} = 1 / (input.length.factorial : ENNReal) := by
  obtain ⟨U, hU⟩ : ∃ U : Ω → Fin input.length → ℝ, U = fun ω i => ((src ω).statelessUniform seed [input.length]).get [i.1] := ⟨_, rfl⟩
  rw [← hU] at hm hu
  have key : ∀ ω τ, U ω ∈ RandomOps.ordered τ → statelessShuffle (src ω) input seed = List.ofFn fun i => some (input.get (τ i)) := by
    intro ω τ h
    have := RandomOps.argsort_eq (fun i => ((src ω).statelessUniform seed [input.length]).get [i]) τ (by rw [hU] at h; exact h)
    unfold statelessShuffle
    dsimp only
    rw [this, List.map_ofFn]
    congr 1
    funext i
    simp
  have hnull : P (U ⁻¹' {u | ¬Function.Injective u}) = 0 := by
    have h0 := RandomOps.ties_null input.length
    unfold RandomOps.uniforms at h0
    rw [← hu] at h0
    exact (Measure.tendsto_ae_map hm.aemeasurable).eventually (measure_eq_zero_iff_ae_notMem.1 h0) |> fun h => measure_eq_zero_iff_ae_notMem.2 h
  have hae : {ω | statelessShuffle (src ω) input seed = List.ofFn fun i => some (input.get (σ i))} =ᵐ[P] U ⁻¹' RandomOps.ordered σ := by
    filter_upwards [measure_eq_zero_iff_ae_notMem.1 hnull] with ω hω
    have hinj : Function.Injective (U ω) := by
      by_contra hc
      exact hω hc
    refine propext ⟨fun h => ?_, fun h => key ω σ h⟩
    have hsort : U ω ∈ RandomOps.ordered (Tuple.sort (U ω)) := (Tuple.monotone_sort (U ω)).strictMono_of_injective (hinj.comp (Tuple.sort (U ω)).injective)
    have h2 : statelessShuffle (src ω) input seed = List.ofFn fun i => some (input.get (σ i)) := h
    rw [key ω _ hsort] at h2
    have h3 := List.ofFn_injective h2
    have : Tuple.sort (U ω) = σ := by
      ext i
      have := Option.some.inj (congrFun h3 i)
      exact congrArg Fin.val (List.nodup_iff_injective_get.1 hnd this)
    exact this ▸ hsort
  rw [measure_congr hae, ← Measure.map_apply hm (RandomOps.ordered_measurable σ), hu]
  exact RandomOps.ordered_measure σ

/-- With growing numbers nothing is moved. -/
example : statelessShuffle RandomOps.exampleSource ["a", "b", "c"] [1, 2] = [some "a", some "b", some "c"] := by
  have h : argsortFn 3 (fun i => (RandomOps.exampleSource.statelessUniform [1, 2] [3]).get [i]) = [0, 1, 2] := by
    refine (RandomOps.argsort_eq _ (1 : Equiv.Perm (Fin 3)) fun i j hij => ?_).trans rfl
    simpa [RandomOps.exampleSource] using hij
  unfold statelessShuffle
  rw [show ["a", "b", "c"].length = 3 from rfl]
  dsimp only
  rw [h]
  rfl

end Props
