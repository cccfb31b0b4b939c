import Verif.Props.RandomOps
import Mathlib.Data.List.GetD

/-! # C103: points of low discrepancy sequences -/

namespace Props
open Model
open scoped BigOperators

namespace RandomOps
open NdArray (Valid)

theorem idxOf_shifted {a b n : Nat} (h1 : b ≤ a) (h2 : a < b + n) : ((List.range n).map (b + ·)).idxOf a = a - b := by
  have hnd : ((List.range n).map (b + ·)).Nodup := List.Nodup.map (fun x y h => Nat.add_left_cancel h) List.nodup_range
  have hl : a - b < ((List.range n).map (b + ·)).length := by simp; omega
  have := hnd.idxOf_getElem (a - b) hl
  rwa [List.getElem_map, List.getElem_range, Nat.add_sub_cancel' h1] at this

theorem idxOf_reversed {a n : Nat} (h : a < n) : (List.range n).reverse.idxOf a = n - 1 - a := by
  have hnd : (List.range n).reverse.Nodup := List.nodup_reverse.2 List.nodup_range
  have hl : n - 1 - a < (List.range n).reverse.length := by simp; omega
  have := hnd.idxOf_getElem (n - 1 - a) hl
  rw [List.getElem_reverse, List.getElem_range] at this
  rwa [show (List.range n).length - 1 - (n - 1 - a) = a by simp; omega] at this

/-- The index before the transposition. -/
theorem quasi_index (x y : List Nat) :
    ((List.range (y.length + x.length)).map fun a => (x ++ y).getD ((quasiPermutation x.length y.length).idxOf a) 0) = y.reverse ++ x := by
  refine List.ext_getElem (by simp) fun a h1 h2 => ?_
  rw [List.getElem_map, List.getElem_range]
  simp only [List.length_map, List.length_range] at h1
  unfold quasiPermutation
  by_cases ha : a < y.length
  · rw [List.idxOf_append_of_notMem (by simp; omega), idxOf_reversed ha, List.length_map, List.length_range, List.getElem_append_left (by simpa using ha), List.getElem_reverse,
      List.getD_append_right _ _ _ _ (by omega), Nat.add_sub_cancel_left, List.getD_eq_getElem _ _ (by omega)]
  · rw [List.idxOf_append_of_mem (List.mem_map.2 ⟨a - y.length, by simp at h2 ⊢; omega, by omega⟩), idxOf_shifted (by omega) (by simp at h2; omega), List.getElem_append_right (by simpa using ha),
      List.getD_append _ _ _ _ (by omega), List.getD_eq_getElem _ _ (by omega)]
    simp

/-- The shape after the transposition. -/
theorem quasi_shape (x y : List Nat) : (quasiPermutation x.length y.length).map (fun a => (y.reverse ++ x).getD a 0) = x ++ y := by
  unfold quasiPermutation
  rw [List.map_append, List.map_map, List.map_reverse]
  congr 1
  · refine List.ext_getElem (by simp) fun a h1 h2 => ?_
    rw [List.getElem_map, List.getElem_range, Function.comp_apply, List.getD_append_right _ _ _ _ (by simp), List.length_reverse, Nat.add_sub_cancel_left,
      List.getD_eq_getElem _ _ h2]
  · rw [List.reverse_eq_iff]
    refine List.ext_getElem (by simp) fun a h1 h2 => ?_
    rw [List.getElem_map, List.getElem_range, List.getD_append _ _ _ _ h2, List.getD_eq_getElem _ _ h2]

/-- The position in the sequence of the point for a sample and an element of the batch. -/
def position (sample batch s b : List Nat) : Nat := flatIndex (batch.reverse ++ sample) (b.reverse ++ s)

theorem valid_reverse {s i : List Nat} (h : Valid s i) : Valid s.reverse i.reverse := List.rel_reverse h

theorem position_lt {sample batch s b : List Nat} (hs : Valid sample s) (hb : Valid batch b) : position sample batch s b < sample.prod * batch.prod := by
  have := NdArray.flat_lt (NdArray.valid_append (valid_reverse hb) hs)
  rwa [List.prod_append, List.prod_reverse, Nat.mul_comm] at this

theorem arrange_get (sample batch : List Nat) (k : Nat) (points : Model.NdArray ℝ) (hp : points.shape = [sample.prod * batch.prod, k]) :
    (quasiArrange sample (batch ++ [k]) points).shape = sample ++ (batch ++ [k]) ∧
    ∀ s b i, Valid sample s → Valid batch b → i < k → (quasiArrange sample (batch ++ [k]) points).get (s ++ (b ++ [i])) = points.get [position sample batch s b, i] := by
  have hsh : (quasiArrange sample (batch ++ [k]) points).shape = sample ++ (batch ++ [k]) := quasi_shape sample (batch ++ [k])
  refine ⟨hsh, fun s b i hs hb hi => ?_⟩
  have hlen : ((points.transpose [1, 0]).reshape ((batch ++ [k]).reverse ++ sample)).shape.length = (b ++ [i]).length + s.length := by
    simp [Model.NdArray.reshape, NdArray.valid_length hs, NdArray.valid_length hb]
    omega
  have hls : sample.length = s.length := (NdArray.valid_length hs).symm
  have hlb : (batch ++ [k]).length = (b ++ [i]).length := by simp [NdArray.valid_length hb]
  have e1 : (quasiArrange sample (batch ++ [k]) points).get (s ++ (b ++ [i])) =
      ((points.transpose [1, 0]).reshape ((batch ++ [k]).reverse ++ sample)).get ((b ++ [i]).reverse ++ s) := by
    unfold quasiArrange
    rw [hls, hlb]
    conv_lhs => unfold Model.NdArray.transpose
    dsimp only
    have := quasi_index s (b ++ [i])
    rw [← hlen] at this
    exact congrArg _ this
  rw [e1, NdArray.reshape_get]
  have e2 : (points.transpose [1, 0]).shape = [k, sample.prod * batch.prod] := by simp [Model.NdArray.transpose, hp]
  have e3 : flatIndex ((batch ++ [k]).reverse ++ sample) ((b ++ [i]).reverse ++ s) = i * (sample.prod * batch.prod) + position sample batch s b := by
    rw [List.reverse_append, List.reverse_append, List.reverse_singleton, List.reverse_singleton, List.append_assoc, List.append_assoc, List.singleton_append, List.singleton_append,
      NdArray.flat_cons, List.prod_append, List.prod_reverse, Nat.mul_comm batch.prod]
    rfl
  have hlt := position_lt hs hb
  rw [e2, e3, NdArray.unflat_two, Nat.add_comm, Nat.add_mul_div_right _ _ (by omega), Nat.div_eq_of_lt hlt, Nat.zero_add, Nat.add_mul_mod_self_right, Nat.mod_eq_of_lt hlt]
  simp [Model.NdArray.transpose, hp, List.range_succ, List.idxOf_cons]

end RandomOps

/-- **C103, points.** Each sample and each element of the batch use one point of the sequence, no point is used twice and all are used. -/
theorem C103_quasi_position (sample batch : List Nat) :
    (∀ s b, List.Forall₂ (· < ·) s sample → List.Forall₂ (· < ·) b batch → RandomOps.position sample batch s b < sample.prod * batch.prod) ∧
    (∀ s b s' b', List.Forall₂ (· < ·) s sample → List.Forall₂ (· < ·) b batch → List.Forall₂ (· < ·) s' sample → List.Forall₂ (· < ·) b' batch →
      RandomOps.position sample batch s b = RandomOps.position sample batch s' b' → s = s' ∧ b = b') ∧
    (∀ p, p < sample.prod * batch.prod → ∃ s b, List.Forall₂ (· < ·) s sample ∧ List.Forall₂ (· < ·) b batch ∧ RandomOps.position sample batch s b = p) := by
  refine ⟨fun s b => RandomOps.position_lt, ?_, ?_⟩
  · intro s b s' b' hs hb hs' hb' h
    have := NdArray.flat_inj (NdArray.valid_append (RandomOps.valid_reverse hb) hs) (NdArray.valid_append (RandomOps.valid_reverse hb') hs') h
    have hl : b.reverse.length = b'.reverse.length := by simp [NdArray.valid_length hb, NdArray.valid_length hb']
    obtain ⟨h1, h2⟩ := List.append_inj this hl
    exact ⟨h2, List.reverse_injective h1⟩
  · intro p hp
    have hp' : p < (batch.reverse ++ sample).prod := by rwa [List.prod_append, List.prod_reverse, Nat.mul_comm]
    obtain ⟨h1, h2⟩ := NdArray.unflat_valid hp'
    obtain ⟨w, hw⟩ : ∃ w, w = unflatIndex (batch.reverse ++ sample) p := ⟨_, rfl⟩
    rw [← hw] at h1 h2
    have h3 : NdArray.Valid batch.reverse (w.take batch.length) := by
      have := List.forall₂_take batch.length h1
      rwa [show batch.length = batch.reverse.length by simp, List.take_left, List.length_reverse] at this
    have h4 : NdArray.Valid sample (w.drop batch.length) := by
      have := List.forall₂_drop batch.length h1
      rwa [show batch.length = batch.reverse.length by simp, List.drop_left, List.length_reverse] at this
    refine ⟨w.drop batch.length, (w.take batch.length).reverse, h4, ?_, ?_⟩
    · have := RandomOps.valid_reverse h3
      rwa [List.reverse_reverse] at this
    · unfold RandomOps.position
      rw [List.reverse_reverse, List.take_append_drop, h2]

/-- **C103, draws from points.** With the types of low discrepancy sequences each drawn vector is the mean plus the scale matrix times the vector of normal quantiles of
the coordinates of one point; the sequence starts at `skip`. -/
theorem C103_quasi (src : RandomSource) (hsrc : src.Valid) (chol : Model.NdArray ℝ → Model.NdArray ℝ) (call : Nat) (sample batch : List Nat) (k : Nat) (hk : 0 < k)
    (mean cov scale : Option (Model.NdArray ℝ)) (seed : Option Seed) (skip : Nat) (hone : cov = none ∨ scale = none)
    (h : RandomOps.Fits batch k mean (mvnScale chol cov scale)) (type : RandomType) (points : Model.NdArray ℝ)
    (ht : (type = .sobol ∧ points = src.sobol k (sample.prod * batch.prod) skip) ∨
      (type = .halton ∧ points = src.halton k ((List.range (sample.prod * batch.prod)).map (skip + ·)) false seed) ∨
      (type = .haltonRandomized ∧ points = src.halton k ((List.range (sample.prod * batch.prod)).map (skip + ·)) true seed)) :
    ∃ r z, multivariateNormal src chol call sample mean cov scale (some type) seed skip = .ok r ∧ r.shape = sample ++ (batch ++ [k]) ∧
      Spec.IsAffineDraw sample batch k (RandomOps.meanValue mean) (RandomOps.scaleValue (mvnScale chol cov scale)) z r.get ∧
      ∀ s b i, List.Forall₂ (· < ·) s sample → List.Forall₂ (· < ·) b batch → i < k →
        z (s ++ (b ++ [i])) = erfinv ((points.get [RandomOps.position sample batch s b, i] - 0.5) * 2) * Real.sqrt 2 := by
  have hn1 : ¬(mean.isNone ∧ cov.isNone ∧ scale.isNone) := by
    rintro ⟨h1, h2, h3⟩
    rw [Option.isNone_iff_eq_none] at h1 h2 h3
    have := h.given
    rw [h1, h2, h3] at this
    simp [mvnScale] at this
  have hn2 : ¬(cov.isSome ∧ scale.isSome) := by
    rintro ⟨h1, h2⟩
    rcases hone with h | h
    · rw [h] at h1; simp at h1
    · rw [h] at h2; simp at h2
  obtain ⟨hb, hd⟩ := RandomOps.fits_batch h
  have hnum : ((batch ++ [k]).reverse ++ sample).prod / k = sample.prod * batch.prod := by
    rw [List.prod_append, List.prod_reverse, List.prod_append, List.prod_singleton, show batch.prod * k * sample.prod = sample.prod * batch.prod * k by ring,
      Nat.mul_div_cancel _ hk]
  have hps : points.shape = [sample.prod * batch.prod, k] := by
    rcases ht with ⟨-, h⟩ | ⟨-, h⟩ | ⟨-, h⟩
    · rw [h, hsrc.sobol]
    · rw [h, hsrc.halton]; simp
    · rw [h, hsrc.halton]; simp
  obtain ⟨ha1, ha2⟩ := RandomOps.arrange_get sample batch k points hps
  obtain ⟨r, h1, h2, h3⟩ := RandomOps.affine_get h ((quasiArrange sample (batch ++ [k]) points).map fun p => erfinv ((p - 0.5) * 2) * Real.sqrt 2) ha1
  refine ⟨r, _, ?_, h2, h3, fun s b i hs hb hi => ?_⟩
  · unfold multivariateNormal
    rw [if_neg hn1, if_neg hn2]
    rcases ht with ⟨rfl, h⟩ | ⟨rfl, h⟩ | ⟨rfl, h⟩
    · simp only [Option.getD_some, mvnQuasi, hb, hd, hnum, if_true]
      rw [← h]
      exact h1
    · simp only [Option.getD_some, mvnQuasi, hb, hd, hnum]
      rw [if_neg (by decide), show decide (RandomType.halton = RandomType.haltonRandomized) = false from rfl, ← h]
      exact h1
    · simp only [Option.getD_some, mvnQuasi, hb, hd, hnum]
      rw [if_neg (by decide), show decide True = true from rfl, ← h]
      exact h1
  · simp only [Model.NdArray.map]
    rw [ha2 s b i hs hb hi]

namespace RandomOps
open Spec

/-- The transformation of L420. -/
noncomputable def quantile (p : ℝ) : ℝ := erfinv ((p - 0.5) * 2) * Real.sqrt 2

theorem quantile_cdf {p : ℝ} (h0 : 0 < p) (h1 : p < 1) : normalCdf (quantile p) = p := by
  obtain ⟨x, hx⟩ := Lemmas.normalCdf_surj p h0 h1
  rw [← Lemmas.ncdf_eq] at hx ⊢
  unfold ncdf at hx ⊢
  unfold quantile
  have hs : Real.sqrt 2 ≠ 0 := by positivity
  have : erf (erfinv ((p - 0.5) * 2)) = (p - 0.5) * 2 := Function.invFun_eq ⟨x / Real.sqrt 2, by linarith⟩
  rw [mul_div_assoc, div_self hs, mul_one, this]
  ring

end RandomOps

open Spec in
/-- **C103, quantile.** The transformation of the coordinates is the quantile function of the standard normal law. -/
theorem C103_quantile (p : ℝ) (h0 : 0 < p) (h1 : p < 1) (x : ℝ) :
    normalCdf (erfinv ((p - 0.5) * 2) * Real.sqrt 2) = p ∧ (erfinv ((p - 0.5) * 2) * Real.sqrt 2 = x ↔ normalCdf x = p) := by
  have h := RandomOps.quantile_cdf h0 h1
  unfold RandomOps.quantile at h
  refine ⟨h, fun hx => hx ▸ h, fun hx => ?_⟩
  exact Lemmas.normalCdf_strictMono.injective (h.trans hx.symm)

open MeasureTheory ProbabilityTheory Spec in
/-- **C103, law of the quantiles.** Of a uniform number on the unit interval the transformation makes a standard normal number. -/
theorem C103_quantile_law : ((volume : Measure ℝ).restrict (Set.Ioo 0 1)).map (fun p => erfinv ((p - 0.5) * 2) * Real.sqrt 2) = gaussianReal 0 1 := by
  have hprob : IsProbabilityMeasure ((volume : Measure ℝ).restrict (Set.Ioo 0 1)) := ⟨by simp⟩
  have hmono : MonotoneOn RandomOps.quantile (Set.Ioo 0 1) := by
    intro a ha b hb hab
    rw [← Lemmas.normalCdf_strictMono.le_iff_le, RandomOps.quantile_cdf ha.1 ha.2, RandomOps.quantile_cdf hb.1 hb.2]
    exact hab
  have hm : AEMeasurable RandomOps.quantile ((volume : Measure ℝ).restrict (Set.Ioo 0 1)) := aemeasurable_restrict_of_monotoneOn measurableSet_Ioo hmono
  have hprob2 : IsProbabilityMeasure (((volume : Measure ℝ).restrict (Set.Ioo 0 1)).map RandomOps.quantile) := Measure.isProbabilityMeasure_map hm
  change ((volume : Measure ℝ).restrict (Set.Ioo 0 1)).map RandomOps.quantile = _
  refine Measure.eq_of_cdf _ _ ?_
  ext x
  rw [cdf_eq_real, measureReal_def, Measure.map_apply_of_aemeasurable hm measurableSet_Iic, Measure.restrict_apply' measurableSet_Ioo]
  have hset : RandomOps.quantile ⁻¹' Set.Iic x ∩ Set.Ioo 0 1 = Set.Ioc 0 (normalCdf x) := by
    ext p
    simp only [Set.mem_inter_iff, Set.mem_preimage, Set.mem_Iic, Set.mem_Ioo, Set.mem_Ioc]
    have := Lemmas.normalCdf_lt_one x
    constructor
    · rintro ⟨h, h0, h1⟩
      rw [← Lemmas.normalCdf_strictMono.le_iff_le, RandomOps.quantile_cdf h0 h1] at h
      exact ⟨h0, h⟩
    · rintro ⟨h0, h⟩
      have h1 : p < 1 := by linarith
      refine ⟨?_, h0, h1⟩
      rwa [← Lemmas.normalCdf_strictMono.le_iff_le, RandomOps.quantile_cdf h0 h1]
  rw [hset, Real.volume_Ioc, sub_zero, ENNReal.toReal_ofReal (Lemmas.normalCdf_pos x).le]
  rfl

/-- **C103, uniform draws.** The tensor of uniform draws has the shape of the samples followed by the dimension; for the types of low discrepancy sequences each sample is one point,
in the order of the samples, the sequence starts at `skip`. Antithetic draws and stateless draws without seed are refused. -/
theorem C103_uniform (src : RandomSource) (hsrc : src.Valid) (call dim : Nat) (sample : List Nat) (seed : Option Seed) (skip : Nat) :
    uniformDraws src call dim sample none seed skip = .ok (src.uniform call seed (sample ++ [dim])) ∧
    (∀ s, uniformDraws src call dim sample (some .stateless) (some s) skip = .ok (src.statelessUniform s (sample ++ [dim]))) ∧
    (∃ e, uniformDraws src call dim sample (some .stateless) none skip = .error e) ∧
    (∃ e, uniformDraws src call dim sample (some .pseudoAntithetic) seed skip = .error e) ∧
    ∀ type points, ((type = .sobol ∧ points = src.sobol dim sample.prod skip) ∨
      (type = .halton ∧ points = src.halton dim ((List.range sample.prod).map (skip + ·)) false seed) ∨
      (type = .haltonRandomized ∧ points = src.halton dim ((List.range sample.prod).map (skip + ·)) true seed)) →
      ∃ r, uniformDraws src call dim sample (some type) seed skip = .ok r ∧ r.shape = sample ++ [dim] ∧
        ∀ s i, List.Forall₂ (· < ·) s sample → i < dim → r.get (s ++ [i]) = points.get [flatIndex sample s, i] := by
  refine ⟨rfl, fun s => rfl, ⟨_, rfl⟩, ⟨_, rfl⟩, fun type points ht => ?_⟩
  have hps : points.shape = [sample.prod, dim] := by
    rcases ht with ⟨-, h⟩ | ⟨-, h⟩ | ⟨-, h⟩
    · rw [h, hsrc.sobol]
    · rw [h, hsrc.halton]; simp
    · rw [h, hsrc.halton]; simp
  refine ⟨points.reshape (sample ++ [dim]), ?_, rfl, fun s i hs hi => ?_⟩
  · rcases ht with ⟨rfl, h⟩ | ⟨rfl, h⟩ | ⟨rfl, h⟩ <;> (subst h; rfl)
  · rw [NdArray.reshape_get, hps, NdArray.flat_append hs]
    simp only [List.prod_singleton, flatIndex, List.prod_nil, Nat.mul_one, Nat.add_zero]
    rw [NdArray.unflat_two, Nat.add_comm, Nat.add_mul_div_right _ _ (by omega), Nat.div_eq_of_lt hi, Nat.zero_add, Nat.add_mul_mod_self_right, Nat.mod_eq_of_lt hi]

/-- **C103, deviation.** `uniform` does not refuse the antithetic type with a seed: it returns the points of the Halton sequence, which do not depend on a seed. -/
theorem C103_uniform_deviates (src : RandomSource) (call dim : Nat) (sample : List Nat) (seed : Option Seed) (skip : Nat) :
    uniformDraws src call dim sample (some .statelessAntithetic) seed skip = uniformDraws src call dim sample (some .halton) seed skip := rfl

/-- Two samples for a batch of three take the six points in this order. -/
example : [[0, 0], [0, 1], [0, 2], [1, 0], [1, 1], [1, 2]].map (fun l => RandomOps.position [2] [3] [l.getD 0 0] [l.getD 1 0]) = [0, 2, 4, 1, 3, 5] := by decide

/-- The median is taken to zero. -/
example : erfinv ((0.5 - 0.5) * 2) * Real.sqrt 2 = 0 := (C103_quantile 0.5 (by norm_num) (by norm_num) 0).2.2 (by rw [Lemmas.normalCdf_zero]; norm_num)

end Props
