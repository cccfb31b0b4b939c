import Verif.Model.RandomOps
import Verif.Spec.RandomOps
import Verif.Lemmas.NdArray
import Verif.Lemmas.Heston
import Mathlib.Probability.Distributions.Gaussian.Multivariate
import Mathlib.Algebra.BigOperators.Ring.Finset

/-! # C103: normal and uniform draws -/

namespace Props
open Model
open scoped BigOperators

namespace RandomOps
open NdArray (Valid)

/-- The mean of an element of the batch. -/
def meanValue (mean : Option (Model.NdArray ℝ)) (b : List Nat) (i : Nat) : ℝ :=
  match mean with
  | none => 0
  | some m => m.get (b ++ [i])

/-- The scale of an element of the batch: matrices with fewer batch dimensions are shared. -/
def scaleValue (scale : Option (Model.NdArray ℝ)) (b : List Nat) (i j : Nat) : ℝ :=
  match scale with
  | none => if i = j then 1 else 0
  | some l => l.get (b.drop (b.length + 2 - l.shape.length) ++ [i, j])

/-- The shapes of mean and scale fit to the batch and the dimension. -/
structure Fits (batch : List Nat) (k : Nat) (mean scale : Option (Model.NdArray ℝ)) : Prop where
  mean_shape : ∀ m, mean = some m → m.shape = batch ++ [k]
  scale_shape : ∀ l, scale = some l → ∃ p q, batch = p ++ q ∧ l.shape = q ++ [k, k] ∧ (mean = none → p = [])
  given : mean ≠ none ∨ scale ≠ none

theorem fits_batch {batch : List Nat} {k : Nat} {mean scale : Option (Model.NdArray ℝ)} (h : Fits batch k mean scale) :
    mvnBatch mean scale = batch ++ [k] ∧ mvnDim mean scale = k := by
  cases mean with
  | some m => simp [mvnBatch, mvnDim, h.mean_shape m rfl]
  | none =>
    cases scale with
    | none => rcases h.given with h | h <;> exact absurd rfl h
    | some l =>
      obtain ⟨p, q, h1, h2, h3⟩ := h.scale_shape l rfl
      have : p = [] := h3 rfl
      subst this
      simp only [List.nil_append] at h1
      simp only [mvnBatch, mvnDim, Option.map_some, Option.getD_some, h2, h1]
      constructor
      · rw [show q ++ [k, k] = (q ++ [k]) ++ [k] by simp, List.dropLast_concat]
      · rw [show q ++ [k, k] = (q ++ [k]) ++ [k] by simp]
        simp

theorem valid_one {i k : Nat} (h : i < k) : Valid [k] [i] := .cons h .nil

/-- `mean + scale z`, entry by entry. -/
theorem affine_get {sample batch : List Nat} {k : Nat} {mean scale : Option (Model.NdArray ℝ)} (h : Fits batch k mean scale) (z : Model.NdArray ℝ)
    (hz : z.shape = sample ++ (batch ++ [k])) :
    ∃ r, mvnAffine mean scale z = .ok r ∧ r.shape = sample ++ (batch ++ [k]) ∧
      Spec.IsAffineDraw sample batch k (meanValue mean) (scaleValue scale) z.get r.get := by
  have hx : ∃ x : Model.NdArray ℝ, mvnScaled scale z = .ok x ∧ x.shape = sample ++ (batch ++ [k]) ∧
      ∀ s b i, Valid sample s → Valid batch b → i < k → x.get (s ++ (b ++ [i])) = ∑ j ∈ Finset.range k, scaleValue scale b i j * z.get (s ++ (b ++ [j])) := by
    cases hsc : scale with
    | none =>
      refine ⟨z, rfl, hz, fun s b i _ _ hi => ?_⟩
      simp only [scaleValue]
      rw [Finset.sum_eq_single i]
      · simp
      · intro j _ hj
        rw [if_neg (Ne.symm hj), zero_mul]
      · intro hn
        exact absurd (Finset.mem_range.2 hi) hn
    | some l =>
      obtain ⟨p, q, h1, h2, -⟩ := h.scale_shape l hsc
      have e1 : l.shape.getLastD 0 = k := by rw [h2, show q ++ [k, k] = (q ++ [k]) ++ [k] by simp]; simp
      have e2 : l.shape.dropLast = q ++ [k] := by rw [h2, show q ++ [k, k] = (q ++ [k]) ++ [k] by simp, List.dropLast_concat]
      have e3 : l.shape.dropLast.getLastD 0 = k := by rw [e2]; simp
      have e4 : l.shape.dropLast.dropLast = q := by rw [e2, List.dropLast_concat]
      have e5 : z.shape.dropLast = sample ++ (p ++ q) := by
        rw [hz, h1, ← List.append_assoc, List.dropLast_concat]
      have e6 : z.shape.getLastD 0 = k := by rw [hz, ← List.append_assoc]; simp
      have e7 : broadcastShape q (sample ++ (p ++ q)) = some (sample ++ (p ++ q)) := by
        rw [← List.append_assoc]
        exact (NdArray.broadcastShape_suffix _ _).1
      refine ⟨_, by simp only [mvnScaled, Model.NdArray.matvec, e1, e3, e4, e5, e6, e7]; exact if_neg (not_not.2 rfl), by simp [h1], ?_⟩
      intro s b i hs hb hi
      dsimp only
      refine Finset.sum_congr rfl fun j hj => ?_
      have hb' : b = b.take p.length ++ b.drop p.length := (List.take_append_drop _ _).symm
      have hbl : b.length = p.length + q.length := by rw [NdArray.valid_length hb, h1, List.length_append]
      have hv2 : Valid q (b.drop p.length) := by
        rw [h1] at hb
        have := List.forall₂_drop p.length hb
        rwa [List.drop_left] at this
      have d1 : (s ++ (b ++ [i])).dropLast = s ++ b := by rw [← List.append_assoc, List.dropLast_concat]
      have d2 : (s ++ (b ++ [i])).getLastD 0 = i := by rw [← List.append_assoc]; simp
      rw [d1, d2]
      have d3 : broadcastIndex q (s ++ b) = b.drop p.length := by
        conv_lhs => rw [hb', ← List.append_assoc]
        exact NdArray.broadcastIndex_suffix hv2
      have d4 : broadcastIndex (sample ++ (p ++ q)) (s ++ b) = s ++ b := by
        refine NdArray.broadcastIndex_self ?_
        rw [← h1]
        exact NdArray.valid_append hs hb
      rw [d3, d4]
      simp only [scaleValue]
      rw [h2, List.length_append, hbl, show p.length + q.length + 2 - (q.length + [k, k].length) = p.length by simp, List.append_assoc]
  obtain ⟨x, hx1, hx2, hx3⟩ := hx
  unfold mvnAffine
  simp only [hx1, bind, Except.bind]
  cases hmn : mean with
  | none =>
    refine ⟨_, rfl, hx2, fun s b i hs hb hi => ?_⟩
    simp only [Model.NdArray.map, meanValue]
    rw [hx3 s b i hs hb hi]
  | some m =>
    have hm := h.mean_shape m hmn
    have e := (NdArray.broadcastShape_suffix sample (batch ++ [k])).1
    refine ⟨_, by simp only [Model.NdArray.map2, hm, hx2, e]; rfl, rfl, fun s b i hs hb hi => ?_⟩
    dsimp only
    rw [NdArray.broadcastIndex_suffix (NdArray.valid_append hb (valid_one hi)), NdArray.broadcastIndex_self (NdArray.valid_append hs (NdArray.valid_append hb (valid_one hi))),
      hx3 s b i hs hb hi]
    rfl

end RandomOps

/-- **C103, pseudo random draws.** With fitting shapes the result has the shape of the samples followed by the batch and the dimension, and each vector is the mean
plus the scale matrix times the vector of normal numbers drawn for it; without scale matrix it is the mean plus the normal numbers. -/
theorem C103_pseudo (src : RandomSource) (hsrc : src.Valid) (chol : Model.NdArray ℝ → Model.NdArray ℝ) (call : Nat) (sample batch : List Nat) (k : Nat)
    (mean cov scale : Option (Model.NdArray ℝ)) (seed : Option Seed) (hone : cov = none ∨ scale = none)
    (h : RandomOps.Fits batch k mean (mvnScale chol cov scale)) :
    (∃ r, multivariateNormal src chol call sample mean cov scale none seed = .ok r ∧ r.shape = sample ++ (batch ++ [k]) ∧
      Spec.IsAffineDraw sample batch k (RandomOps.meanValue mean) (RandomOps.scaleValue (mvnScale chol cov scale))
        (src.normal call seed (sample ++ (batch ++ [k]))).get r.get) ∧
    (∀ s, seed = some s → ∃ r, multivariateNormal src chol call sample mean cov scale (some .stateless) seed = .ok r ∧ r.shape = sample ++ (batch ++ [k]) ∧
      Spec.IsAffineDraw sample batch k (RandomOps.meanValue mean) (RandomOps.scaleValue (mvnScale chol cov scale))
        (src.statelessNormal s (sample ++ (batch ++ [k]))).get r.get) := by
  have hn1 : ¬(mean.isNone ∧ cov.isNone ∧ scale.isNone) := by
    rintro ⟨h1, h2, h3⟩
    rw [Option.isNone_iff_eq_none] at h1 h2 h3
    have := h.given
    rw [h1, h2, h3] at this
    simp [mvnScale] at this
  have hn2 : ¬(cov.isSome ∧ scale.isSome) := by
    rintro ⟨h1, h2⟩
    rcases hone with h | h
    · rw [h] at h1; simp at h1
    · rw [h] at h2; simp at h2
  obtain ⟨hb, -⟩ := RandomOps.fits_batch h
  constructor
  · obtain ⟨r, h1, h2, h3⟩ := RandomOps.affine_get h (src.normal call seed (sample ++ (batch ++ [k]))) (hsrc.normal _ _ _)
    refine ⟨r, ?_, h2, h3⟩
    unfold multivariateNormal
    rw [if_neg hn1, if_neg hn2]
    simp only [Option.getD_none, mvnPseudo, hb, Bool.false_eq_true, if_false]
    exact h1
  · intro s hs
    obtain ⟨r, h1, h2, h3⟩ := RandomOps.affine_get h (src.statelessNormal s (sample ++ (batch ++ [k]))) (hsrc.statelessNormal _ _)
    refine ⟨r, ?_, h2, h3⟩
    unfold multivariateNormal
    rw [if_neg hn1, if_neg hn2]
    simp only [Option.getD_some, mvnPseudo, hb, hs, if_true]
    exact h1

open MeasureTheory ProbabilityTheory WithLp Matrix in
/-- **C103, law.** The mean plus the scale matrix times independent standard normal numbers has the normal law with this mean and the covariance
`scale * scaleᵀ`; in particular with the covariance of which the scale is the Cholesky factor. -/
theorem C103_law {k : Nat} (m : Fin k → ℝ) (L : Matrix (Fin k) (Fin k) ℝ) :
    (Measure.pi fun _ : Fin k => gaussianReal 0 1).map (fun z => toLp 2 (m + L *ᵥ z)) = multivariateGaussian (toLp 2 m) (L * Lᵀ) := by
  have hps : (L * Lᵀ).PosSemidef := by
    have := Matrix.posSemidef_self_mul_conjTranspose L
    rwa [conjTranspose_eq_transpose_of_trivial] at this
  have hmeas : Measurable (fun z : Fin k → ℝ => toLp 2 (m + L *ᵥ z)) := by fun_prop
  have hprob : IsProbabilityMeasure ((Measure.pi fun _ : Fin k => gaussianReal 0 1).map (fun z => toLp 2 (m + L *ᵥ z))) :=
    Measure.isProbabilityMeasure_map hmeas.aemeasurable
  refine Measure.ext_of_charFun ?_
  ext t
  rw [charFun_multivariateGaussian hps, charFun_apply, integral_map hmeas.aemeasurable (Continuous.aestronglyMeasurable (by fun_prop))]
  have hstd := charFun_stdGaussian (E := EuclideanSpace ℝ (Fin k)) (toLp 2 (Lᵀ *ᵥ t.ofLp))
  rw [← map_pi_eq_stdGaussian, charFun_apply, integral_map (by fun_prop) (Continuous.aestronglyMeasurable (by fun_prop))] at hstd
  have e : ∀ z : Fin k → ℝ, Complex.exp (inner ℝ (toLp 2 (m + L *ᵥ z)) t * Complex.I) =
      Complex.exp (inner ℝ t (toLp 2 m) * Complex.I) * Complex.exp (inner ℝ (toLp 2 z) (toLp 2 (Lᵀ *ᵥ t.ofLp)) * Complex.I) := by
    intro z
    rw [← Complex.exp_add, ← add_mul, ← Complex.ofReal_add]
    congr 3
    have h1 : inner ℝ (toLp 2 (m + L *ᵥ z)) t = (m + L *ᵥ z) ⬝ᵥ t.ofLp := by
      rw [EuclideanSpace.inner_eq_star_dotProduct]
      simp [dotProduct_comm]
    have h2 : inner ℝ t (toLp 2 m) = m ⬝ᵥ t.ofLp := by
      rw [EuclideanSpace.inner_eq_star_dotProduct]
      simp
    have h3 : inner ℝ (toLp 2 z) (toLp 2 (Lᵀ *ᵥ t.ofLp)) = (Lᵀ *ᵥ t.ofLp) ⬝ᵥ z := by
      rw [EuclideanSpace.inner_eq_star_dotProduct]
      simp
    rw [h1, h2, h3, add_dotProduct, mulVec_transpose, ← dotProduct_mulVec, dotProduct_comm (L *ᵥ z)]
  simp_rw [e]
  rw [integral_const_mul, hstd, ← Complex.exp_add]
  congr 1
  rw [← Complex.ofReal_pow, EuclideanSpace.real_norm_sq_eq]
  have h4 : t.ofLp ⬝ᵥ (L * Lᵀ) *ᵥ t.ofLp = ∑ i, (Lᵀ *ᵥ t.ofLp) i ^ 2 := by
    rw [← mulVec_mulVec, dotProduct_mulVec, ← mulVec_transpose, dotProduct]
    exact Finset.sum_congr rfl fun i _ => (sq _).symm
  rw [h4]
  push_cast
  ring

open MeasureTheory ProbabilityTheory WithLp Matrix in
/-- **C103, law of the draws.** The generators are random. Where the numbers for an element are independent standard normal numbers, the drawn vector has the normal law with
the mean and the covariance `scale * scaleᵀ` of this element, and where the vectors of numbers are independent, so are the drawn vectors. -/
theorem C103_draw_law {Ω : Type*} [MeasurableSpace Ω] (P : Measure Ω) (sample batch : List Nat) (k : Nat) (mean : List Nat → Nat → ℝ)
    (scale : List Nat → Nat → Nat → ℝ) (z out : Ω → List Nat → ℝ) (h : ∀ ω, Spec.IsAffineDraw sample batch k mean scale (z ω) (out ω))
    (hm : ∀ l, Measurable fun ω => z ω l) :
    (∀ s b, List.Forall₂ (· < ·) s sample → List.Forall₂ (· < ·) b batch →
      P.map (fun ω (j : Fin k) => z ω (s ++ (b ++ [j.1]))) = Measure.pi (fun _ => gaussianReal 0 1) →
      P.map (fun ω => toLp 2 fun j : Fin k => out ω (s ++ (b ++ [j.1]))) =
      multivariateGaussian (toLp 2 fun i => mean b i.1) ((Matrix.of fun i j : Fin k => scale b i.1 j.1) * (Matrix.of fun i j : Fin k => scale b i.1 j.1)ᵀ)) ∧
    (∀ {ι : Type} (s b : ι → List Nat), (∀ n, List.Forall₂ (· < ·) (s n) sample) → (∀ n, List.Forall₂ (· < ·) (b n) batch) →
      iIndepFun (fun n ω (j : Fin k) => z ω (s n ++ (b n ++ [j.1]))) P → iIndepFun (fun n ω (j : Fin k) => out ω (s n ++ (b n ++ [j.1]))) P) := by
  have key : ∀ s b, List.Forall₂ (· < ·) s sample → List.Forall₂ (· < ·) b batch → ∀ ω, (fun j : Fin k => out ω (s ++ (b ++ [j.1]))) =
      (fun i : Fin k => mean b i.1) + (Matrix.of fun i j : Fin k => scale b i.1 j.1) *ᵥ (fun j : Fin k => z ω (s ++ (b ++ [j.1]))) := by
    intro s b hs hb ω
    funext i
    rw [h ω s b i.1 hs hb i.2, Pi.add_apply, mulVec, dotProduct, Finset.sum_range]
    rfl
  constructor
  · intro s b hs hb hz
    rw [← C103_law, ← hz, Measure.map_map (by fun_prop) (by fun_prop)]
    congr 1
    funext ω
    rw [Function.comp_apply, ← key s b hs hb ω]
  · intro ι s b hs hb hi
    have := hi.comp (fun n v => (fun i : Fin k => mean (b n) i.1) + (Matrix.of fun i j : Fin k => scale (b n) i.1 j.1) *ᵥ v) (fun _ => by fun_prop)
    refine this.congr fun n => Filter.Eventually.of_forall fun ω => ?_
    exact (key (s n) (b n) (hs n) (hb n) ω).symm

/-- **C103, refusals.** Nothing is drawn without mean and matrices, with two matrices, without seed for the stateless types, and, for the antithetic types, for an odd number of samples. -/
theorem C103_rejects (src : RandomSource) (chol : Model.NdArray ℝ → Model.NdArray ℝ) (call : Nat) (sample : List Nat) (mean cov scale : Option (Model.NdArray ℝ))
    (type : Option RandomType) (seed : Option Seed) (skip : Nat) :
    ((mean = none ∧ cov = none ∧ scale = none) ∨ (cov ≠ none ∧ scale ≠ none) ∨ ((type = some .stateless ∨ type = some .statelessAntithetic) ∧ seed = none) ∨
      ((type = some .pseudoAntithetic ∨ type = some .statelessAntithetic) ∧ sample.headD 1 % 2 = 1)) →
    ∃ e, multivariateNormal src chol call sample mean cov scale type seed skip = .error e := by
  intro h
  unfold multivariateNormal
  split_ifs with h1 h2
  · exact ⟨_, rfl⟩
  · exact ⟨_, rfl⟩
  rcases h with ⟨a, b, c⟩ | ⟨a, b⟩ | ⟨a, b⟩ | ⟨a, b⟩
  · exact absurd (by simp [a, b, c]) h1
  · exact absurd ⟨Option.isSome_iff_ne_none.2 a, Option.isSome_iff_ne_none.2 b⟩ h2
  · subst b
    rcases a with rfl | rfl
    · exact ⟨_, rfl⟩
    · simp only [Option.getD_some, mvnAntithetic]
      cases sample with
      | nil => exact ⟨_, rfl⟩
      | cons n rest =>
        dsimp only
        by_cases hn : n % 2 = 0
        · rw [if_neg (not_not.2 hn)]
          exact ⟨_, rfl⟩
        · rw [if_pos hn]
          exact ⟨_, rfl⟩
  · have key : ∀ st, ∃ e, mvnAntithetic src call sample mean (mvnScale chol cov scale) st seed = .error e := by
      intro st
      unfold mvnAntithetic
      cases sample with
      | nil => exact ⟨_, rfl⟩
      | cons n rest =>
        dsimp only
        rw [if_pos (by simp at b; omega)]
        exact ⟨_, rfl⟩
    rcases a with rfl | rfl
    · exact key _
    · exact key _

/-- **C103, antithetic draws.** For an even number of samples the first half are draws as above of half the size, and each sample of the second half is the reflection of its partner at the mean:
partners add up to twice the mean. -/
theorem C103_antithetic (src : RandomSource) (hsrc : src.Valid) (chol : Model.NdArray ℝ → Model.NdArray ℝ) (call n : Nat) (rest batch : List Nat) (k : Nat)
    (mean cov scale : Option (Model.NdArray ℝ)) (seed : Option Seed) (hone : cov = none ∨ scale = none)
    (h : RandomOps.Fits batch k mean (mvnScale chol cov scale)) (st : Bool) (hst : st = true → seed ≠ none) :
    ∃ half r, multivariateNormal src chol call (n :: rest) mean cov scale (some (if st then .stateless else .pseudo)) seed = .ok half ∧
      multivariateNormal src chol call ((n + n) :: rest) mean cov scale (some (if st then .statelessAntithetic else .pseudoAntithetic)) seed = .ok r ∧
      r.shape = (n + n) :: rest ++ (batch ++ [k]) ∧
      ∀ a s b i, a < n → List.Forall₂ (· < ·) s rest → List.Forall₂ (· < ·) b batch → i < k →
        r.get (a :: s ++ (b ++ [i])) = half.get (a :: s ++ (b ++ [i])) ∧
        r.get (a :: s ++ (b ++ [i])) + r.get ((n + a) :: s ++ (b ++ [i])) = 2 * RandomOps.meanValue mean b i := by
  have hp := C103_pseudo src hsrc chol call (n :: rest) batch k mean cov scale seed hone h
  have hhalf : ∃ half, multivariateNormal src chol call (n :: rest) mean cov scale (some (if st then .stateless else .pseudo)) seed = .ok half ∧
      half.shape = n :: rest ++ (batch ++ [k]) := by
    cases st with
    | false =>
      obtain ⟨r, h1, h2, -⟩ := hp.1
      exact ⟨r, h1, h2⟩
    | true =>
      obtain ⟨s, hs⟩ := Option.ne_none_iff_exists'.1 (hst rfl)
      obtain ⟨r, h1, h2, -⟩ := hp.2 s hs
      exact ⟨r, h1, h2⟩
  obtain ⟨half, hh, hsh⟩ := hhalf
  have hn1 : ¬(mean.isNone ∧ cov.isNone ∧ scale.isNone) := by
    rintro ⟨h1, h2, h3⟩
    rw [Option.isNone_iff_eq_none] at h1 h2 h3
    have := h.given
    rw [h1, h2, h3] at this
    simp [mvnScale] at this
  have hn2 : ¬(cov.isSome ∧ scale.isSome) := by
    rintro ⟨h1, h2⟩
    rcases hone with h | h
    · rw [h] at h1; simp at h1
    · rw [h] at h2; simp at h2
  have hps : mvnPseudo src call (n :: rest) mean (mvnScale chol cov scale) st seed = .ok half := by
    unfold multivariateNormal at hh
    rw [if_neg hn1, if_neg hn2] at hh
    cases st <;> exact hh
  have hred : multivariateNormal src chol call ((n + n) :: rest) mean cov scale (some (if st then .statelessAntithetic else .pseudoAntithetic)) seed =
      mvnAntithetic src call ((n + n) :: rest) mean (mvnScale chol cov scale) st seed := by
    unfold multivariateNormal
    rw [if_neg hn1, if_neg hn2]
    cases st <;> rfl
  have hev : ¬((n + n) % 2 ≠ 0) := by omega
  have hdiv : (n + n) / 2 = n := by omega
  rw [hred]
  unfold mvnAntithetic
  simp only [if_neg hev, hdiv, hps, bind, Except.bind, pure, Except.pure]
  have hhead : half.shape.headD 0 = n := by rw [hsh]; rfl
  cases hmn : mean with
  | none =>
    refine ⟨half, _, hmn ▸ hh, rfl, ?_, ?_⟩
    · simp [Model.NdArray.concat0, Model.NdArray.map, hsh]
    · intro a s b i ha hs hb hi
      rw [List.cons_append, List.cons_append, NdArray.concat0_first hhead ha, NdArray.concat0_second hhead]
      refine ⟨rfl, ?_⟩
      simp [RandomOps.meanValue, Model.NdArray.map]
  | some m =>
    have hm := h.mean_shape m hmn
    have e := (NdArray.broadcastShape_suffix (n :: rest) (batch ++ [k])).1
    have hmap : Model.NdArray.map2 (fun a b => 2 * a - b) m half = .ok ⟨n :: rest ++ (batch ++ [k]), fun idx =>
        2 * m.get (broadcastIndex (batch ++ [k]) idx) - half.get (broadcastIndex (n :: rest ++ (batch ++ [k])) idx)⟩ := by
      simp only [Model.NdArray.map2, hm, hsh, e]
    refine ⟨half, _, hmn ▸ hh, by simp only [hmap]; rfl, ?_, ?_⟩
    · simp [Model.NdArray.concat0, hsh]
    · intro a s b i ha hs hb hi
      have hv : NdArray.Valid (n :: rest ++ (batch ++ [k])) (a :: s ++ (b ++ [i])) :=
        NdArray.valid_append (.cons ha hs) (NdArray.valid_append hb (RandomOps.valid_one hi))
      have hv' := NdArray.valid_append hb (RandomOps.valid_one hi)
      rw [List.cons_append (a := a), List.cons_append (a := n + a), NdArray.concat0_first hhead ha, NdArray.concat0_second hhead]
      refine ⟨rfl, ?_⟩
      dsimp only
      rw [← List.cons_append (a := a) (as := s), NdArray.broadcastIndex_suffix hv', NdArray.broadcastIndex_self hv]
      simp [RandomOps.meanValue]

namespace RandomOps

/-- A source for the examples: each entry is the sum of its indices, plus one. -/
def exampleSource : RandomSource where
  normal _ _ shape := ⟨shape, fun idx => ((idx.sum + 1 : Nat) : ℝ)⟩
  uniform _ _ shape := ⟨shape, fun idx => ((idx.sum + 1 : Nat) : ℝ)⟩
  statelessNormal _ shape := ⟨shape, fun idx => ((idx.sum + 1 : Nat) : ℝ)⟩
  statelessUniform _ shape := ⟨shape, fun idx => ((idx.sum + 1 : Nat) : ℝ)⟩
  sobol dim num _ := ⟨[num, dim], fun idx => ((idx.sum + 1 : Nat) : ℝ)⟩
  halton dim indices _ _ := ⟨[indices.length, dim], fun idx => ((idx.sum + 1 : Nat) : ℝ)⟩

theorem exampleSource_valid : exampleSource.Valid := ⟨fun _ _ _ => rfl, fun _ _ _ => rfl, fun _ _ => rfl, fun _ _ => rfl, fun _ _ _ => rfl, fun _ _ _ _ => rfl⟩

/-- A batch of two means of dimension two. -/
def exampleMean : Model.NdArray ℝ := ⟨[2, 2], fun idx => (idx.getD 0 0 * 10 + idx.getD 1 0 : Nat)⟩

/-- One lower triangular matrix. -/
def exampleScale : Model.NdArray ℝ := ⟨[2, 2], fun idx => if idx.getD 0 0 < idx.getD 1 0 then 0 else 3⟩

theorem example_fits (chol : Model.NdArray ℝ → Model.NdArray ℝ) : Fits [2] 2 (some exampleMean) (mvnScale chol none (some exampleScale)) := by
  refine ⟨fun m hm => ?_, fun l hl => ?_, Or.inl (by simp)⟩
  · rw [← Option.some.inj hm]
    rfl
  · refine ⟨[2], [], rfl, ?_, fun h => by simp at h⟩
    simp only [mvnScale, Option.some.injEq] at hl
    rw [← hl]
    rfl

end RandomOps

/-- Three draws for two normal vectors: the second component of the second vector in the third draw is `11 + 3 * 4 + 3 * 5`. -/
example (chol : Model.NdArray ℝ → Model.NdArray ℝ) :
    ∃ r, multivariateNormal RandomOps.exampleSource chol 0 [3] (some RandomOps.exampleMean) none (some RandomOps.exampleScale) none none = .ok r ∧ r.shape = [3, 2, 2] ∧
      r.get [2, 1, 1] = 11 + 3 * 4 + 3 * 5 := by
  obtain ⟨r, h1, h2, h3⟩ := (C103_pseudo RandomOps.exampleSource RandomOps.exampleSource_valid chol 0 [3] [2] 2 (some RandomOps.exampleMean) none (some RandomOps.exampleScale) none
    (Or.inl rfl) (RandomOps.example_fits chol)).1
  refine ⟨r, h1, h2, ?_⟩
  have := h3 [2] [1] 1 (.cons (by decide) .nil) (.cons (by decide) .nil) (by decide)
  simp only [List.cons_append, List.nil_append] at this
  rw [this]
  simp [Finset.sum_range_succ, RandomOps.meanValue, RandomOps.scaleValue, mvnScale, RandomOps.exampleMean, RandomOps.exampleScale, RandomOps.exampleSource]
  norm_num

/-- Two antithetic draws add up to twice the mean. -/
example (chol : Model.NdArray ℝ → Model.NdArray ℝ) :
    ∃ r, multivariateNormal RandomOps.exampleSource chol 0 [2] (some RandomOps.exampleMean) none (some RandomOps.exampleScale) (some .statelessAntithetic) (some [4, 2]) = .ok r ∧
      r.get [0, 1, 1] + r.get [1, 1, 1] = 22 := by
  obtain ⟨half, r, -, h1, -, h3⟩ := C103_antithetic RandomOps.exampleSource RandomOps.exampleSource_valid chol 0 1 [] [2] 2 (some RandomOps.exampleMean) none
    (some RandomOps.exampleScale) (some [4, 2]) (Or.inl rfl) (RandomOps.example_fits chol) true (by simp)
  refine ⟨r, h1, ?_⟩
  have := (h3 0 [] [1] 1 (by decide) .nil (.cons (by decide) .nil) (by decide)).2
  refine this.trans ?_
  simp [RandomOps.meanValue, RandomOps.exampleMean]
  norm_num

/-- **C103, deviation.** The batch is taken from the mean alone. One mean for a batch of two matrices is not refused and not broadcast: for two draws the result has
the shape of one draw for each matrix instead of two, and for three draws there is an error. -/
theorem C103_broadcast_deviates (chol : Model.NdArray ℝ → Model.NdArray ℝ) :
    (∃ r, multivariateNormal RandomOps.exampleSource chol 0 [2] (some ⟨[2], fun _ => 0⟩) none (some ⟨[2, 2, 2], fun _ => 1⟩) none none = .ok r ∧ r.shape = [2, 2]) ∧
    ∃ e, multivariateNormal RandomOps.exampleSource chol 0 [3] (some ⟨[2], fun _ => 0⟩) none (some ⟨[2, 2, 2], fun _ => 1⟩) none none = .error e := by
  refine ⟨⟨_, rfl, rfl⟩, ⟨_, rfl⟩⟩

end Props
