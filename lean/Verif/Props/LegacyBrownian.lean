import Verif.Spec.LegacyBrownian
import Verif.Lemmas.LegacyBrownian
import Verif.Props.RandomOps
import Mathlib.Data.List.GetD

/-! # C104: the legacy Brownian motion, exact sampling -/

namespace Props
open Model
open scoped BigOperators

namespace LegacyBm
open LegacyBrownian
open NdArray (Valid)

/-- The drift is missing, a scalar or a vector. -/
def DriftOk (dim : Nat) : BmCoefficient → Prop
  | .missing => True
  | .const c => c.shape = [] ∨ c.shape = [dim]
  | .fn _ => False

/-- The volatility is missing, a scalar, a vector or a matrix. -/
def VolOk (dim : Nat) : BmCoefficient → Prop
  | .missing => True
  | .const c => c.shape = [] ∨ c.shape = [dim] ∨ c.shape = [dim, dim]
  | .fn _ => False

/-- The components of the drift; a missing one is zero. -/
noncomputable def drift : BmCoefficient → Nat → ℝ
  | .const c, j => if c.shape = [] then c.get [] else c.get [j]
  | _, _ => 0

/-- The entries of the volatility: a scalar or a vector is on the diagonal, a missing one is the identity. -/
noncomputable def vol : BmCoefficient → Nat → Nat → ℝ
  | .const c, i, j => if c.shape = [] then if i = j then c.get [] else 0
      else if c.shape.length = 1 then if i = j then c.get [i] else 0
      else c.get [i, j]
  | _, i, j => if i = j then 1 else 0

theorem total_drift {dim : Nat} {d : BmCoefficient} (hd : DriftOk dim d) : ∃ g, (constructDriftData d none dim).2 = some g ∧
    ∀ t1 t2 : Model.NdArray ℝ, t1.shape = t2.shape → ∃ D, g t1 t2 = .ok D ∧ D.shape = t2.shape ++ [dim] ∧
      ∀ a j, Valid t2.shape a → j < dim → D.get (a ++ [j]) = drift d j * (t2.get a - t1.get a) := by
  cases d with
  | missing =>
    refine ⟨_, rfl, fun t1 t2 ht => ⟨_, rfl, by simp [zerosTensor, ht], fun a j _ _ => ?_⟩⟩
    simp [zerosTensor, drift]
  | fn f => exact absurd hd id
  | const c =>
    refine ⟨_, rfl, fun t1 t2 ht => ?_⟩
    obtain ⟨dt, a1, a2, a3⟩ := NdArray.map2_same (fun x y : ℝ => x - y) ht.symm
    obtain ⟨r, b1, b2, b3⟩ := drift_const hd
    obtain ⟨D, c1, c2, c3⟩ := outer_get dt r
    refine ⟨D, ?_, by rw [c2, a2, b2], fun a j ha hj => ?_⟩
    · simp only [constTotalDrift, a1, b1, bind, Except.bind]
      exact c1
    · rw [c3 a [j] (by rwa [a2]) (by rw [b2]; exact valid_one hj), a3 a ha, b3 j hj]
      exact mul_comm _ _

theorem drift_rate {dim : Nat} {d : BmCoefficient} (hd : DriftOk dim d) : ∀ t : Model.NdArray ℝ, ∃ D, (constructDriftData d none dim).1 t = .ok D ∧
    D.shape = t.shape ++ [dim] ∧ ∀ a j, Valid t.shape a → j < dim → D.get (a ++ [j]) = drift d j := by
  intro t
  cases d with
  | missing =>
    refine ⟨_, rfl, rfl, fun a j _ _ => ?_⟩
    simp [zerosTensor, drift]
  | fn f => exact absurd hd id
  | const c =>
    obtain ⟨r, b1, b2, b3⟩ := drift_const hd
    obtain ⟨D, c1, c2, c3⟩ := outer_get (onesTensor t.shape) r
    refine ⟨D, ?_, by rw [c2, b2]; rfl, fun a j ha hj => ?_⟩
    · simp only [constructDriftData, constDriftFn, b1, bind, Except.bind]
      exact c1
    · rw [c3 a [j] ha (by rw [b2]; exact valid_one hj), b3 j hj]
      exact one_mul _

theorem total_covariance {dim : Nat} {v : BmCoefficient} (hv : VolOk dim v) : ∃ g, (constructVolData v none dim).2 = some g ∧
    ∀ t1 t2 : Model.NdArray ℝ, t1.shape = t2.shape → ∃ C, g t1 t2 = .ok C ∧ C.shape = t2.shape ++ [dim, dim] ∧
      ∀ a i j, Valid t2.shape a → i < dim → j < dim → C.get (a ++ [i, j]) = (∑ l ∈ Finset.range dim, vol v i l * vol v j l) * (t2.get a - t1.get a) := by
  cases v with
  | missing =>
    refine ⟨_, rfl, fun t1 t2 ht => ?_⟩
    obtain ⟨dt, a1, a2, a3⟩ := NdArray.map2_same (fun x y : ℝ => x - y) ht.symm
    obtain ⟨D, c1, c2, c3⟩ := outer_get dt (eyeTensor dim)
    refine ⟨D, ?_, by rw [c2, a2]; rfl, fun a i j ha hi hj => ?_⟩
    · simp only [unitCovar, a1, bind, Except.bind]
      exact c1
    · rw [c3 a [i, j] (by rwa [a2]) (valid_two hi hj), a3 a ha, Finset.sum_eq_single i, mul_comm]
      · simp only [vol, if_true, one_mul, eyeTensor, List.getD_cons_zero, List.getD_cons_succ]
        congr 1
        exact if_congr eq_comm rfl rfl
      · intro l _ hl
        simp [vol, Ne.symm hl]
      · intro hn
        exact absurd (Finset.mem_range.2 hi) hn
  | fn f => exact absurd hv id
  | const c =>
    refine ⟨_, rfl, fun t1 t2 ht => ?_⟩
    obtain ⟨dt, a1, a2, a3⟩ := NdArray.map2_same (fun x y : ℝ => x - y) ht.symm
    obtain ⟨r, b1, b2, b3⟩ := covar_const hv
    obtain ⟨D, c1, c2, c3⟩ := outer_get dt r
    refine ⟨D, ?_, by rw [c2, a2, b2], fun a i j ha hi hj => ?_⟩
    · simp only [constCovarFn, a1, b1, bind, Except.bind]
      exact c1
    · rw [c3 a [i, j] (by rwa [a2]) (by rw [b2]; exact valid_two hi hj), a3 a ha, b3 i j hi hj]
      exact mul_comm _ _

theorem vol_rate {dim : Nat} {c : Model.NdArray ℝ} (hv : VolOk dim (.const c)) : ∀ t : Model.NdArray ℝ, ∃ S, (constructVolData (.const c) none dim).1 t = .ok S ∧
    S.shape = t.shape ++ [dim, dim] ∧ ∀ a i j, Valid t.shape a → i < dim → j < dim → S.get (a ++ [i, j]) = vol (.const c) i j := by
  intro t
  obtain ⟨r, b1, b2, b3⟩ := matrix_const hv
  obtain ⟨D, c1, c2, c3⟩ := outer_get (onesTensor t.shape) r
  refine ⟨D, ?_, by rw [c2, b2]; rfl, fun a i j ha hi hj => ?_⟩
  · simp only [constructVolData, constVolFn, b1, bind, Except.bind]
    exact c1
  · rw [c3 a [i, j] ha (by rw [b2]; exact valid_two hi hj), b3 i j hi hj]
    exact one_mul _

end LegacyBm

/-- **C104, coefficients.** A Brownian motion with constant coefficients, or with missing ones, knows its integrated coefficients: over an interval the drift is
multiplied with its length, and so is the product of the volatility with its transpose. -/
theorem C104_coefficients (dim : Nat) (hdim : 1 ≤ dim) (d v : BmCoefficient) (hd : LegacyBm.DriftOk dim d) (hv : LegacyBm.VolOk dim v) :
    ∃ bm g h, LegacyBrownian.make dim d v none none = .ok bm ∧ bm.dim = dim ∧ bm.totalDrift = some g ∧ bm.totalCovariance = some h ∧
    (∀ t : Model.NdArray ℝ, ∃ D, bm.driftFn t = .ok D ∧ D.shape = t.shape ++ [dim] ∧
      ∀ a j, List.Forall₂ (· < ·) a t.shape → j < dim → D.get (a ++ [j]) = LegacyBm.drift d j) ∧
    (v.isMissing = false → ∀ t : Model.NdArray ℝ, ∃ S, bm.volFn t = .ok S ∧ S.shape = t.shape ++ [dim, dim] ∧
      ∀ a i j, List.Forall₂ (· < ·) a t.shape → i < dim → j < dim → S.get (a ++ [i, j]) = LegacyBm.vol v i j) ∧
    ∀ t1 t2 : Model.NdArray ℝ, t1.shape = t2.shape →
      (∃ D, g t1 t2 = .ok D ∧ D.shape = t2.shape ++ [dim] ∧
        ∀ a j, List.Forall₂ (· < ·) a t2.shape → j < dim → D.get (a ++ [j]) = LegacyBm.drift d j * (t2.get a - t1.get a)) ∧
      ∃ C, h t1 t2 = .ok C ∧ C.shape = t2.shape ++ [dim, dim] ∧
        ∀ a i j, List.Forall₂ (· < ·) a t2.shape → i < dim → j < dim →
          C.get (a ++ [i, j]) = (∑ l ∈ Finset.range dim, LegacyBm.vol v i l * LegacyBm.vol v j l) * (t2.get a - t1.get a) := by
  obtain ⟨g, hg, hg2⟩ := LegacyBm.total_drift hd
  obtain ⟨h, hh, hh2⟩ := LegacyBm.total_covariance hv
  refine ⟨⟨dim, (constructDriftData d none dim).1, some g, (constructVolData v none dim).1, some h⟩, g, h, ?_, rfl, rfl, rfl, LegacyBm.drift_rate hd, ?_,
    fun t1 t2 ht => ⟨hg2 t1 t2 ht, hh2 t1 t2 ht⟩⟩
  · unfold LegacyBrownian.make
    rw [if_neg (by omega), if_neg (by simp), if_neg (by simp), ← hg, ← hh]
  · intro hm
    cases v with
    | missing => simp [BmCoefficient.isMissing] at hm
    | fn f => exact absurd hv id
    | const c => exact LegacyBm.vol_rate hv

/-- Over the interval from one to three the covariance of the components of a Brownian motion with the volatility `[[1, 0], [2, 3]]` is four. -/
example : ∃ bm h C, LegacyBrownian.make 2 .missing (.const ⟨[2, 2], fun idx => if idx = [0, 0] then 1 else if idx = [0, 1] then 0 else if idx = [1, 0] then 2 else 3⟩) none none = .ok bm ∧
    bm.totalCovariance = some h ∧ h ⟨[], fun _ => 1⟩ ⟨[], fun _ => 3⟩ = .ok C ∧ C.get [0, 1] = 4 := by
  obtain ⟨bm, g, h, h1, -, -, h2, -, -, h3⟩ := C104_coefficients 2 (by norm_num) .missing
    (.const ⟨[2, 2], fun idx => if idx = [0, 0] then 1 else if idx = [0, 1] then 0 else if idx = [1, 0] then 2 else 3⟩) trivial (Or.inr (Or.inr rfl))
  obtain ⟨-, C, h4, -, h5⟩ := h3 ⟨[], fun _ => 1⟩ ⟨[], fun _ => 3⟩ rfl
  refine ⟨bm, h, C, h1, h2, h4, ?_⟩
  have := h5 [] 0 1 .nil (by norm_num) (by norm_num)
  rw [List.nil_append] at this
  rw [this]
  simp [LegacyBm.vol, Finset.sum_range_succ]
  norm_num

/-- **C104, refusals.** The constructor refuses a dimension of zero and integrated coefficients without coefficients. Exact sampling refuses decreasing and
negative times. -/
theorem C104_rejects :
    (∀ d v td tc, ∃ e, LegacyBrownian.make 0 d v td tc = .error e) ∧
    (∀ dim v g tc, ∃ e, LegacyBrownian.make dim .missing v (some g) tc = .error e) ∧
    (∀ dim d g td, ∃ e, LegacyBrownian.make dim d .missing td (some g) = .error e) ∧
    (∀ dim d v td tc, 1 ≤ dim → (td.isSome → d.isMissing = false) → (tc.isSome → v.isMissing = false) → ∃ bm, LegacyBrownian.make dim d v td tc = .ok bm) ∧
    ∀ (src : RandomSource) (chol : Model.NdArray ℝ → Model.NdArray ℝ) (g h : TimeFn2) (times : List ℝ) (n : Nat) (x0 : Option (Model.NdArray ℝ)) (type : Option RandomType) (seed : Option Seed),
      ¬ (0 :: times).IsChain (· ≤ ·) → ∃ e, legacySamplePaths src chol g h times n x0 type seed = .error e := by
  refine ⟨fun d v td tc => ⟨_, rfl⟩, fun dim v g tc => ?_, fun dim d g td => ?_, fun dim d v td tc h1 h2 h3 => ?_, ?_⟩
  · unfold LegacyBrownian.make
    by_cases h : dim < 1
    · exact ⟨_, if_pos h⟩
    · rw [if_neg h]
      exact ⟨_, if_pos ⟨rfl, rfl⟩⟩
  · unfold LegacyBrownian.make
    by_cases h : dim < 1
    · exact ⟨_, if_pos h⟩
    · rw [if_neg h]
      by_cases h' : d.isMissing ∧ td.isSome
      · exact ⟨_, if_pos h'⟩
      · rw [if_neg h']
        exact ⟨_, if_pos ⟨rfl, rfl⟩⟩
  · unfold LegacyBrownian.make
    rw [if_neg (by omega), if_neg (by rintro ⟨a, b⟩; simp [h2 b] at a), if_neg (by rintro ⟨a, b⟩; simp [h3 b] at a)]
    exact ⟨_, rfl⟩
  · intro src chol g h times n x0 type seed hc
    have : ∃ p ∈ List.zip (0 :: times.dropLast) times, p.2 < p.1 := by
      by_contra hn
      apply hc
      have key : ∀ (l : List ℝ) (a : ℝ), (∀ p ∈ List.zip (a :: l.dropLast) l, ¬ p.2 < p.1) → (a :: l).IsChain (· ≤ ·) := by
        intro l
        induction l with
        | nil => intro a _; exact List.isChain_singleton a
        | cons b l ih =>
          intro a hp
          rw [List.isChain_cons_cons]
          refine ⟨not_lt.1 (hp (a, b) (by simp)), ih b fun p hp' => hp p ?_⟩
          cases l with
          | nil => simp at hp'
          | cons c l => rw [List.dropLast_cons_cons, List.zip_cons_cons]; exact List.mem_cons_of_mem _ hp'
      exact key times 0 fun p hp hlt => hn ⟨p, hp, hlt⟩
    unfold legacySamplePaths exactSampling
    dsimp only
    rw [if_pos this]
    exact ⟨_, rfl⟩

/-- **C104, the default volatility deviates.** Without a volatility the covariance is that of a standard Brownian motion, but the volatility function returns a
matrix of ones: its product with its transpose has the dimension in each entry. -/
theorem C104_default_deviates (dim : Nat) (hdim : 1 ≤ dim) :
    ∃ bm, LegacyBrownian.make dim .missing .missing none none = .ok bm ∧ ∀ t : Model.NdArray ℝ, ∃ S, bm.volFn t = .ok S ∧ S.shape = t.shape ++ [dim, dim] ∧
      (∀ a, S.get a = 1) ∧ ∀ a i j, ∑ l ∈ Finset.range dim, S.get (a ++ [i, l]) * S.get (a ++ [j, l]) = dim := by
  refine ⟨_, by unfold LegacyBrownian.make; rw [if_neg (by omega)]; rfl, fun t => ⟨_, rfl, rfl, fun a => rfl, fun a i j => ?_⟩⟩
  simp [onesTensor]

namespace LegacyBm
open NdArray (Valid)

/-- The components of the initial state; a missing one is zero. -/
def start : Option (Model.NdArray ℝ) → Nat → ℝ
  | none, _ => 0
  | some x, j => x.get [j]

theorem chain_ok : ∀ (l : List ℝ) (a : ℝ), (a :: l).IsChain (· ≤ ·) → (∀ p ∈ List.zip (a :: l.dropLast) l, ¬ p.2 < p.1) ∧ ∀ t ∈ a :: l.dropLast, a ≤ t
  | [], a, _ => ⟨by simp, by simp⟩
  | b :: l, a, h => by
    rw [List.isChain_cons_cons] at h
    obtain ⟨h1, h2⟩ := chain_ok l b h.2
    cases l with
    | nil =>
      refine ⟨fun p hp => ?_, fun t ht => ?_⟩
      · simp only [List.dropLast_singleton, List.zip_cons_cons, List.zip_nil_right, List.mem_singleton] at hp
        rw [hp]
        exact not_lt.2 h.1
      · simp only [List.dropLast_singleton, List.mem_singleton] at ht
        rw [ht]
    | cons c l =>
      rw [List.dropLast_cons_cons, List.zip_cons_cons]
      refine ⟨fun p hp => ?_, fun t ht => ?_⟩
      · rcases List.mem_cons.1 hp with hp | hp
        · rw [hp]
          exact not_lt.2 h.1
        · exact h1 p hp
      · rcases List.mem_cons.1 ht with ht | ht
        · rw [ht]
        · exact h.1.trans (h2 t ht)

theorem times_gap (times : List ℝ) (m : Nat) (hm : m < times.length) : (vecTensor times).get [m] - (vecTensor (0 :: times.dropLast)).get [m] = Spec.timeGap times m := by
  unfold vecTensor Spec.timeGap
  cases m with
  | zero => simp
  | succ m =>
    simp only [List.headD_cons, List.getD_cons_succ]
    congr 1
    rw [List.getD_eq_getElem?_getD, List.getD_eq_getElem?_getD, List.getElem?_dropLast, if_pos (by omega)]

end LegacyBm

/-- **C104, paths.** The increments of the paths are the drawn vectors, for each way to draw; they start from the initial state. -/
theorem C104_paths (src : RandomSource) (chol : Model.NdArray ℝ → Model.NdArray ℝ) (g h : TimeFn2) (times : List ℝ) (N dim : Nat) (x0 : Option (Model.NdArray ℝ))
    (type : Option RandomType) (seed : Option Seed) (D C draws : Model.NdArray ℝ) (ht : (0 :: times).IsChain (· ≤ ·)) (hx : ∀ x, x0 = some x → x.shape = [dim])
    (hg : g (vecTensor (0 :: times.dropLast)) (vecTensor times) = .ok D) (hh : h (vecTensor (0 :: times.dropLast)) (vecTensor times) = .ok C)
    (hdraws : multivariateNormal src chol 0 [N] (some D) (some C) none type seed = .ok draws) (hs : draws.shape = [N, times.length, dim]) :
    ∃ r, legacySamplePaths src chol g h times N x0 type seed = .ok r ∧ r.shape = [N, times.length, dim] ∧
      ∀ n m j, n < N → m < times.length → j < dim →
        Spec.pathIncrement (LegacyBm.start x0) (fun n m j => r.get [n, m, j]) n m j = draws.get [n, m, j] := by
  obtain ⟨h1, h2⟩ := LegacyBm.chain_ok times 0 ht
  have he : exactSampling src chol g h times N type seed = .ok (cumsum1 draws) := by
    unfold exactSampling
    dsimp only
    rw [if_neg (by rintro ⟨p, hp, hlt⟩; exact h1 p hp hlt), if_neg (by rintro ⟨t, hp, hlt⟩; exact absurd (h2 t hp) (not_le.2 hlt))]
    simp only [hg, hh, hdraws, bind, Except.bind]
  have key : ∀ r : Model.NdArray ℝ, (∀ n m j, n < N → m < times.length → j < dim → r.get [n, m, j] = (cumsum1 draws).get [n, m, j] + LegacyBm.start x0 j) →
      ∀ n m j, n < N → m < times.length → j < dim →
        Spec.pathIncrement (LegacyBm.start x0) (fun n m j => r.get [n, m, j]) n m j = draws.get [n, m, j] := by
    intro r hr n m j hn hm hj
    unfold Spec.pathIncrement
    cases m with
    | zero =>
      simp only [hr n 0 j hn hm hj, cumsum1, List.getD_cons_succ, List.getD_cons_zero, Nat.zero_add, Finset.range_one, Finset.sum_singleton]
      ring
    | succ m =>
      simp only [hr n (m + 1) j hn hm hj, hr n m j hn (by omega) hj, cumsum1, List.getD_cons_succ, List.getD_cons_zero]
      rw [Finset.sum_range_succ _ (m + 1)]
      ring
  unfold legacySamplePaths
  simp only [he, bind, Except.bind]
  cases hx0 : x0 with
  | none =>
    refine ⟨_, rfl, hs, ?_⟩
    rw [hx0] at key
    refine key _ fun n m j _ _ _ => ?_
    simp [LegacyBm.start]
  | some x =>
    rw [hx0] at key
    obtain ⟨r, r1, r2, r3⟩ := NdArray.map2_suffix (fun a b : ℝ => a + b) (a := cumsum1 draws) (b := x) (s := [N, times.length]) (t := [dim]) hs (hx x hx0)
    refine ⟨r, r1, r2.trans hs, key r fun n m j hn hm hj => ?_⟩
    exact r3 [n, m] [j] (LegacyBrownian.valid_two hn hm) (LegacyBrownian.valid_one hj)

open MeasureTheory ProbabilityTheory WithLp Matrix in
/-- **C104, law.** Of independent standard normal numbers, sampling at increasing positive times makes paths of a Brownian motion: the increments of all paths over
all intervals are independent, and normal with the drift times the length of the interval as mean and the volatility times its transpose times the length as
covariance. -/
theorem C104_law {Ω : Type*} [MeasurableSpace Ω] (P : Measure Ω) (src : Ω → RandomSource) (hsrc : ∀ ω, (src ω).Valid) (chol : Model.NdArray ℝ → Model.NdArray ℝ)
    (dim : Nat) (hdim : 1 ≤ dim) (d v : BmCoefficient) (hd : LegacyBm.DriftOk dim d) (hv : LegacyBm.VolOk dim v)
    (times : List ℝ) (hne : times ≠ []) (ht : (0 :: times).IsChain (· < ·)) (N : Nat) (x0 : Option (Model.NdArray ℝ)) (hx : ∀ x, x0 = some x → x.shape = [dim]) (seed : Option Seed)
    (hS : ((Matrix.of fun i j : Fin dim => LegacyBm.vol v i.1 j.1) * (Matrix.of fun i j : Fin dim => LegacyBm.vol v i.1 j.1)ᵀ).PosDef)
    (hchol : ∀ C : Model.NdArray ℝ, C.shape = [times.length, dim, dim] → (chol C).shape = C.shape ∧
      ∀ m, (Matrix.of fun i j : Fin dim => C.get [m, i.1, j.1]).PosDef →
        (Matrix.of fun i j : Fin dim => (chol C).get [m, i.1, j.1]) * (Matrix.of fun i j : Fin dim => (chol C).get [m, i.1, j.1])ᵀ =
          Matrix.of fun i j : Fin dim => C.get [m, i.1, j.1])
    (hmeas : ∀ l, Measurable fun ω => ((src ω).normal 0 seed [N, times.length, dim]).get l)
    (hlaw : ∀ n m, n < N → m < times.length →
      P.map (fun ω (j : Fin dim) => ((src ω).normal 0 seed [N, times.length, dim]).get [n, m, j.1]) = Measure.pi (fun _ => gaussianReal 0 1))
    (hind : iIndepFun (fun (p : Fin N × Fin times.length) ω (j : Fin dim) => ((src ω).normal 0 seed [N, times.length, dim]).get [p.1.1, p.2.1, j.1]) P) :
    ∃ bm g h, LegacyBrownian.make dim d v none none = .ok bm ∧ bm.totalDrift = some g ∧ bm.totalCovariance = some h ∧
    ∃ r : Ω → Model.NdArray ℝ, (∀ ω, legacySamplePaths (src ω) chol g h times N x0 none seed = .ok (r ω) ∧ (r ω).shape = [N, times.length, dim]) ∧
      (∀ n m, n < N → m < times.length →
        P.map (fun ω => toLp 2 fun j : Fin dim => Spec.pathIncrement (LegacyBm.start x0) (fun n m j => (r ω).get [n, m, j]) n m j.1) =
          multivariateGaussian (toLp 2 fun j : Fin dim => LegacyBm.drift d j.1 * Spec.timeGap times m)
            (Spec.timeGap times m • ((Matrix.of fun i j : Fin dim => LegacyBm.vol v i.1 j.1) * (Matrix.of fun i j : Fin dim => LegacyBm.vol v i.1 j.1)ᵀ))) ∧
      iIndepFun (fun (p : Fin N × Fin times.length) ω (j : Fin dim) =>
        Spec.pathIncrement (LegacyBm.start x0) (fun n m j => (r ω).get [n, m, j]) p.1.1 p.2.1 j.1) P := by
  obtain ⟨bm, g, h, hb, -, hg, hh, -, -, hgh⟩ := C104_coefficients dim hdim d v hd hv
  have hlen : (0 :: times.dropLast).length = times.length := by
    rw [List.length_cons, List.length_dropLast]
    have := List.length_pos_of_ne_nil hne
    omega
  obtain ⟨⟨D, hD1, hD2, hD3⟩, C, hC1, hC2, hC3⟩ := hgh (vecTensor (0 :: times.dropLast)) (vecTensor times) (by simp only [vecTensor, hlen])
  have hC2' : C.shape = [times.length, dim, dim] := hC2
  obtain ⟨hL1, hL2⟩ := hchol C hC2'
  have hfit : RandomOps.Fits [times.length] dim (some D) (mvnScale chol (some C) none) := by
    refine ⟨fun m hm => ?_, fun l hl => ?_, Or.inl (by simp)⟩
    · rw [← Option.some.inj hm]
      exact hD2
    · refine ⟨[], [times.length], rfl, ?_, fun _ => rfl⟩
      simp only [mvnScale, Option.map_some, Option.some.injEq] at hl
      rw [← hl, hL1, hC2']
      rfl
  have hdraw := fun ω => (C103_pseudo (src ω) (hsrc ω) chol 0 [N] [times.length] dim (some D) (some C) none seed (Or.inr rfl) hfit).1
  choose draws hd1 hd2 hd3 using hdraw
  have hle : (0 :: times).IsChain (· ≤ ·) := ht.imp fun _ _ => le_of_lt
  have hpath := fun ω => C104_paths (src ω) chol g h times N dim x0 none seed D C (draws ω) hle hx hD1 hC1 (hd1 ω) (hd2 ω)
  choose r hr1 hr2 hr3 using hpath
  have hl := C103_draw_law P [N] [times.length] dim _ _ (fun ω => ((src ω).normal 0 seed [N, times.length, dim]).get) (fun ω => (draws ω).get) hd3 hmeas
  refine ⟨bm, g, h, hb, hg, hh, r, fun ω => ⟨hr1 ω, hr2 ω⟩, fun n m hn hm => ?_, ?_⟩
  · have := hl.1 [n] [m] (LegacyBrownian.valid_one hn) (LegacyBrownian.valid_one hm) (hlaw n m hn hm)
    have e : (fun ω => toLp 2 fun j : Fin dim => Spec.pathIncrement (LegacyBm.start x0) (fun n m j => (r ω).get [n, m, j]) n m j.1) =
        fun ω => toLp 2 fun j : Fin dim => (draws ω).get ([n] ++ ([m] ++ [j.1])) := by
      funext ω
      congr 1
      funext j
      exact hr3 ω n m j.1 hn hm j.2
    have hgap : 0 < Spec.timeGap times m := by
      unfold Spec.timeGap
      rw [List.getD_eq_getElem _ _ hm]
      cases m with
      | zero =>
        have := List.isChain_iff_getElem.1 ht 0 (by simpa using hm)
        simpa using this
      | succ m =>
        have := List.isChain_iff_getElem.1 ht (m + 1) (by simpa using hm)
        simp only [List.getElem_cons_succ] at this
        dsimp only
        rw [sub_pos, List.getD_eq_getElem _ _ (by omega)]
        exact this
    have hmC : (Matrix.of fun i j : Fin dim => C.get [m, i.1, j.1]) =
        Spec.timeGap times m • ((Matrix.of fun i j : Fin dim => LegacyBm.vol v i.1 j.1) * (Matrix.of fun i j : Fin dim => LegacyBm.vol v i.1 j.1)ᵀ) := by
      ext i j
      have := hC3 [m] i.1 j.1 (LegacyBrownian.valid_one hm) i.2 j.2
      rw [LegacyBm.times_gap times m hm] at this
      rw [Matrix.of_apply, Matrix.smul_apply, Matrix.mul_apply, smul_eq_mul, mul_comm]
      refine this.trans ?_
      rw [Finset.sum_range]
      rfl
    have hLL := hL2 m (by rw [hmC]; exact hS.smul hgap)
    rw [hmC] at hLL
    rw [e, this, ← hLL]
    congr 1
    · congr 1
      funext j
      refine (hD3 [m] j.1 (LegacyBrownian.valid_one hm) j.2).trans ?_
      rw [LegacyBm.times_gap times m hm]
    · have hsc : (Matrix.of fun i j : Fin dim => RandomOps.scaleValue (mvnScale chol (some C) none) [m] i.1 j.1) =
          Matrix.of fun i j : Fin dim => (chol C).get [m, i.1, j.1] := by
        ext i j
        simp [RandomOps.scaleValue, mvnScale, hL1, hC2']
      rw [hsc]
  · have := hl.2 (ι := Fin N × Fin times.length) (fun p => [p.1.1]) (fun p => [p.2.1]) (fun p => LegacyBrownian.valid_one p.1.2) (fun p => LegacyBrownian.valid_one p.2.2) hind
    refine this.congr fun p => Filter.Eventually.of_forall fun ω => ?_
    funext j
    exact (hr3 ω p.1.1 p.2.1 j.1 p.1.2 p.2.2 j.2).symm

end Props
