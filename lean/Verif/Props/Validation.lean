import Verif.Model.Validation
import Verif.Props.ImpliedVol
import Verif.Props.VarianceSwaps
import Mathlib.Data.List.GetD

/-! # C124 The checks made with `validate_args` -/

namespace Spec
open Model

/-- Each entry of a list and the next are in the relation. -/
def Steps {K : Type} [Field K] (R : K → K → Prop) (x : List K) : Prop := ∀ i, i + 1 < x.length → R (x.getD i 0) (x.getD (i + 1) 0)

/-- What the documentation of the Sobol sampler says is checked. -/
def SobolDocumented (dim numResults skip : Int) : Prop := 1 ≤ dim ∧ 1 ≤ numResults ∧ 0 ≤ skip ∧ numResults + skip < 2 ^ 31 - 1

/-- The arbitrage bounds of the price of an option, kept at the distance `eps`. -/
def BoundsKept (eps price forward strike discountFactor : ℝ) (isCall : Bool) : Prop :=
  (if isCall then max (forward - strike) 0 else max (strike - forward) 0) + eps < price / discountFactor ∧
    price / discountFactor + eps < if isCall then forward else strike

/-- The checks pass. -/
def Accepts {α : Type} (r : Except String α) : Prop := ∃ x, r = .ok x

end Spec

namespace Lemmas
open Model Spec

theorem assertAll_iff (checks : List (Bool × String)) : assertAll checks = .ok () ↔ ∀ c ∈ checks, c.1 = true := by
  induction checks with
  | nil => simp [assertAll]
  | cons c rest ih =>
    obtain ⟨b, m⟩ := c
    cases b
    · simp [assertAll]
    · simp only [assertAll, ih, List.mem_cons, forall_eq_or_imp, true_and]

theorem assertIf_iff (v : Bool) (checks : List (Bool × String)) : assertIf v checks = .ok () ↔ (v = true → ∀ c ∈ checks, c.1 = true) := by
  unfold assertIf
  cases v
  · simp
  · simp [assertAll_iff]

theorem optionChecks_iff {α : Type} (o : Option α) (f : α → List (Bool × String)) :
    (∀ c ∈ optionChecks o f, c.1 = true) ↔ ∀ s, o = some s → ∀ c ∈ f s, c.1 = true := by
  cases o with
  | none => simp [optionChecks]
  | some s =>
    constructor
    · rintro h t ht; obtain rfl := Option.some.inj ht; exact h
    · intro h; exact h s rfl

theorem accepts_unit (r : Except String Unit) : Accepts r ↔ r = .ok () := by
  constructor
  · rintro ⟨x, h⟩; exact h
  · intro h; exact ⟨(), h⟩

theorem accepts_bind {α : Type} (r : Except String Unit) (f : Unit → Except String α) : Accepts (r >>= f) ↔ r = .ok () ∧ Accepts (f ()) := by
  cases r with
  | error e =>
    constructor
    · rintro ⟨x, h⟩; cases h
    · rintro ⟨h, _⟩; cases h
  | ok u =>
    constructor
    · intro h; exact ⟨rfl, h⟩
    · intro h; exact h.2

theorem accepts_pure {α : Type} (x : α) : Accepts (pure x : Except String α) := ⟨x, rfl⟩

variable {K : Type} [Field K] [LinearOrder K]

theorem all_zip_iff (R : K → K → Bool) (x : List K) : (List.zipWith R (x.drop 1) x.dropLast).all id = true ↔ Steps (fun a b => R b a = true) x := by
  rw [List.all_eq_true, List.forall_mem_iff_getElem]
  unfold Steps
  constructor
  · intro h i hi
    have := h i (by simp; omega)
    simp only [List.getElem_zipWith, List.getElem_drop, List.getElem_dropLast, id] at this
    rw [List.getD_eq_getElem _ _ hi, List.getD_eq_getElem _ _ (Nat.lt_of_succ_lt hi)]
    simpa only [Nat.add_comm 1 i] using this
  · intro h i hi
    simp only [List.length_zipWith, List.length_drop, List.length_dropLast] at hi
    have := h i (by omega)
    rw [List.getD_eq_getElem _ _ (by omega), List.getD_eq_getElem _ _ (by omega)] at this
    simp only [List.getElem_zipWith, List.getElem_drop, List.getElem_dropLast, id]
    simpa only [Nat.add_comm 1 i] using this

theorem all_consecutive (p : K → Bool) (x : List K) : (consecutive x).all p = true ↔ Steps (fun a b => p (b - a) = true) x := by
  rw [← all_zip_iff (fun a b => p (a - b)) x]
  unfold consecutive
  rw [List.all_eq_true, List.all_eq_true, List.forall_mem_iff_getElem, List.forall_mem_iff_getElem]
  simp

theorem steps_pairwise_le (x : List K) (h : Steps (· ≤ ·) x) : x.Pairwise (· ≤ ·) := by
  refine List.IsChain.pairwise (List.isChain_iff_getElem.2 (fun i hi => ?_))
  have := h i hi
  rwa [List.getD_eq_getElem _ _ (by omega), List.getD_eq_getElem _ _ hi] at this

theorem steps_pairwise_lt (x : List K) (h : Steps (· < ·) x) : x.Pairwise (· < ·) := by
  refine List.IsChain.pairwise (List.isChain_iff_getElem.2 (fun i hi => ?_))
  have := h i hi
  rwa [List.getD_eq_getElem _ _ (by omega), List.getD_eq_getElem _ _ hi] at this

end Lemmas

namespace Props
open Model Spec Lemmas

/-- C124, no flag, no checks: without `validate_args` the checked functions are the functions. -/
theorem C124_unchecked {K : Type} [Field K] [LinearOrder K] (table : List (Nat × List Nat)) (dim n skip : Nat) (x : K) (xs ys : List K) (l r : K) (tpu : Bool)
    (a : IvArgs) (polya : ℝ) :
    sobolImplSampleChecked table dim n skip false = .ok (sobolImplSample table dim n skip : List (List K)) ∧
      linearInterpolateChecked x xs ys l r tpu false = .ok (linearInterpolate x xs ys l r tpu) ∧
      approxImpliedVolChecked a polya false = approxImpliedVol a polya := by
  refine ⟨rfl, rfl, ?_⟩
  unfold approxImpliedVolChecked approxImpliedVol
  cases h : ivCheck a with
  | error e => rfl
  | ok u => rfl

/-- C124, the sampler of Sobol points, what is missing: the checks accept the documented arguments except that `skip` must not be zero; accepted arguments
give the points. -/
theorem C124_sobol_partial {K : Type} [Field K] (table : List (Nat × List Nat)) (dim n skip : Int) :
    (Accepts (sobolImplSampleChecked table dim n skip true : Except String (List (List K))) ↔ SobolDocumented dim n skip ∧ skip ≠ 0) ∧
    ∀ p, (sobolImplSampleChecked table dim n skip true : Except String (List (List K))) = .ok p →
      p = sobolImplSample table dim.toNat n.toNat skip.toNat := by
  constructor
  · unfold sobolImplSampleChecked
    rw [accepts_bind, assertIf_iff]
    simp only [List.mem_cons, List.not_mem_nil, or_false, forall_eq_or_imp, forall_eq, decide_eq_true_eq, forall_const, accepts_pure, and_true]
    unfold SobolDocumented
    omega
  · intro p hp
    have hacc : Accepts (sobolImplSampleChecked table dim n skip true : Except String (List (List K))) := ⟨p, hp⟩
    unfold sobolImplSampleChecked at hp hacc
    rw [accepts_bind, assertIf_iff] at hacc
    have hok := (assertIf_iff _ _).2 hacc.1
    have hc := hacc.1 rfl
    simp only [List.mem_cons, List.not_mem_nil, or_false, forall_eq_or_imp, forall_eq, decide_eq_true_eq] at hc
    rw [hok] at hp
    have hp' := Except.ok.inj hp
    rw [← hp', if_pos rfl, if_pos rfl, max_eq_left (by omega), max_eq_left (by omega)]

/-- C124 fails for the default value of `skip`: with `validate_args` the sampler of Sobol points rejects it with a message that asks for a non-negative
number. -/
theorem C124_skip_deviates {K : Type} [Field K] (table : List (Nat × List Nat)) (dim n : Int) (hd : 1 ≤ dim) (hn : 1 ≤ n) (hm : n < 2 ^ 31 - 1) :
    SobolDocumented dim n 0 ∧ (sobolImplSampleChecked table dim n 0 true : Except String (List (List K))) = .error "`skip` must be non-negative." := by
  refine ⟨⟨hd, hn, le_rfl, by omega⟩, ?_⟩
  have h1 : decide (¬ dim < 1) = true := by simpa using hd
  have h2 : decide (n > 0) = true := by simp; omega
  unfold sobolImplSampleChecked assertIf
  rw [if_pos rfl, h1, h2]
  rfl

/-- C124, the sampler of Halton points: exactly one of the number and the indices must be given, the indices must be below the largest whole number that the
type represents exactly, and the dimension from 1 to 1000. -/
theorem C124_halton (double : Bool) (dim : Int) (n : Option Nat) (idx : Option (List Nat)) :
    haltonAssertions double dim n idx true = .ok () ↔
      ((∃ m, n = some m ∧ idx = none ∧ (m : Int) ≤ haltonMaxIndex double) ∨ (∃ l, idx = some l ∧ n = none ∧ ∀ i ∈ l, (i : Int) < haltonMaxIndex double)) ∧
        1 ≤ dim ∧ dim ≤ 1000 := by
  have hpos : 0 ≤ haltonMaxIndex double := by unfold haltonMaxIndex; split <;> norm_num
  unfold haltonAssertions
  cases n with
  | none =>
    cases idx with
    | none => simp [Bind.bind, Except.bind]
    | some l =>
      simp only [Option.isNone_none, Option.isNone_some, Bool.true_eq_false, true_and, beq_iff_eq, if_false, Bind.bind, Except.bind, assertIf_iff, List.mem_cons,
        List.not_mem_nil, or_false, forall_eq_or_imp, forall_eq, decide_eq_true_eq, forall_const, haltonIndices, Option.getD_some, List.all_map, List.all_eq_true,
        Function.comp, Option.some.injEq, reduceCtorEq, false_and, exists_false, false_or, and_true, exists_eq_left']
      constructor
      · rintro ⟨h1, h2, h3⟩
        exact ⟨fun i hi => by have := h1 i hi; push_cast at this; omega, h2, h3⟩
      · rintro ⟨h1, h2, h3⟩
        exact ⟨fun i hi => by have := h1 i hi; push_cast; omega, h2, h3⟩
  | some m =>
    cases idx with
    | some l => simp [Bind.bind, Except.bind]
    | none =>
      simp only [Option.isNone_none, Option.isNone_some, Bool.false_eq_true, beq_iff_eq, if_false, Bind.bind, Except.bind, assertIf_iff, List.mem_cons,
        List.not_mem_nil, or_false, forall_eq_or_imp, forall_eq, decide_eq_true_eq, forall_const, haltonIndices, Option.getD_some, Option.getD_none, List.all_map,
        List.all_eq_true, Function.comp, Option.some.injEq, reduceCtorEq, false_and, exists_false, or_false, true_and, exists_eq_left', List.mem_range]
      constructor
      · rintro ⟨h1, h2, h3⟩
        refine ⟨?_, h2, h3⟩
        rcases Nat.eq_zero_or_pos m with h0 | h0
        · omega
        · have := h1 (m - 1) (by omega); push_cast at this; omega
      · rintro ⟨h1, h2, h3⟩
        exact ⟨fun i hi => by push_cast; omega, h2, h3⟩

/-- C124, the shift vectors and the generating matrices. -/
theorem C124_matrices (dim n digits : Int) (shape : List Int) :
    (scramblingVectorsAssertions dim true = .ok () ↔ 1 ≤ dim) ∧
    (sobolMatricesAssertions dim n digits true = .ok () ↔ 1 ≤ dim ∧ 1 ≤ n ∧ n ≤ 2 ^ 31 ∧ 1 ≤ digits) ∧
    (statelessUniformAssertions shape digits true = .ok () ↔ (∀ d ∈ shape, 1 ≤ d) ∧ 1 ≤ digits) ∧
    ∀ g s : List Nat, scrambleAssertions g s digits true = .ok () ↔ g.length = s.length ∧ 1 ≤ digits := by
  refine ⟨?_, ?_, ?_, ?_⟩
  · unfold scramblingVectorsAssertions
    rw [assertIf_iff]
    simp only [List.mem_cons, List.not_mem_nil, or_false, forall_eq, decide_eq_true_eq, forall_const]
    omega
  · unfold sobolMatricesAssertions
    rw [assertIf_iff]
    simp only [List.mem_cons, List.not_mem_nil, or_false, forall_eq_or_imp, forall_eq, decide_eq_true_eq, forall_const]
    have : Nat.clog 2 n.toNat < 32 ↔ n.toNat ≤ 2 ^ 31 := by
      rw [Nat.lt_succ_iff]
      exact Nat.clog_le_iff_le_pow (by norm_num)
    rw [this]
    norm_num
    omega
  · unfold statelessUniformAssertions
    rw [assertIf_iff]
    simp only [List.mem_cons, List.not_mem_nil, or_false, forall_eq_or_imp, forall_eq, decide_eq_true_eq, forall_const, List.all_eq_true]
    rfl
  · intro g s
    unfold scrambleAssertions
    rw [assertIf_iff]
    simp only [List.mem_cons, List.not_mem_nil, or_false, forall_eq_or_imp, forall_eq, decide_eq_true_eq, forall_const]
    rfl

/-- C124, lattice rules, what is missing: the lower bound of the dimension. -/
theorem C124_lattice_partial (shape : List Nat) (dim n : Int) :
    latticeAssertions shape dim n true = .ok () ↔ (∃ size : Nat, shape = [size] ∧ dim ≤ size) ∧ 1 ≤ n := by
  unfold latticeAssertions
  rw [assertIf_iff]
  simp only [List.mem_cons, List.not_mem_nil, or_false, forall_eq_or_imp, forall_eq, decide_eq_true_eq, forall_const]
  constructor
  · rintro ⟨h1, h2, h3⟩
    obtain ⟨size, rfl⟩ := List.length_eq_one_iff.1 h1
    exact ⟨⟨size, rfl, by simpa using h2⟩, by omega⟩
  · rintro ⟨⟨size, rfl, h2⟩, h3⟩
    exact ⟨rfl, by simpa using h2, by omega⟩

/-- C124 fails for lattice rules with a dimension that is not positive: the checks accept it. -/
theorem C124_lattice_deviates (size : Nat) (dim n : Int) (hd : dim ≤ 0) (hn : 1 ≤ n) : latticeAssertions [size] dim n true = .ok () :=
  (C124_lattice_partial [size] dim n).2 ⟨⟨size, rfl, by omega⟩, hn⟩

/-- C124, digital nets, what is missing: the lower bound of the indices. -/
theorem C124_digital_net_partial (dims : List Nat) (n digits : Int) (idx : Option (List Nat × List Int)) (scr shift : Option (List Nat)) :
    digitalNetAssertions dims n digits idx scr shift true = .ok () ↔
      (∃ dim columns, dims = [dim, columns] ∧ (∀ s, shift = some s → s = [dim])) ∧ 1 ≤ n ∧ n ≤ 2 ^ 31 ∧ 1 ≤ digits ∧
        (∀ s, idx = some s → s.1.length = 1 ∧ ∀ i ∈ s.2, i < n) ∧ (∀ s, scr = some s → s = dims) := by
  have hclog : Nat.clog 2 n.toNat < 32 ↔ n.toNat ≤ 2 ^ 31 := by
    rw [Nat.lt_succ_iff]
    exact Nat.clog_le_iff_le_pow (by norm_num)
  unfold digitalNetAssertions
  rw [assertIf_iff]
  simp only [List.forall_mem_append, List.mem_cons, List.not_mem_nil, or_false, forall_eq_or_imp, forall_eq, decide_eq_true_eq, forall_const, hclog]
  rw [optionChecks_iff, optionChecks_iff, optionChecks_iff]
  simp only [List.mem_cons, List.not_mem_nil, or_false, forall_eq_or_imp, forall_eq, decide_eq_true_eq, List.all_eq_true]
  constructor
  · rintro ⟨⟨⟨⟨h1, h2, h3, h4⟩, h5⟩, h6⟩, h7⟩
    obtain ⟨a, b, rfl⟩ := List.length_eq_two.1 h1
    refine ⟨⟨a, b, rfl, fun s hs => ?_⟩, by omega, by omega, by omega, h5, h6⟩
    obtain ⟨g1, g2⟩ := h7 s hs
    obtain ⟨d, rfl⟩ := List.length_eq_one_iff.1 g1
    simpa using g2
  · rintro ⟨⟨a, b, rfl, h7⟩, h2, h3, h4, h5, h6⟩
    refine ⟨⟨⟨⟨rfl, by omega, by omega, by omega⟩, h5⟩, h6⟩, fun s hs => ?_⟩
    rw [h7 s hs]
    simp

/-- C124 fails for digital nets with negative indices: the checks accept them. -/
theorem C124_indices_deviates (dim columns : Nat) (n digits i : Int) (hi : i < 0) (hn : 1 ≤ n) (hm : n ≤ 2 ^ 31) (hd : 1 ≤ digits) :
    digitalNetAssertions [dim, columns] n digits (some ([1], [i])) none none true = .ok () := by
  refine (C124_digital_net_partial _ _ _ _ _ _).2 ⟨⟨dim, columns, rfl, by simp⟩, hn, hm, hd, ?_, by simp⟩
  intro s hs
  obtain rfl := Option.some.inj hs
  exact ⟨rfl, by simp; omega⟩

section ordered
variable {K : Type} [Field K] [LinearOrder K] [IsStrictOrderedRing K]

/-- C124, linear interpolation: the checks accept non-decreasing points with equally many values, and then return the interpolated value. -/
theorem C124_linear (x : K) (xs ys : List K) (l r : K) (tpu : Bool) (y : K) :
    linearInterpolateChecked x xs ys l r tpu true = .ok y ↔
      xs.Pairwise (· ≤ ·) ∧ xs.length = ys.length ∧ y = linearInterpolate x xs ys l r tpu := by
  have key : (assertIf true [((consecutive xs).all (fun d => decide (d ≥ 0)), "x_data is not sorted in non-decreasing order."),
      (decide (xs.length = ys.length), "shapes")] = .ok ()) ↔ xs.Pairwise (· ≤ ·) ∧ xs.length = ys.length := by
    rw [assertIf_iff]
    simp only [List.mem_cons, List.not_mem_nil, or_false, forall_eq_or_imp, forall_eq, decide_eq_true_eq, forall_const]
    rw [all_consecutive]
    refine and_congr_left' ⟨fun h => steps_pairwise_le xs (fun i hi => ?_), fun h i hi => ?_⟩
    · have := h i hi
      simpa using this
    · rw [List.getD_eq_getElem _ _ (by omega), List.getD_eq_getElem _ _ hi]
      simpa using List.pairwise_iff_getElem.1 h i (i + 1) (by omega) hi (by omega)
  unfold linearInterpolateChecked
  generalize assertIf true _ = c at key
  cases c with
  | error e =>
    constructor
    · intro h; cases h
    · rintro ⟨h1, h2, -⟩; exact absurd (key.2 ⟨h1, h2⟩) (by simp)
  | ok u =>
    have hk := key.1 rfl
    constructor
    · intro h; exact ⟨hk.1, hk.2, (Except.ok.inj h).symm⟩
    · rintro ⟨-, -, rfl⟩; rfl

/-- C124, cubic splines and times of the SABR model. -/
theorem C124_sorted (xs : List K) : (cubicAssertions xs true = .ok () ↔ xs.Pairwise (· ≤ ·)) ∧ (sabrTimesAssertions xs true = .ok () ↔ xs.Pairwise (· < ·)) := by
  constructor
  · unfold cubicAssertions
    rw [assertIf_iff]
    simp only [List.mem_cons, List.not_mem_nil, or_false, forall_eq, forall_const]
    rw [all_consecutive]
    refine ⟨fun h => steps_pairwise_le xs (fun i hi => ?_), fun h i hi => ?_⟩
    · have := h i hi
      simpa using this
    · rw [List.getD_eq_getElem _ _ (by omega), List.getD_eq_getElem _ _ hi]
      simpa using List.pairwise_iff_getElem.1 h i (i + 1) (by omega) hi (by omega)
  · unfold sabrTimesAssertions
    rw [assertIf_iff]
    simp only [List.mem_cons, List.not_mem_nil, or_false, forall_eq, forall_const]
    rw [all_consecutive]
    refine ⟨fun h => steps_pairwise_lt xs (fun i hi => ?_), fun h i hi => ?_⟩
    · have := h i hi
      simpa using this
    · rw [List.getD_eq_getElem _ _ (by omega), List.getD_eq_getElem _ _ hi]
      simpa using List.pairwise_iff_getElem.1 h i (i + 1) (by omega) hi (by omega)

/-- C124, the Euler scheme: times and grid grow by more than the tolerance, and there are as many draws as steps. -/
theorem C124_euler (times : List K) (grid : Option (List K)) (tol : K) (draws : Option Nat) (size : Nat) :
    eulerAssertions times grid tol draws size true = .ok () ↔
      Steps (fun a b => tol < b - a) times ∧ (∀ g, grid = some g → Steps (fun a b => tol < b - a) g) ∧ (∀ n, draws = some n → n + 1 = size) := by
  have hst : ∀ x : List K, (List.zipWith (fun a b => decide (a > b + tol)) (x.drop 1) x.dropLast).all id = true ↔ Steps (fun a b => tol < b - a) x := by
    intro x
    rw [all_zip_iff]
    refine forall_congr' (fun i => forall_congr' (fun hi => ?_))
    simp only [decide_eq_true_eq, gt_iff_lt]
    constructor <;> intro h <;> linarith
  unfold eulerAssertions
  rw [assertIf_iff]
  simp only [List.forall_mem_append, List.mem_cons, List.not_mem_nil, or_false, forall_eq, forall_const, hst]
  rw [optionChecks_iff, optionChecks_iff, and_assoc]
  simp only [List.mem_cons, List.not_mem_nil, or_false, forall_eq, decide_eq_true_eq, hst]
  refine and_congr_right' (and_congr_right' (forall_congr' (fun n => forall_congr' (fun _ => ?_))))
  omega

/-- C124, draws of the vector Hull-White model. -/
theorem C124_draws (draws size : Nat) : vectorHullWhiteAssertions draws size true = .ok () ↔ draws + 1 = size := by
  unfold vectorHullWhiteAssertions
  rw [assertIf_iff]
  simp only [List.mem_cons, List.not_mem_nil, or_false, forall_eq, decide_eq_true_eq, forall_const]
  omega

/-- C124, Brent's method: a change of sign between the brackets, positive tolerances of the root, other numbers not negative. -/
theorem C124_brent (values values' absTol relTol funTol : List K) (maxIterations : List Int) (hl : values.length = values'.length) :
    brentAssertions values absTol relTol funTol values' maxIterations true = .ok () ↔
      (∀ i, i < values.length → (0 ≤ values.getD i 0 ∧ values'.getD i 0 ≤ 0) ∨ (values.getD i 0 ≤ 0 ∧ 0 ≤ values'.getD i 0)) ∧
        (∀ t ∈ absTol, 0 < t) ∧ (∀ t ∈ relTol, 0 < t) ∧ (∀ t ∈ funTol, 0 ≤ t) ∧ ∀ m ∈ maxIterations, 0 ≤ m := by
  unfold brentAssertions
  rw [assertIf_iff]
  simp only [List.mem_cons, List.not_mem_nil, or_false, forall_eq_or_imp, forall_eq, decide_eq_true_eq, forall_const, List.all_eq_true, gt_iff_lt, ge_iff_le]
  refine and_congr_left' ?_
  rw [List.forall_mem_iff_getElem]
  constructor
  · intro h i hi
    have := h i (by simp; omega)
    rw [List.getD_eq_getElem _ _ hi, List.getD_eq_getElem _ _ (by omega)]
    simp only [List.getElem_zipWith, id, decide_eq_true_eq] at this
    exact mul_nonpos_iff.1 this
  · intro h i hi
    simp only [List.length_zipWith] at hi
    have := h i (by omega)
    rw [List.getD_eq_getElem _ _ (by omega), List.getD_eq_getElem _ _ (by omega)] at this
    simp only [List.getElem_zipWith, id, decide_eq_true_eq]
    exact mul_nonpos_iff.2 this

/-- C124, monotone convex interpolation, what is missing: the upper bound of the times and the order of the interval times. -/
theorem C124_monotone_convex_partial (times interval : List K) :
    monotoneConvexAssertions times interval true = .ok () ↔ (∀ t ∈ times, 0 ≤ t) ∧ ∀ t ∈ interval, 0 < t := by
  unfold monotoneConvexAssertions
  rw [assertIf_iff]
  simp only [List.mem_cons, List.not_mem_nil, or_false, forall_eq_or_imp, forall_eq, decide_eq_true_eq, forall_const, List.all_eq_true, gt_iff_lt, ge_iff_le]

/-- C124 fails for monotone convex interpolation: the documentation says that the times are checked to be bounded by the end points of the intervals, but a
time after the last of them is accepted. -/
theorem C124_times_deviates (a b : K) (ha : 0 < a) (hab : a < b) : monotoneConvexAssertions [b] [a] true = .ok () ∧ ∀ t ∈ [a], t < b := by
  refine ⟨(C124_monotone_convex_partial _ _).2 ⟨?_, ?_⟩, ?_⟩
  · simp; linarith
  · simpa using ha
  · simpa using hab

end ordered

/-- C124, implied volatilities: the checks accept a price exactly if it keeps the distance `1e-8` from the arbitrage bounds. -/
theorem C124_implied_vol (price forward strike expiry df : ℝ) (isCall : Option Bool) :
    ivAssertions price forward strike expiry df isCall = .ok () ↔
      0 ≤ expiry ∧ 0 < forward ∧ 0 < strike ∧ BoundsKept 1e-8 price forward strike df (isCall.getD true) := by
  unfold ivAssertions BoundsKept
  rw [assertAll_iff]
  simp only [List.mem_cons, List.not_mem_nil, or_false, forall_eq_or_imp, forall_eq, decide_eq_true_eq, gt_iff_lt, ge_iff_le]
  have key : ∀ lo up u : ℝ, (lo ≤ u ∧ u ≤ up ∧ 1e-8 < |u - lo| ∧ 1e-8 < |u - up|) ↔ lo + 1e-8 < u ∧ u + 1e-8 < up := by
    intro lo up u
    constructor
    · rintro ⟨h1, h2, h3, h4⟩
      rw [abs_of_nonneg (by linarith)] at h3
      rw [abs_of_nonpos (by linarith)] at h4
      exact ⟨by linarith, by linarith⟩
    · rintro ⟨h1, h2⟩
      have h3 : lo ≤ u := by norm_num at h1; linarith
      have h4 : u ≤ up := by norm_num at h2; linarith
      refine ⟨h3, h4, ?_, ?_⟩
      · rw [abs_of_nonneg (by linarith)]; linarith
      · rw [abs_of_nonpos (by linarith)]; linarith
  rw [key]
  rcases isCall with _ | c
  · simp
  · cases c <;> simp

/-- C124, implied volatilities: if the approximation accepts the arguments and expiry is positive then exactly one volatility gives the price. -/
theorem C124_implied_vol_unique (a : IvArgs) (polya v : ℝ) (hn : a.isNormal = false) (hT : 0 < a.expiry) (hdf : ∀ df, a.discountFactor = some df → 0 < df)
    (h : approxImpliedVolChecked a polya true = .ok v) :
    approxImpliedVol a polya = .ok v ∧ ∃! w, 0 < w ∧ optionPrice (withVolatility a w) = .ok a.price := by
  unfold approxImpliedVolChecked at h
  cases hc : ivCheck a with
  | error e => rw [hc] at h; cases h
  | ok u =>
    rw [hc, if_pos rfl] at h
    cases hv : ivAssertions a.price (ivForward a) a.strike a.expiry (ivDiscountFactor a) a.isCall with
    | error e => rw [hv] at h; cases h
    | ok u' =>
      rw [hv] at h
      refine ⟨h, ?_⟩
      obtain ⟨-, hF, hK, hlo, hup⟩ := (C124_implied_vol _ _ _ _ _ _).1 hv
      have hone : a.spot.isSome ≠ a.forward.isSome := by
        unfold ivCheck at hc
        rcases hs : a.spot with _ | s <;> rcases hf : a.forward with _ | f <;> simp_all
      have hval : ∀ hpos : 0 < ivForwardPrice a, ValidIvArgs a := fun hpos => ⟨hone, hT, hdf, fun _ => ⟨hpos, hK⟩⟩
      have hfe : ivForward a = ivForwardPrice a := by
        unfold ivForward ivForwardPrice forward discount withVolatility ivDiscountFactor
        rcases a.forward with _ | f
        · rcases a.discountFactor with _ | df <;> simp
        · rfl
      have hde : ivDiscountFactor a = ivDiscount a := by
        unfold ivDiscountFactor ivDiscount discount withVolatility
        rcases a.discountFactor with _ | df <;> rfl
      have hV := hval (hfe ▸ hF)
      have hD := ivDiscount_pos hV
      refine (C42_exists_unique a hV).1 ⟨?_, fun _ => ?_⟩
      · rw [hde, hfe] at hlo
        have h1 : vanillaPayoff (a.isCall.getD true) a.strike (ivForwardPrice a) < a.price / ivDiscount a := by
          unfold vanillaPayoff
          norm_num at hlo ⊢
          linarith
        rw [lt_div_iff₀ hD] at h1
        linarith
      · rw [hde, hfe] at hup
        have h1 : a.price / ivDiscount a < if a.isCall.getD true then ivForwardPrice a else a.strike := by
          norm_num at hup ⊢
          linarith
        rw [div_lt_iff₀ hD] at h1
        linarith

/-- C124 fails for implied volatilities of options that expire now: the check named "Expiries positive" accepts the expiry zero, but no volatility gives
the price. -/
theorem C124_expiry_deviates (price F K : ℝ) (hF : 0 < F) (hK : 0 < K) (h : BoundsKept 1e-8 price F K 1 true) :
    ivAssertions price F K 0 1 (some true) = .ok () ∧
      ∀ w, 0 ≤ w → optionPrice (withVolatility { price := price, strike := K, expiry := 0, forward := some F, isCall := some true } w) ≠ .ok price := by
  refine ⟨(C124_implied_vol _ _ _ _ _ _).2 ⟨le_rfl, hF, hK, h⟩, fun w hw hp => ?_⟩
  rw [C31_expectation (withVolatility { price := price, strike := K, expiry := 0, forward := some F, isCall := some true } w)
    ⟨by simp [withVolatility], by simp [withVolatility], hw, le_rfl, by simp [withVolatility]⟩ (fun _ => ⟨hF, hK⟩)] at hp
  have hp' := Except.ok.inj hp
  have e1 : discount (withVolatility { price := price, strike := K, expiry := 0, forward := some F, isCall := some true } w) = 1 := rfl
  have e2 : expectation (withVolatility { price := price, strike := K, expiry := 0, forward := some F, isCall := some true } w) (vanillaPayoff true K) =
      vanillaPayoff true K F := by
    unfold expectation
    have hs : stdDev (withVolatility { price := price, strike := K, expiry := 0, forward := some F, isCall := some true } w) = 0 := by
      simp [stdDev, withVolatility]
    rw [hs, if_neg (by simp [withVolatility])]
    exact lognormalExpectation_zero _ hF _
  have e3 : vanillaPayoff true K F = price := by
    rw [← e2, ← one_mul (expectation _ _), ← e1]
    exact hp'
  have := h.1
  rw [div_one, ← e3] at this
  unfold vanillaPayoff at this
  rw [if_pos rfl] at this
  have h8 : (0 : ℝ) < 1e-8 := by norm_num
  linarith

/-- C124 fails for Newton's method with a given starting point, or in the normal model: `validate_args` is accepted and checks nothing. -/
theorem C124_newton_deviates (a : IvArgs) (start : Option ℝ) (rel tol : ℝ) (N : Nat) (v : Bool) (h : start.isSome = true ∨ a.isNormal = true) :
    impliedVolNewtonChecked a start rel tol N v = impliedVolNewton a start rel tol N := by
  unfold impliedVolNewtonChecked impliedVolNewton
  rcases start with _ | s
  · have hn : a.isNormal = true := by simpa using h
    simp only [hn, if_true]
  · rfl

/-- C124, Newton's method in the lognormal model without a starting point: rejected exactly if the approximation rejects. -/
theorem C124_newton (a : IvArgs) (rel tol : ℝ) (N : Nat) (hn : a.isNormal = false) :
    Accepts (impliedVolNewtonChecked a none rel tol N true) ↔ Accepts (approxImpliedVolChecked a (2 / Real.pi) true) := by
  unfold impliedVolNewtonChecked
  simp only [hn, Bool.false_eq_true, if_false]
  cases hc : ivCheck a with
  | error e =>
    unfold approxImpliedVolChecked
    rw [hc]
    constructor <;> rintro ⟨x, hx⟩ <;> cases hx
  | ok u =>
    cases ha : approxImpliedVolChecked a (2 / Real.pi) true with
    | error e => constructor <;> rintro ⟨x, hx⟩ <;> cases hx
    | ok x => exact ⟨fun _ => ⟨x, rfl⟩, fun _ => ⟨_, rfl⟩⟩

end Props

namespace Lemmas
open Model Spec

theorem replicationPrice_total (T r S : ℝ) (c : Bool) : ∃ g : ℝ × ℝ → ℝ, ∀ p : ℝ × ℝ, optionPrice {
    volatility := p.2
    strike := p.1
    expiry := T
    spot := some S
    discountRate := some r
    isCall := some c } = .ok (g p) := by
  have h : ∀ p : ℝ × ℝ, ∃ x, optionPrice { volatility := p.2, strike := p.1, expiry := T, spot := some S, discountRate := some r, isCall := some c } = .ok x := by
    intro p
    cases hx : optionPrice { volatility := p.2, strike := p.1, expiry := T, spot := some S, discountRate := some r, isCall := some c } with
    | error e =>
      have := (Props.C31_rejects _).1 ⟨e, hx⟩
      simp at this
    | ok x => exact ⟨x, rfl⟩
  choose g hg using h
  exact ⟨g, hg⟩

theorem replicatingWeights_length (strikes : List ℝ) (ref T : ℝ) (v : Bool) (w : List ℝ) (h : replicatingWeights strikes ref T v = .ok w) :
    w.length = strikes.length - 1 := by
  unfold replicatingWeights at h
  simp only at h
  split at h
  · cases h
  · have h' := Except.ok.inj h
    rw [← h']
    split <;> simp [diff_ex_length]

theorem replicationPricesBroadcast_eq (strikes vols pairs1 : List ℝ) (T r S : ℝ) (c : Bool)
    (h : broadcastVectors (fun k v => (k, v)) strikes.dropLast vols.dropLast = .ok (List.zip strikes.dropLast pairs1.dropLast)) :
    replicationPricesBroadcast strikes vols T r S c = replicationPrices strikes pairs1 T r S c := by
  unfold replicationPricesBroadcast replicationPrices
  rw [h]
  rfl

theorem replicationPrices_length (strikes vols : List ℝ) (T r S : ℝ) (c : Bool) (hl : strikes.length = vols.length) :
    ∃ q, replicationPrices strikes vols T r S c = .ok q ∧ q.length = strikes.length - 1 := by
  obtain ⟨g, hg⟩ := replicationPrice_total T r S c
  refine ⟨_, mapM_ok _ g _ (fun p _ => hg p), ?_⟩
  simp [hl]

theorem broadcastVectors_same {α β γ : Type} (f : α → β → γ) (a : List α) (b : List β) (h : a.length = b.length) :
    broadcastVectors f a b = .ok (List.zipWith f a b) := by
  unfold broadcastVectors
  rw [if_pos h]

theorem fairStrikeBroadcast_eq (p c pv cv pv' cv' : List ℝ) (T r S ref : ℝ) (v : Bool) (hp : p.length = pv'.length) (hc : c.length = cv'.length)
    (h1 : replicationPricesBroadcast p pv T r S false = replicationPrices p pv' T r S false)
    (h2 : replicationPricesBroadcast c cv T r S true = replicationPrices c cv' T r S true) :
    fairStrikeBroadcast p pv c cv T r S ref v = fairStrike p pv' c cv' T r S ref v := by
  unfold fairStrikeBroadcast fairStrike
  cases hw1 : replicatingWeights p ref T v with
  | error e => rfl
  | ok w1 =>
    cases hw2 : replicatingWeights c ref T v with
    | error e => rfl
    | ok w2 =>
      obtain ⟨q1, hq1, hl1⟩ := replicationPrices_length p pv' T r S false hp
      obtain ⟨q2, hq2, hl2⟩ := replicationPrices_length c cv' T r S true hc
      rw [h1, h2, hq1, hq2]
      simp only [bind_ok]
      rw [broadcastVectors_same _ w1 q1 (by rw [replicatingWeights_length _ _ _ _ _ hw1, hl1]),
        broadcastVectors_same _ w2 q2 (by rw [replicatingWeights_length _ _ _ _ _ hw2, hl2])]
      simp only [bind_ok]

theorem broadcast_two (x : ℝ) (a : List ℝ) : broadcastVectors (fun k v : ℝ => (k, v)) a [x] = .ok (List.zip a (a.map (fun _ => x))) := by
  have hz : ∀ l : List ℝ, List.zip l (l.map (fun _ => x)) = l.map (fun k => (k, x)) := by
    intro l
    induction l with
    | nil => rfl
    | cons k l ih => simp only [List.map_cons, List.zip_cons_cons, ih]
  rw [hz]
  unfold broadcastVectors
  split
  · rename_i h
    obtain ⟨k, rfl⟩ := List.length_eq_one_iff.1 h
    rfl
  · rename_i h
    rcases a with _ | ⟨k, _ | ⟨k', a⟩⟩
    · rfl
    · exact absurd rfl h
    · rfl

end Lemmas

namespace Props
open Model Spec Lemmas

/-- C124, fair strikes of variance swaps: with equally many volatilities as strikes the general function is the one of C34. -/
theorem C124_fair_strike (p pv c cv : List ℝ) (T r S ref : ℝ) (v : Bool) (hp : p.length = pv.length) (hc : c.length = cv.length) :
    fairStrikeBroadcast p pv c cv T r S ref v = fairStrike p pv c cv T r S ref v := by
  refine fairStrikeBroadcast_eq p c pv cv pv cv T r S ref v hp hc ?_ ?_
  · exact replicationPricesBroadcast_eq p pv pv T r S false (broadcastVectors_same _ _ _ (by simp [hp]))
  · exact replicationPricesBroadcast_eq c cv cv T r S true (broadcastVectors_same _ _ _ (by simp [hc]))

/-- C124 fails for the lengths of strikes and volatilities of a variance swap, which the code compares without asserting the result: with two volatilities
for any number of strikes the first is silently used for all. -/
theorem C124_lengths_deviates (p c : List ℝ) (σ σ' τ τ' T r S ref : ℝ) (v : Bool) :
    fairStrikeBroadcast p [σ, τ] c [σ', τ'] T r S ref v = fairStrike p (p.map fun _ => σ) c (c.map fun _ => σ') T r S ref v := by
  refine fairStrikeBroadcast_eq p c _ _ _ _ T r S ref v (by simp) (by simp) ?_ ?_
  · refine replicationPricesBroadcast_eq p _ _ T r S false ?_
    rw [← List.map_dropLast]
    exact broadcast_two σ _
  · refine replicationPricesBroadcast_eq c _ _ T r S true ?_
    rw [← List.map_dropLast]
    exact broadcast_two σ' _

example : BoundsKept 1e-8 5 100 100 1 true ∧ ivAssertions 5 100 100 2 1 none = .ok () := by
  have h : BoundsKept 1e-8 5 100 100 1 true := by
    constructor <;> norm_num
  exact ⟨h, (C124_implied_vol _ _ _ _ _ _).2 ⟨by norm_num, by norm_num, by norm_num, h⟩⟩

example : haltonAssertions false 5 (some 100) none true = .ok () ∧ haltonAssertions false 5 none (some [2 ^ 24 - 2]) true = .ok () ∧
    haltonAssertions false 5 none (some [2 ^ 24 - 1]) true = .error "Maximum sequence index exceeded." ∧
    (∃ e, haltonAssertions false 5 (some 3) (some [1]) true = .error e) := by
  refine ⟨by decide +kernel, by decide +kernel, by decide +kernel, ⟨_, rfl⟩⟩

example : SobolDocumented 3 10 5 ∧ (5 : Int) ≠ 0 := by unfold SobolDocumented; norm_num

example : linearInterpolateChecked (3 / 2 : ℚ) [1, 2] [10, 20] 0 0 false true = .ok 15 ∧
    (∃ e, linearInterpolateChecked (3 / 2 : ℚ) [2, 1] [10, 20] 0 0 false true = .error e) := by
  refine ⟨by decide +kernel, ⟨"x_data is not sorted in non-decreasing order.", by decide +kernel⟩⟩

example : eulerAssertions ([1, 2, 3] : List ℚ) none (1 / 1000) (some 4) 5 true = .ok () ∧
    digitalNetAssertions [3, 8] 100 10 (some ([2], [4, 99])) none (some [3]) true = .ok () ∧ brentAssertions ([-1, 2] : List ℚ) [1] [1] [0] [1, 0] [5] true = .ok () ∧
    latticeAssertions [10] 3 100 true = .ok () := by decide +kernel

end Props
