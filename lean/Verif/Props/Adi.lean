import Verif.Lemmas.Adi
import Mathlib.Data.Rat.Lemmas
import Mathlib.Data.Matrix.Mul
import Mathlib.Tactic.NormNum
import Mathlib.Tactic.FinCases

/-! # C64: the Douglas scheme for parabolic equations in several dimensions -/

namespace Props
open Model Model.AdiGrid Spec Lemmas
open scoped BigOperators

variable {K : Type} [Field K] [LinearOrder K] [IsStrictOrderedRing K] {n : Nat}

/-- The values after the explicit substep and the first `k` corrections. -/
def douglasStage (g : AdiGrid n K) (c : K → AdiCoeffs n K) (theta t1 t2 : K) (values : GridIndex n → K) (k : Nat) : GridIndex n → K :=
  if theta = 0 then g.explicitStep c t1 t2 values
  else ((List.finRange n).take k).foldl (fun y d => g.correction c theta t1 t2 (fun p => g.applyTridiag c t1 d values p * (t2 - t1)) y d)
    (g.explicitStep c t1 t2 values)

omit [IsStrictOrderedRing K] in
theorem douglasStage_last (g : AdiGrid n K) (c : K → AdiCoeffs n K) (theta t1 t2 : K) (values : GridIndex n → K) :
    douglasStage g c theta t1 t2 values n = g.douglas c theta t1 t2 values := by
  unfold douglasStage douglas
  rw [List.take_of_length_le (by simp)]

omit [IsStrictOrderedRing K] in
theorem douglasStage_succ (g : AdiGrid n K) (c : K → AdiCoeffs n K) (theta t1 t2 : K) (values : GridIndex n → K) (d : Fin n) (h : theta ≠ 0) :
    douglasStage g c theta t1 t2 values (d + 1) =
      g.correction c theta t1 t2 (fun p => g.applyTridiag c t1 d values p * (t2 - t1)) (douglasStage g c theta t1 t2 values d) d := by
  unfold douglasStage
  rw [if_neg h, if_neg h, List.take_add_one, List.foldl_append]
  have : (List.finRange n)[(d : Nat)]? = some d := by
    rw [List.getElem?_eq_getElem (by simp)]; simp
  rw [this]
  rfl

omit [IsStrictOrderedRing K] in
theorem douglasStage_zero (g : AdiGrid n K) (c : K → AdiCoeffs n K) (theta t1 t2 : K) (values : GridIndex n → K) :
    douglasStage g c theta t1 t2 values 0 = g.explicitStep c t1 t2 values := by
  unfold douglasStage
  simp

theorem explicit_eq (g : AdiGrid n K) (c : K → AdiCoeffs n K) (t1 t2 : K) (values : GridIndex n → K) (hg : ProperGrid g) (h1 : ProperConditions g t1)
    (p : GridIndex n) (hp : Inner g p) :
    g.explicitStep c t1 t2 values p = values p - (t2 - t1) * spaceAt g (c t1) (g.appendBoundaries t1 values) p := by
  have hext := append_extends t1 values hg h1
  have hrow : ∀ d, g.applyTridiag c t1 d values p + g.inhomog c t1 d p = -partAt g (c t1) d (g.appendBoundaries t1 values) p := fun d =>
    row_eq c t1 d values _ p hg h1 (hp d) (append_lineValues t1 values d p (fun d => (hg d).1) (fun d' _ => hp d'))
      (fun k a b => (hext.inner _ (inner_update d k (hg d).1 hp a b)).symm)
  unfold explicitStep spaceAt
  simp only [mixed_eq g _ _ _ _ _ hg]
  have e1 : (∑ i, ∑ j, if i < j then -mixedAt g (c t1) i j (g.appendBoundaries t1 values) p * (t2 - t1) else 0) =
      -(t2 - t1) * ∑ i, ∑ j, if i < j then mixedAt g (c t1) i j (g.appendBoundaries t1 values) p else 0 := by
    rw [Finset.mul_sum]
    refine Finset.sum_congr rfl fun i _ => ?_
    rw [Finset.mul_sum]
    refine Finset.sum_congr rfl fun j _ => ?_
    by_cases h : i < j
    · rw [if_pos h, if_pos h]; ring
    · rw [if_neg h, if_neg h]; ring
  have e2 : (∑ i, g.applyTridiag c t1 i values p * (t2 - t1)) + (∑ i, g.inhomog c t1 i p * (t2 - t1)) =
      -(t2 - t1) * ∑ d, partAt g (c t1) d (g.appendBoundaries t1 values) p := by
    rw [← Finset.sum_add_distrib, Finset.mul_sum]
    refine Finset.sum_congr rfl fun d _ => ?_
    linear_combination (t2 - t1) * hrow d
  rw [e1, add_assoc (values p + _), e2]
  ring

theorem stage_eq (g : AdiGrid n K) (c : K → AdiCoeffs n K) (theta t1 t2 : K) (values : GridIndex n → K) (hg : ProperGrid g) (h1 : ProperConditions g t1)
    (h2 : ProperConditions g t2) (hsol : LinesSolvable g c theta t1 t2) (d : Fin n) (p : GridIndex n) (hp : Inner g p) :
    douglasStage g c theta t1 t2 values (d + 1) p = douglasStage g c theta t1 t2 values d p -
      theta * (t2 - t1) * (partAt g (c t2) d (g.appendBoundaries t2 (douglasStage g c theta t1 t2 values (d + 1))) p -
        partAt g (c t1) d (g.appendBoundaries t1 values) p) := by
  by_cases h : theta = 0
  · unfold douglasStage; simp [h]
  have rows : ∀ t (v : GridIndex n → K), ProperConditions g t →
      g.applyTridiag c t d v p + g.inhomog c t d p = -partAt g (c t) d (g.appendBoundaries t v) p := fun t v ht =>
    row_eq c t d v _ p hg ht (hp d) (append_lineValues t v d p (fun d => (hg d).1) (fun d' _ => hp d'))
      (fun k a b => ((append_extends t v hg ht).inner _ (inner_update d k (hg d).1 hp a b)).symm)
  have r1 := rows t1 values h1
  have r2 := rows t2 (douglasStage g c theta t1 t2 values (d + 1)) h2
  have hc := correction_solves c theta t1 t2 (fun p => g.applyTridiag c t1 d values p * (t2 - t1)) (douglasStage g c theta t1 t2 values d) d p hg hp hsol
  rw [← douglasStage_succ g c theta t1 t2 values d h] at hc
  linear_combination hc + theta * (t2 - t1) * r2 - theta * (t2 - t1) * r1

/-- C64: what a step computes. There are a grid function `u0` that extends the given values by the boundary conditions at the first time, and stages `y 0, .., y n` with
extensions `e 0, .., e n` by the boundary conditions at the second time, such that `y 0` is an explicit step with the whole operator, stage `d + 1` corrects the part of
dimension `d` implicitly, and the result is the extension of the last stage. -/
theorem C64_scheme (g : AdiGrid n K) (c : K → AdiCoeffs n K) (theta t1 t2 : K) (values result : GridIndex n → K) (hg : ProperGrid g)
    (h1 : ProperConditions g t1) (h2 : ProperConditions g t2) (hsol : LinesSolvable g c theta t1 t2) (h : g.step c theta t1 t2 values = some result) :
    ∃ (u0 : GridIndex n → K) (y e : Nat → GridIndex n → K), Extends g t1 values u0 ∧ (∀ k, Extends g t2 (y k) (e k)) ∧
      (∀ p, Inner g p → y 0 p = values p - (t2 - t1) * spaceAt g (c t1) u0 p) ∧
      (∀ (d : Fin n) p, Inner g p → y (d + 1) p = y d p - theta * (t2 - t1) * (partAt g (c t2) d (e (d + 1)) p - partAt g (c t1) d u0 p)) ∧
      result = e n := by
  refine ⟨g.appendBoundaries t1 values, douglasStage g c theta t1 t2 values, fun k => g.appendBoundaries t2 (douglasStage g c theta t1 t2 values k),
    append_extends t1 values hg h1, fun k => append_extends t2 _ hg h2, fun p hp => ?_, fun d p hp => ?_, ?_⟩
  · rw [douglasStage_zero, explicit_eq g c t1 t2 values hg h1 p hp]
  · exact stage_eq g c theta t1 t2 values hg h1 h2 hsol d p hp
  · unfold step at h
    split_ifs at h
    show result = g.appendBoundaries t2 (douglasStage g c theta t1 t2 values n)
    rw [douglasStage_last]
    exact (Option.some.inj h).symm

omit [IsStrictOrderedRing K] in
/-- C64: the weight of the implicit part must be between zero and one. -/
theorem C64_theta (g : AdiGrid n K) (c : K → AdiCoeffs n K) (theta t1 t2 : K) (values : GridIndex n → K) :
    (g.step c theta t1 t2 values).isSome ↔ 0 ≤ theta ∧ theta ≤ 1 := by
  unfold step
  split_ifs with h
  · simp only [Option.isSome_none, Bool.false_eq_true, false_iff, not_and_or, not_le]; exact h
  · simpa only [Option.isSome_some, true_iff, not_or, not_lt] using h

/-- C64: the boundary conditions at the new time hold after the step, on every line of inner points and of the boundaries of earlier dimensions. -/
theorem C64_boundary (g : AdiGrid n K) (c : K → AdiCoeffs n K) (theta t1 t2 : K) (values result : GridIndex n → K) (hg : ProperGrid g)
    (h2 : ProperConditions g t2) (h : g.step c theta t1 t2 values = some result) (d : Fin n) (p : GridIndex n) (hp : ∀ d', d < d' → InnerIn g d' p) :
    LineBc g t2 d result p := by
  unfold step at h
  split_ifs at h
  rw [← Option.some.inj h]
  exact (lineBc_iff t2 d _ p hg h2).2 (append_lineValues t2 _ d p (fun d => (hg d).1) hp)

/-- C64: the values in the inner grid and the boundary conditions determine the values on the grid. -/
theorem C64_extension_unique (g : AdiGrid n K) (t : K) (v v' w w' : GridIndex n → K) (hg : ProperGrid g) (hc : ProperConditions g t)
    (hw : Extends g t v w) (hw' : Extends g t v' w') (hv : ∀ p, Inner g p → v p = v' p) (p : GridIndex n) (hp : ∀ d, p d < g.size d) : w p = w' p := by
  have key : ∀ k : Nat, ∀ p : GridIndex n, (∀ d, p d < g.size d) → (∀ d : Fin n, k ≤ d → InnerIn g d p) → w p = w' p := by
    intro k
    induction k with
    | zero =>
      intro p _ hin
      have : Inner g p := fun d => hin d (Nat.zero_le _)
      rw [hw.inner p this, hw'.inner p this, hv p this]
    | succ k ih =>
      intro p hp hin
      by_cases hk : k < n
      swap
      · exact ih p hp (fun d hd => absurd d.2 (by omega))
      let d : Fin n := ⟨k, hk⟩
      have hs := (hg d).1
      have hafter : ∀ d', d < d' → InnerIn g d' p := fun d' hd' => hin d' hd'
      have l := (lineBc_iff t d w p hg hc).1 (hw.bc d p (fun d' _ => hp d') hafter)
      have l' := (lineBc_iff t d w' p hg hc).1 (hw'.bc d p (fun d' _ => hp d') hafter)
      have on : ∀ m, m ≠ 0 → m + 1 < g.size d → w (Function.update p d m) = w' (Function.update p d m) := by
        intro m h0 h1
        refine ih _ (fun d' => ?_) (fun d' hd' => ?_)
        · by_cases h : d' = d
          · subst h; rw [Function.update_self]; omega
          · rw [Function.update_of_ne h]; exact hp d'
        · by_cases h : d' = d
          · subst h
            unfold InnerIn
            rw [Function.update_self]
            exact ⟨by omega, fun _ => h0, fun _ => by omega⟩
          · have hlt : d < d' := by
              have : (d' : Nat) ≠ k := fun e => h (Fin.ext e)
              exact Fin.lt_def.2 (show k < (d' : Nat) by omega)
            have := hafter d' hlt
            unfold InnerIn at this ⊢
            rwa [Function.update_of_ne h]
      by_cases hlow : g.lower d ≠ none ∧ p d = 0
      · have a := l.lower hlow.1
        have a' := l'.lower hlow.1
        rw [on 1 (by omega) (by omega), on 2 (by omega) (by omega), ← a', ← hlow.2, Function.update_eq_self] at a
        exact a
      by_cases hupp : g.upper d ≠ none ∧ p d + 1 = g.size d
      · have a := l.upper hupp.1
        have a' := l'.upper hupp.1
        rw [on (g.size d - 2) (by omega) (by omega), on (g.size d - 3) (by omega) (by omega), ← a', show g.size d - 1 = p d by omega,
          Function.update_eq_self] at a
        exact a
      · refine ih p hp (fun d' hd' => ?_)
        by_cases h : d' = d
        · subst h
          refine ⟨hp _, fun a b => hlow ⟨a, b⟩, fun a b => hupp ⟨a, b⟩⟩
        · refine hin d' ?_
          have : (d' : Nat) ≠ k := fun e => h (Fin.ext e)
          omega
  exact key n p hp (fun d hd => absurd d.2 (by omega))

/-- C64: a steady state of the difference equations is preserved by a step of any size and any weight: if the coefficients and conditions are the same at both times,
and the operator vanishes on `u`, which satisfies the boundary conditions, then the result is `u`. -/
theorem C64_steady (g : AdiGrid n K) (c : K → AdiCoeffs n K) (theta t1 t2 : K) (u result : GridIndex n → K) (hg : ProperGrid g)
    (h1 : ProperConditions g t1) (hc : c t2 = c t1) (hl : ∀ d f, g.lower d = some f → f t2 = f t1) (hu : ∀ d f, g.upper d = some f → f t2 = f t1)
    (hsol : LinesSolvable g c theta t1 t2) (hbc : Extends g t1 u u) (hzero : ∀ p, Inner g p → spaceAt g (c t1) u p = 0)
    (h : g.step c theta t1 t2 u = some result) (p : GridIndex n) (hp : ∀ d, p d < g.size d) : result p = u p := by
  have h2 : ProperConditions g t2 :=
    ⟨fun d f q hf => by rw [hl d f hf]; exact h1.lower d f q hf, fun d f q hf => by rw [hu d f hf]; exact h1.upper d f q hf⟩
  have ext : ∀ v w : GridIndex n → K, Extends g t2 v w → Extends g t1 v w := by
    intro v w hw
    refine ⟨hw.inner, fun d p a b => ⟨fun f hf => ?_, fun f hf => ?_⟩⟩
    · have := (hw.bc d p a b).lower f hf
      rwa [hl d f hf] at this
    · have := (hw.bc d p a b).upper f hf
      rwa [hu d f hf] at this
  -- the rows at the two times agree
  have hxl : ∀ d p, g.lowerXi d t2 p = g.lowerXi d t1 p := by
    intro d p; unfold lowerXi
    cases hd : g.lower d with
    | none => rfl
    | some f => simp only [Option.elim_some]; rw [hl d f hd]
  have hxu : ∀ d p, g.upperXi d t2 p = g.upperXi d t1 p := by
    intro d p; unfold upperXi
    cases hd : g.upper d with
    | none => rfl
    | some f => simp only [Option.elim_some]; rw [hu d f hd]
  have hrows : ∀ d p, g.super c t2 d p = g.super c t1 d p ∧ g.sub c t2 d p = g.sub c t1 d p ∧ g.diag c t2 d p = g.diag c t1 d p ∧
      g.inhomog c t2 d p = g.inhomog c t1 d p := by
    intro d p
    obtain ⟨a1, a2, a3, a4⟩ := entries_robin (g := g) c t2 d p h2 (hg d).1
    obtain ⟨b1, b2, b3, b4⟩ := entries_robin (g := g) c t1 d p h1 (hg d).1
    rw [a1, a2, a3, a4, b1, b2, b3, b4, hc, hxl, hxu]
    exact ⟨rfl, rfl, rfl, rfl⟩
  have happly : ∀ d v p, g.applyTridiag c t2 d v p = g.applyTridiag c t1 d v p := by
    intro d v p
    obtain ⟨a1, a2, a3, -⟩ := hrows d p
    unfold applyTridiag; rw [a1, a2, a3]
  have hstage : ∀ k, k ≤ n → ∀ p, Inner g p → douglasStage g c theta t1 t2 u k p = u p := by
    intro k
    induction k with
    | zero =>
      intro _ p hp
      rw [douglasStage_zero, explicit_eq g c t1 t2 u hg h1 p hp]
      have heq : ∀ q, (∀ d, q d < g.size d) → g.appendBoundaries t1 u q = u q := fun q hq =>
        C64_extension_unique g t1 u u _ u hg h1 (append_extends t1 u hg h1) hbc (fun _ _ => rfl) q hq
      -- the explicit substep adds nothing
      have hon : ∀ d, p d < g.size d := fun d => (hp d).1
      have hnb : ∀ (d : Fin n) (q : GridIndex n), (∀ d, q d < g.size d) →
          ¬ (g.upper d = none ∧ q d + 1 = g.size d) → ((g.upper d ≠ none → q d + 1 ≠ g.size d)) → ∀ d', (Function.update q d (q d + 1)) d' < g.size d' := by
        intro d q hq hn hn' d'
        by_cases h : d' = d
        · subst h
          rw [Function.update_self]
          have := hq d'
          by_cases hu : g.upper d' = none
          · have : ¬ (q d' + 1 = g.size d') := fun e => hn ⟨hu, e⟩
            omega
          · have := hn' hu; omega
        · rw [Function.update_of_ne h]; exact hq d'
      have hdn : ∀ (d : Fin n) (q : GridIndex n), (∀ d, q d < g.size d) → ∀ d', (Function.update q d (q d - 1)) d' < g.size d' := by
        intro d q hq d'
        by_cases h : d' = d
        · subst h
          rw [Function.update_self]
          have := hq d'; omega
        · rw [Function.update_of_ne h]; exact hq d'
      have hpart : ∀ d, partAt g (c t1) d (g.appendBoundaries t1 u) p = partAt g (c t1) d u p := by
        intro d
        unfold partAt forwardFirst backwardFirst centralFirst centralSecond
        simp only [heq p hon, heq _ (hdn d p hon)]
        by_cases ha : g.upper d = none ∧ p d + 1 = g.size d
        · have hne : ¬ (g.lower d = none ∧ p d = 0) := by rintro ⟨-, e⟩; have := (hg d).1; omega
          simp only [if_neg hne, if_pos ha]
        · simp only [heq _ (hnb d p hon ha (hp d).2.2)]
      have hmix : ∀ i j, i < j → mixedAt g (c t1) i j (g.appendBoundaries t1 u) p = mixedAt g (c t1) i j u p := by
        intro i j hij
        unfold mixedAt
        by_cases hd : (g.lower i = none ∧ p i = 0) ∨ (g.upper i = none ∧ p i + 1 = g.size i) ∨ (g.lower j = none ∧ p j = 0) ∨ (g.upper j = none ∧ p j + 1 = g.size j)
        · rw [if_pos hd, if_pos hd]
        · rw [if_neg hd, if_neg hd]
          have hji : j ≠ i := hij.ne'
          have ui := hnb i p hon (fun a => hd (Or.inr (Or.inl a))) (hp i).2.2
          have di := hdn i p hon
          have uj : ∀ q : GridIndex n, (∀ d, q d < g.size d) → q j = p j → ∀ d', (Function.update q j (q j + 1)) d' < g.size d' := by
            intro q hq e
            refine hnb j q hq (fun a => hd (Or.inr (Or.inr (Or.inr ?_)))) (fun a => ?_)
            · rwa [e] at a
            · rw [e]; exact (hp j).2.2 a
          unfold centralMixed centralFirst
          simp only [heq _ (uj _ ui (Function.update_of_ne hji _ _)), heq _ (uj _ di (Function.update_of_ne hji _ _)), heq _ (hdn j _ ui), heq _ (hdn j _ di)]
      have : spaceAt g (c t1) (g.appendBoundaries t1 u) p = spaceAt g (c t1) u p := by
        unfold spaceAt
        congr 1
        · exact Finset.sum_congr rfl fun d _ => hpart d
        · refine Finset.sum_congr rfl fun i _ => Finset.sum_congr rfl fun j _ => ?_
          by_cases hij : i < j
          · rw [if_pos hij, if_pos hij, hmix i j hij]
          · rw [if_neg hij, if_neg hij]
      rw [this, hzero p hp, mul_zero, sub_zero]
    | succ k ih =>
      intro hk p hp
      by_cases h0 : theta = 0
      · have := ih (by omega) p hp
        unfold douglasStage at this ⊢
        rwa [if_pos h0] at this ⊢
      have := douglasStage_succ g c theta t1 t2 u ⟨k, hk⟩ h0
      simp only at this
      rw [this]
      refine correction_unique c theta t1 t2 _ _ u _ p hg hp hsol (fun m a b => ?_)
      rw [ih (by omega) _ (inner_update _ m (hg _).1 hp a b), happly, (hrows _ _).2.2.2]
      ring
  unfold step at h
  split_ifs at h
  rw [← Option.some.inj h, ← douglasStage_last]
  exact C64_extension_unique g t1 (douglasStage g c theta t1 t2 u n) u _ u hg h1 (ext _ _ (append_extends t2 _ hg h2)) hbc (hstage n le_rfl) p hp

/-- C64: in one dimension a step is the weighted (theta) scheme. -/
theorem C64_one_dimension (g : AdiGrid 1 K) (c : K → AdiCoeffs 1 K) (theta t1 t2 : K) (values result : GridIndex 1 → K) (hg : ProperGrid g)
    (h1 : ProperConditions g t1) (h2 : ProperConditions g t2) (hsol : LinesSolvable g c theta t1 t2) (h : g.step c theta t1 t2 values = some result) :
    ∃ u0, Extends g t1 values u0 ∧ ∀ p, Inner g p →
      result p = values p - (t2 - t1) * ((1 - theta) * partAt g (c t1) 0 u0 p + theta * partAt g (c t2) 0 result p) := by
  obtain ⟨u0, y, e, hu0, he, hy0, hy, hr⟩ := C64_scheme g c theta t1 t2 values result hg h1 h2 hsol h
  refine ⟨u0, hu0, fun p hp => ?_⟩
  have a := hy0 p hp
  have b := hy 0 p hp
  simp only [Fin.val_zero, zero_add] at b
  have hs : spaceAt g (c t1) u0 p = partAt g (c t1) 0 u0 p := by
    unfold spaceAt; simp
  rw [hr, (he 1).inner p hp, b, a, hs]
  ring

/-- C64: the lines can be solved if the matrices are diagonally dominant. -/
theorem C64_solvable (g : AdiGrid n K) (c : K → AdiCoeffs n K) (theta t1 t2 : K) (hg : ProperGrid g)
    (h : ∀ d p, Inner g p → |theta * g.sub c t2 d p * (t2 - t1)| + |theta * g.super c t2 d p * (t2 - t1)| < 1 - theta * g.diag c t2 d p * (t2 - t1)) :
    LinesSolvable g c theta t1 t2 := by
  intro d p hp rhs hlen
  have hrhs : rhs = (List.range (g.hi d + 1 - g.lo d)).map (fun k => rhs.getD k 0) := asRange rhs _ hlen
  unfold solveLine tridiagonalSolve
  rw [hrhs]
  simp only [List.map_map, zip_mapRange, Function.comp_def]
  refine thomas_total _ 0 0 (by simp) (fun r hr => ?_)
  obtain ⟨k, hk, rfl⟩ := List.mem_map.1 hr
  have hk := List.mem_range.1 hk
  have := h d _ (inner_update d (g.lo d + k) (hg d).1 hp (by omega) (by omega))
  simp only [neg_mul, abs_neg]
  exact this

/-- C64: for a heat equation backward in time, with Dirichlet or default conditions, every step can be solved. -/
theorem C64_heat_solvable (g : AdiGrid n K) (c : K → AdiCoeffs n K) (theta t1 t2 : K) (hg : ProperGrid g) (h0 : 0 ≤ theta) (ht : t2 ≤ t1)
    (hfirst : ∀ d, (c t2).first d = none) (hinner : ∀ d, (c t2).innerFirst d = none) (hzeroth : (c t2).zeroth = none)
    (hsecond : ∀ d, (c t2).innerSecond d d = none) (hpos : ∀ d p, 0 ≤ ((c t2).second d d).elim 0 (fun a => a p))
    (hl : ∀ d f, g.lower d = some f → (f t2).beta = none) (hu : ∀ d f, g.upper d = some f → (f t2).beta = none) :
    LinesSolvable g c theta t1 t2 := by
  refine C64_solvable g c theta t1 t2 hg (fun d p hp => ?_)
  have hb : g.noBeta d t2 = true := by
    unfold noBeta
    rw [Bool.and_eq_true]
    constructor
    · cases h : g.lower d with
      | none => rfl
      | some f => simp [hl d f h]
    · cases h : g.upper d with
      | none => rfl
      | some f => simp [hu d f h]
  set a := ((c t2).second d d).elim 0 (fun a => a p) with ha
  have hw : ∀ (w : K) (q : GridIndex n), weighted w ((c t2).second d d) ((c t2).innerSecond d d) p q = w * a := by
    intro w q
    rw [weighted_eq, hsecond d, ha]
    unfold outerCoeff innerCoeff
    cases (c t2).second d d <;> simp
  have hw1 : ∀ (w : K) (q : GridIndex n), weighted w ((c t2).first d) ((c t2).innerFirst d) p q = 0 := by
    intro w q; rw [hfirst, hinner]; rfl
  have hd := (hg d).2
  have hx : ∀ q, extraFirst (c t2) d q = 0 := by intro q; unfold extraFirst; rw [hfirst, hinner]
  have hap : 0 ≤ a := hpos d p
  have hq : 0 ≤ a / (g.delta d * g.delta d) := by positivity
  have hm : 0 ≤ theta * (a / (g.delta d * g.delta d)) * (t1 - t2) := mul_nonneg (mul_nonneg h0 hq) (sub_nonneg.2 ht)
  unfold Model.AdiGrid.sub Model.AdiGrid.super Model.AdiGrid.diag defaultSub defaultSuper defaultDiag innerSub innerSuper innerDiag
  simp only [hb, if_true, hw, hw1, hx, hzeroth, Option.elim_none, mul_zero, zero_div, neg_zero, zero_add, add_zero]
  by_cases c1 : (g.lower d).isNone = true ∧ p d = 0
  · simp only [if_pos c1, mul_zero, zero_mul, abs_zero]; simp
  · simp only [if_neg c1]
    by_cases c2 : (g.upper d).isNone = true ∧ p d = g.size d - 1
    · simp only [if_pos c2, mul_zero, zero_mul, abs_zero]; simp
    · simp only [if_neg c2]
      have e : theta * (-1 / (g.delta d * g.delta d) * a) * (t2 - t1) = theta * (a / (g.delta d * g.delta d)) * (t1 - t2) := by ring
      have e2 : theta * ((-(-1 / (g.delta d * g.delta d)) - -1 / (g.delta d * g.delta d)) * a) * (t2 - t1) =
          -2 * (theta * (a / (g.delta d * g.delta d)) * (t1 - t2)) := by ring
      rw [e, e2, abs_of_nonneg hm]
      linarith

omit [LinearOrder K] [IsStrictOrderedRing K] in
/-- C64: the differences are exact for polynomials of degree two in all variables: for `a + b x + x M x` they give the gradient and the matrix of second derivatives. -/
theorem C64_exact (h2 : (2 : K) ≠ 0) (x0 delta : Fin n → K) (hd : ∀ d, delta d ≠ 0) (a : K) (b : Fin n → K) (m : Matrix (Fin n) (Fin n) K) (p : GridIndex n) (i j : Fin n)
    (hi : p i ≠ 0) (hj : p j ≠ 0) :
    let x : GridIndex n → Fin n → K := fun p d => x0 d + p d * delta d
    let v : GridIndex n → K := fun p => a + b ⬝ᵥ x p + x p ⬝ᵥ m.mulVec (x p)
    centralFirst (delta i) v i p = b i + (m.mulVec (x p)) i + (Matrix.vecMul (x p) m) i ∧
      centralSecond (delta i) v i p = 2 * m i i ∧ (i ≠ j → centralMixed (delta i) (delta j) v i j p = m i j + m j i) := by
  intro x v
  have hup : ∀ (p : GridIndex n) (d : Fin n), x (Function.update p d (p d + 1)) = x p + Pi.single d (delta d) := by
    intro p d
    funext d'
    simp only [x, Pi.add_apply]
    by_cases h : d' = d
    · subst h; rw [Function.update_self, Pi.single_eq_same]; push_cast; ring
    · rw [Function.update_of_ne h, Pi.single_eq_of_ne h, add_zero]
  have hdown : ∀ (p : GridIndex n) (d : Fin n), p d ≠ 0 → x (Function.update p d (p d - 1)) = x p - Pi.single d (delta d) := by
    intro p d hp
    funext d'
    simp only [x, Pi.sub_apply]
    by_cases h : d' = d
    · subst h; rw [Function.update_self, Pi.single_eq_same, Nat.cast_sub (by omega)]; push_cast; ring
    · rw [Function.update_of_ne h, Pi.single_eq_of_ne h, sub_zero]
  have entry : ∀ (d : Fin n) (s : K) (k : Fin n), (m.mulVec (Pi.single d s)) k = m k d * s ∧ (Matrix.vecMul (Pi.single d s) m) k = s * m d k := by
    intro d s k
    constructor
    · simp only [Matrix.mulVec, dotProduct_single]
    · simp only [Matrix.vecMul, single_dotProduct]
  have shift : ∀ (y : Fin n → K) (d : Fin n) (s : K), a + b ⬝ᵥ (y + Pi.single d s) + (y + Pi.single d s) ⬝ᵥ m.mulVec (y + Pi.single d s) =
      a + b ⬝ᵥ y + y ⬝ᵥ m.mulVec y + s * (b d + (m.mulVec y) d + (Matrix.vecMul y m) d) + s ^ 2 * m d d := by
    intro y d s
    rw [dotProduct_add, Matrix.mulVec_add, add_dotProduct, dotProduct_add, dotProduct_add, dotProduct_single, single_dotProduct, single_dotProduct, (entry d s d).1,
      Matrix.dotProduct_mulVec y m (Pi.single d s), dotProduct_single]
    ring
  have hdown' : ∀ (p : GridIndex n) (d : Fin n), p d ≠ 0 → x (Function.update p d (p d - 1)) = x p + Pi.single d (-delta d) := by
    intro p d hp
    rw [hdown p d hp, Pi.single_neg, sub_eq_add_neg]
  have hplus : ∀ (p : GridIndex n) (d : Fin n), v (Function.update p d (p d + 1)) =
      v p + delta d * (b d + (m.mulVec (x p)) d + (Matrix.vecMul (x p) m) d) + delta d ^ 2 * m d d := by
    intro p d
    simp only [v, hup, shift]
  have hminus : ∀ (p : GridIndex n) (d : Fin n), p d ≠ 0 → v (Function.update p d (p d - 1)) =
      v p - delta d * (b d + (m.mulVec (x p)) d + (Matrix.vecMul (x p) m) d) + delta d ^ 2 * m d d := by
    intro p d hp
    simp only [v, hdown' p d hp, shift]
    ring
  have hfirst : ∀ (p : GridIndex n) (d : Fin n), p d ≠ 0 → centralFirst (delta d) v d p = b d + (m.mulVec (x p)) d + (Matrix.vecMul (x p) m) d := by
    intro p d hp
    have := hd d
    unfold centralFirst
    rw [hplus, hminus p d hp]
    field_simp
    ring
  refine ⟨hfirst p i hi, ?_, fun hij => ?_⟩
  · have := hd i
    unfold centralSecond
    rw [hplus, hminus p i hi]
    field_simp
    ring
  · have := hd i
    have hji := hij.symm
    unfold centralMixed
    rw [centralFirst, hfirst _ j (by rwa [Function.update_of_ne hji]), hfirst _ j (by rwa [Function.update_of_ne hji]), hup, hdown' p i hi]
    simp only [Matrix.mulVec_add, Matrix.add_vecMul, Pi.add_apply, (entry _ _ _).1, (entry _ _ _).2]
    field_simp
    ring

/-! ## Examples -/

/-- A heat equation on a square grid with four points in each dimension: first dimension with the value zero at the lower end and default at the upper end, second dimension
with the value one at both ends. -/
def exampleGrid : AdiGrid 2 ℚ where
  size := fun _ => 4
  delta := fun _ => 1
  lower := fun d => if d = 0 then some (fun _ => ⟨some (fun _ => 1), none, fun _ => 0⟩) else some (fun _ => ⟨some (fun _ => 1), none, fun _ => 1⟩)
  upper := fun d => if d = 0 then none else some (fun _ => ⟨some (fun _ => 1), none, fun _ => 1⟩)
def exampleCoeffs : ℚ → AdiCoeffs 2 ℚ := fun _ =>
  ⟨fun i j => if i = j then some (fun _ => 1) else some (fun _ => 1 / 2), fun _ => none, none, fun _ _ => none, fun _ => none⟩

theorem exampleGrid_proper : ProperGrid exampleGrid := fun _ => ⟨le_rfl, by norm_num [exampleGrid]⟩

theorem exampleGrid_conditions (t : ℚ) : ProperConditions exampleGrid t where
  lower := by
    intro d f q h
    simp only [exampleGrid] at h
    split_ifs at h <;> (obtain rfl := Option.some.inj h; simp [conditionAt, ProperBc])
  upper := by
    intro d f q h
    simp only [exampleGrid] at h
    split_ifs at h
    obtain rfl := Option.some.inj h
    simp [conditionAt, ProperBc]

theorem exampleGrid_solvable (theta : ℚ) (h : 0 ≤ theta) : LinesSolvable exampleGrid exampleCoeffs theta 1 0 := by
  refine C64_heat_solvable _ _ theta 1 0 exampleGrid_proper h (by norm_num) (fun _ => rfl) (fun _ => rfl) rfl (fun _ => rfl)
    (fun d p => by simp [exampleCoeffs]) ?_ ?_
  · intro d f h
    simp only [exampleGrid] at h
    split_ifs at h <;> (obtain rfl := Option.some.inj h; rfl)
  · intro d f h
    simp only [exampleGrid] at h
    split_ifs at h
    obtain rfl := Option.some.inj h
    rfl

/-- A step of the example with weight one half, at an inner point. -/
example : ((exampleGrid.step exampleCoeffs (1 / 2) 1 0 (fun p => (p 0 : ℚ) * p 1)).map (fun r => (r ![1, 1], r ![2, 2], r ![3, 1], r ![0, 2], r ![2, 0]))) =
    some (7 / 5, 4 / 3, 37 / 15, 0, 1) := by decide +kernel

/-- The scheme theorem applies to it. -/
example (theta : ℚ) (h0 : 0 ≤ theta) (h1 : theta ≤ 1) (v : GridIndex 2 → ℚ) : ∃ result, exampleGrid.step exampleCoeffs theta 1 0 v = some result ∧
    ∀ p, (∀ d', (1 : Fin 2) < d' → InnerIn exampleGrid d' p) → LineBc exampleGrid 0 1 result p := by
  obtain ⟨r, hr⟩ := Option.isSome_iff_exists.1 ((C64_theta exampleGrid exampleCoeffs theta 1 0 v).2 ⟨h0, h1⟩)
  exact ⟨r, hr, fun p hp => C64_boundary exampleGrid exampleCoeffs theta 1 0 v r exampleGrid_proper (exampleGrid_conditions 0) hr 1 p hp⟩

/-- A steady state: the linear function between the values zero and three at the ends. -/
def steadyGrid : AdiGrid 1 ℚ where
  size := fun _ => 4
  delta := fun _ => 1
  lower := fun _ => some (fun _ => ⟨some (fun _ => 1), none, fun _ => 0⟩)
  upper := fun _ => some (fun _ => ⟨some (fun _ => 1), none, fun _ => 3⟩)
def steadyCoeffs : ℚ → AdiCoeffs 1 ℚ := fun _ => ⟨fun _ _ => some (fun _ => 2), fun _ => none, none, fun _ _ => none, fun _ => none⟩

example (theta dt : ℚ) (h0 : 0 ≤ theta) (hdt : 0 ≤ dt) (result : GridIndex 1 → ℚ)
    (h : steadyGrid.step steadyCoeffs theta 0 (-dt) (fun p => (p 0 : ℚ)) = some result) (p : GridIndex 1) (hp : p 0 < 4) : result p = p 0 := by
  have hg : ProperGrid steadyGrid := fun _ => ⟨le_rfl, by norm_num [steadyGrid]⟩
  have hc : ∀ t, ProperConditions steadyGrid t := fun t =>
    ⟨fun d f q h => by obtain rfl := Option.some.inj h; simp [conditionAt, ProperBc], fun d f q h => by obtain rfl := Option.some.inj h; simp [conditionAt, ProperBc]⟩
  refine C64_steady steadyGrid steadyCoeffs theta 0 (-dt) _ result hg (hc 0) rfl (fun d f h => by obtain rfl := Option.some.inj h; rfl)
    (fun d f h => by obtain rfl := Option.some.inj h; rfl) ?_ ⟨fun _ _ => rfl, fun d p _ _ => (lineBc_iff 0 d _ p hg (hc 0)).2 ⟨fun _ => ?_, fun _ => ?_⟩⟩ ?_ h p
    (fun d => by fin_cases d; exact hp)
  · exact C64_heat_solvable steadyGrid steadyCoeffs theta 0 (-dt) hg h0 (by linarith) (fun _ => rfl) (fun _ => rfl) rfl (fun _ => rfl)
      (fun d p => by simp [steadyCoeffs]) (fun d f h => by obtain rfl := Option.some.inj h; rfl) (fun d f h => by obtain rfl := Option.some.inj h; rfl)
  · fin_cases d
    simp [steadyGrid, lowerXi, discretized, bcAt, discretizeBoundary]
  · fin_cases d
    simp [steadyGrid, upperXi, discretized, bcAt, discretizeBoundary]
  · intro p hp
    have := (hp 0).2.1 (by simp [steadyGrid])
    have h1 : ((p 0 - 1 : ℕ) : ℚ) = (p 0 : ℚ) - 1 := by rw [Nat.cast_sub (by omega)]; simp
    have hl : ¬ (steadyGrid.lower 0 = none ∧ p 0 = 0) := by rintro ⟨a, -⟩; simp [steadyGrid] at a
    have hu : ¬ (steadyGrid.upper 0 = none ∧ p 0 + 1 = steadyGrid.size 0) := by rintro ⟨a, -⟩; simp [steadyGrid] at a
    unfold spaceAt partAt
    simp only [Fin.sum_univ_one, Fin.isValue, lt_self_iff_false, if_false, if_neg hl, if_neg hu]
    simp [steadyCoeffs, outerCoeff, innerCoeff, centralSecond, steadyGrid, h1]
    ring

end Props
