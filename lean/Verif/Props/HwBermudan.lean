import Verif.Lemmas.HwBermudan
import Verif.Spec.HwBermudan
import Verif.Props.Lsm

/-!
# Property theorems C111: Bermudan swaptions in the Hull-White model
-/

namespace Props
open Model Spec Lemmas HwBermudan
open NdArray (Valid)

/-- C111.  Payoffs are moved to the indices of their exercise times: for distinct exercise times of an entry of the batch, the result at the index
of exercise `e` is the payoff of exercise `e`, and the flag is one there; everywhere else both are zero. -/
theorem C111_map {K : Type} [Zero K] [One K] (batch : List Nat) (E N : Nat) (indices : Model.NdArray Nat) (payoff : Model.NdArray K)
    (hi : indices.shape = batch ++ [E]) (hp : payoff.shape = N :: (batch ++ [E])) (s : Nat) (hs : s < N) (entry : List Nat) (hb : Valid batch entry)
    (hd : ∀ e e', e < E → e' < E → indices.get (entry ++ [e]) = indices.get (entry ++ [e']) → e = e') :
    (∀ e, e < E →
      (mapPayoffToSimTimes indices payoff N).1.get (s :: entry ++ [indices.get (entry ++ [e])]) = 1 ∧
      (mapPayoffToSimTimes indices payoff N).2.get (s :: entry ++ [indices.get (entry ++ [e])]) = payoff.get (s :: entry ++ [e])) ∧
    (∀ j, (∀ e, e < E → indices.get (entry ++ [e]) ≠ j) →
      (mapPayoffToSimTimes indices payoff N).1.get (s :: entry ++ [j]) = 0 ∧
      (mapPayoffToSimTimes indices payoff N).2.get (s :: entry ++ [j]) = 0) := by
  have hshape : N :: indices.shape = (N :: batch) ++ [E] := by rw [hi]; rfl
  set shape := N :: indices.shape with hsh
  set rep := flatValues shape (fun idx => indices.get idx.tail) with hrep
  set sparse := stackLists shape.prod (sparseIndexLists shape rep) with hsp
  have hne : shape ≠ [] := by rw [hsh]; simp
  have hidx : ∀ s' b' e, s' < N → Valid batch b' → e < E →
      sparse[flatIndex shape (s' :: b' ++ [e])]? = some (s' :: b' ++ [indices.get (b' ++ [e])]) := by
    intro s' b' e hs' hb' he
    have hv : Valid shape (s' :: b' ++ [e]) := by rw [hshape]; exact valid_snoc he (valid_cons hs' hb')
    rw [hsp, sparse_index shape rep hne hv]
    refine congrArg some ?_
    have h1 : (s' :: b' ++ [e]).dropLast = s' :: b' := List.dropLast_concat
    have h2 : rep.getD (flatIndex shape (s' :: b' ++ [e])) 0 = indices.get (b' ++ [e]) := by
      rw [List.getD_eq_getElem?_getD, hrep, flatValues_get _ _ hv]
      rfl
    rw [h1, h2]
  have hback : ∀ k x, sparse[k]? = some x → ∃ s' b' e, s' < N ∧ Valid batch b' ∧ e < E ∧ k = flatIndex shape (s' :: b' ++ [e]) ∧
      x = s' :: b' ++ [indices.get (b' ++ [e])] := by
    intro k x hx
    have hk : k < shape.prod := by
      have := (List.getElem?_eq_some_iff.1 hx).1
      simpa [hsp, stackLists] using this
    obtain ⟨h1, h2⟩ := NdArray.unflat_valid hk
    have h1' := h1
    rw [hshape] at h1'
    obtain ⟨c, e, hce, hc, he⟩ := valid_snoc_inv h1'
    cases hc with
    | cons h3 h4 =>
      rename_i s' b'
      rw [hshape, hce, ← hshape] at h2
      have h5 := hidx s' b' e h3 h4 he
      refine ⟨s', b', e, h3, h4, he, h2.symm, ?_⟩
      have h6 : flatIndex shape (s' :: b' ++ [e]) = k := h2
      rw [h6, hx] at h5
      exact Option.some.inj h5
  have hsplit : ∀ (s' : Nat) (b' : List Nat) (i : Nat) (b : List Nat) (j : Nat), s' :: b' ++ [i] = s :: b ++ [j] → s' = s ∧ b' = b ∧ i = j := by
    intro s' b' i b j h
    have h1 := List.append_inj' h rfl
    have h2 := List.cons.inj h1.1
    exact ⟨h2.1, h2.2, by simpa using h1.2⟩
  constructor
  · intro e he
    have hu : ∀ k', sparse[k']? = some (s :: entry ++ [indices.get (entry ++ [e])]) → k' = flatIndex shape (s :: entry ++ [e]) := by
      intro k' hk'
      obtain ⟨s', b', e', hs', hb', he', rfl, hx⟩ := hback k' _ hk'
      obtain ⟨rfl, rfl, h3⟩ := hsplit _ _ _ _ _ hx.symm
      rw [hd e' e he' he h3]
    have hv : Valid shape (s :: entry ++ [e]) := by rw [hshape]; exact valid_snoc he (valid_cons hs hb)
    refine ⟨sparse_hit _ _ _ _ _ _ (hidx s entry e hs hb he) ?_ hu, sparse_hit _ _ _ _ _ _ (hidx s entry e hs hb he) ?_ hu⟩
    · rw [List.getElem?_replicate, if_pos (NdArray.flat_lt hv)]
    · have e1 : payoff.shape = shape := by rw [hp, hsh, hi]
      rw [e1]
      exact flatValues_get _ _ hv
  · intro j hj
    have hm : s :: entry ++ [j] ∉ sparse := by
      intro hm
      obtain ⟨k, hk⟩ := List.mem_iff_getElem?.1 hm
      obtain ⟨s', b', e', hs', hb', he', _, hx⟩ := hback k _ hk
      obtain ⟨rfl, rfl, h3⟩ := hsplit _ _ _ _ _ hx.symm
      exact hj e' he' h3
    exact ⟨sparse_miss _ _ _ _ hm, sparse_miss _ _ _ _ hm⟩

/-- Two samples of two swaptions, exercised at the indices 0, 2 and 1, 2. -/
example : (mapPayoffToSimTimes ⟨[2, 2], fun idx => if idx = [0, 0] then 0 else if idx = [1, 0] then 1 else 2⟩
      (⟨[2, 2, 2], fun idx => (flatIndex [2, 2, 2] idx : ℚ) + 10⟩ : Model.NdArray ℚ) 2).2.shape = [2, 2, 3] ∧
    (List.range 12).map (fun k => (mapPayoffToSimTimes ⟨[2, 2], fun idx => if idx = [0, 0] then 0 else if idx = [1, 0] then 1 else 2⟩
      (⟨[2, 2, 2], fun idx => (flatIndex [2, 2, 2] idx : ℚ) + 10⟩ : Model.NdArray ℚ) 2).2.get (unflatIndex [2, 2, 3] k)) =
    [10, 0, 11, 0, 12, 13, 14, 0, 15, 0, 16, 17] := by decide +kernel

theorem mem_tfUnique {A : Type} [DecidableEq A] (l : List A) (x : A) : x ∈ tfUnique l ↔ x ∈ l := by
  unfold tfUnique; simp

theorem nodup_tfUnique {A : Type} [DecidableEq A] (l : List A) : (tfUnique l).Nodup := by
  unfold tfUnique; exact List.nodup_reverse.2 (List.nodup_dedup _)

theorem tfUnique_self {A : Type} [DecidableEq A] (l : List A) (h : l.Nodup) : tfUnique l = l := by
  unfold tfUnique
  rw [List.dedup_eq_self.2 (List.nodup_reverse.2 h), List.reverse_reverse]

theorem tfUnique_append {A : Type} [DecidableEq A] (l r : List A) (h : r ⊆ l) : tfUnique (l ++ r) = tfUnique l := by
  unfold tfUnique
  rw [List.reverse_append, List.dedup_append, List.Subset.union_eq_right]
  intro x hx
  rw [List.mem_dedup, List.mem_reverse]
  exact h (List.mem_reverse.1 hx)

/-- A payment's index. -/
theorem payment_valid {K : Type} (a : BermudanBatch K) {entry : List Nat} (hb : Valid a.batch entry) {e p : Nat} (he : e < a.numExercise)
    (hp : p < a.numPayments) : Valid a.paymentShape (entry ++ [e, p]) :=
  NdArray.valid_append hb (.cons he (.cons hp .nil))

theorem exercise_valid {K : Type} (a : BermudanBatch K) {entry : List Nat} (hb : Valid a.batch entry) {e : Nat} (he : e < a.numExercise) :
    Valid a.exerciseShape (entry ++ [e]) := valid_snoc he hb

theorem exercise_mem {K : Type} [DecidableEq K] (a : BermudanBatch K) {entry : List Nat} (hb : Valid a.batch entry) {e : Nat} (he : e < a.numExercise) :
    a.exerciseTimes (entry ++ [e]) ∈ a.uniqueTimes := by
  unfold BermudanBatch.uniqueTimes
  rw [mem_tfUnique, mem_flatValues]
  exact ⟨_, exercise_valid a hb he, rfl⟩

/-- C111.  The bond prices used for exercise `e` are those of the path at the time of exercise `e`, for the payment times of that exercise. -/
theorem C111_bonds (a : BermudanBatch ℝ) (paths : CurvePaths) (N : Nat) (step : ℝ) (s : Nat) (hs : s < N) (entry : List Nat)
    (hb : Valid a.batch entry) (e p : Nat) (he : e < a.numExercise) (hp : p < a.numPayments) :
    a.payoffBond paths N step s (entry ++ [e, p]) =
      paths.bond s (a.exerciseTimes (entry ++ [e])) (a.paymentTimes (entry ++ [e, p])) := by
  have hv := payment_valid a hb he hp
  have hrep : a.repeatedTimes (entry ++ [e, p]) = a.exerciseTimes (entry ++ [e]) := by
    unfold BermudanBatch.repeatedTimes
    have : entry ++ [e, p] = (entry ++ [e]) ++ [p] := by simp
    rw [this, List.dropLast_concat]
  have hk := NdArray.flat_lt hv
  unfold BermudanBatch.payoffBond
  dsimp only
  have htau : a.taus.length = a.paymentShape.prod := flatValues_length _ _
  have hidx := C94_indices (List.range N) (a.taus.map (fun (t : ℝ) => searchLeft a.curveTimes t))
    ((flatValues a.paymentShape a.repeatedTimes).map (fun (t : ℝ) => searchLeft (a.simTimes step) t)) [0]
    (by rw [List.length_map, List.length_map, htau, flatValues_length]) s (flatIndex a.paymentShape (entry ++ [e, p])) 0 (by simpa using hs)
    (by rw [List.length_map, htau]; exact hk) (by simp)
  have e1 : flatIndex (N :: a.paymentShape ++ [1]) (s :: (entry ++ [e, p]) ++ [0]) =
      (s * a.paymentShape.prod + flatIndex a.paymentShape (entry ++ [e, p])) * 1 + 0 := by
    have := NdArray.flat_append (valid_cons hs hv) [1] [0]
    rw [this, NdArray.flat_cons]
    simp [flatIndex]
  rw [List.length_map, htau, List.length_singleton] at hidx
  rw [e1, List.getD_eq_getElem?_getD, List.getElem?_map, hidx, Option.map_some, Option.getD_some]
  dsimp only
  have g1 : (List.range N).getD s 0 = s := by rw [List.getD_eq_getElem?_getD, List.getElem?_range hs]; rfl
  have g2 : (a.taus.map (fun (t : ℝ) => searchLeft a.curveTimes t)).getD (flatIndex a.paymentShape (entry ++ [e, p])) 0 =
      searchLeft a.curveTimes (a.paymentTimes (entry ++ [e, p]) - a.exerciseTimes (entry ++ [e])) := by
    rw [List.getD_eq_getElem?_getD, List.getElem?_map]
    unfold BermudanBatch.taus
    rw [flatValues_get _ _ hv, Option.map_some, Option.getD_some, hrep]
  have g3 : ((flatValues a.paymentShape a.repeatedTimes).map (fun (t : ℝ) => searchLeft (a.simTimes step) t)).getD
      (flatIndex a.paymentShape (entry ++ [e, p])) 0 = searchLeft (a.simTimes step) (a.exerciseTimes (entry ++ [e])) := by
    rw [List.getD_eq_getElem?_getD, List.getElem?_map, flatValues_get _ _ hv, Option.map_some, Option.getD_some, hrep]
  rw [g1, g2, g3]
  have t1 : (a.simTimes step).getD (searchLeft (a.simTimes step) (a.exerciseTimes (entry ++ [e]))) 0 = a.exerciseTimes (entry ++ [e]) := by
    have hmem : a.exerciseTimes (entry ++ [e]) ∈ a.simTimes step := mem_simulationTimes _ _ _ _ (exercise_mem a hb he)
    rw [List.getD_eq_getElem?_getD, searchLeft_mem (a.simTimes step) (sorted_simulationTimes _ _ _) _ hmem]
    rfl
  have t2 : a.curveTimes.getD (searchLeft a.curveTimes (a.paymentTimes (entry ++ [e, p]) - a.exerciseTimes (entry ++ [e]))) 0 =
      a.paymentTimes (entry ++ [e, p]) - a.exerciseTimes (entry ++ [e]) := by
    rw [List.getD_eq_getElem?_getD, searchLeft_mem]
    · rfl
    · exact sorted_dedup _
    · unfold BermudanBatch.curveTimes
      rw [List.mem_mergeSort, List.mem_dedup]
      unfold BermudanBatch.taus
      rw [mem_flatValues]
      exact ⟨_, hv, by rw [hrep]⟩
  rw [t1, t2, add_sub_cancel]

/-- The swap from bond prices. -/
theorem swapPayoff_eq {K : Type} [Field K] (a : BermudanBatch K) (isPayer : Bool) (bonds : List Nat → K) (entry : List Nat) (e : Nat)
    (accrual bond : Nat → K) (hm : 0 < a.numPayments) (hb : ∀ p, p < a.numPayments → bonds (entry ++ [e] ++ [p]) = bond p)
    (ha : ∀ p, p < a.numPayments → accrual p = a.coupon (entry ++ [e, p]) * a.daycount (entry ++ [e, p])) :
    a.swapPayoff isPayer bonds (entry ++ [e]) =
      if isPayer then payerSwapValue a.numPayments accrual bond else -payerSwapValue a.numPayments accrual bond := by
  have h1 : ((List.range a.numPayments).map (fun (p : Nat) => a.coupon (entry ++ [e] ++ [p]) * a.daycount (entry ++ [e] ++ [p]) * bonds (entry ++ [e] ++ [p]))).sum =
      ∑ p ∈ Finset.range a.numPayments, accrual p * bond p := by
    rw [sum_mapRange]
    refine Finset.sum_congr rfl (fun p hp => ?_)
    rw [Finset.mem_range] at hp
    rw [hb p hp, ha p hp]
    simp
  unfold BermudanBatch.swapPayoff payerSwapValue
  dsimp only
  rw [h1, hb _ (by omega)]

/-- The value of the swap that an entry of the batch exercises into with exercise `e`, on a path. -/
noncomputable def exerciseSwap (a : BermudanBatch ℝ) (paths : CurvePaths) (s : Nat) (entry : List Nat) (e : Nat) : ℝ :=
  payerSwapValue a.numPayments (fun p => a.coupon (entry ++ [e, p]) * a.daycount (entry ++ [e, p]))
    (fun p => paths.bond s (a.exerciseTimes (entry ++ [e])) (a.paymentTimes (entry ++ [e, p])))

/-- C111.  At each of the exercise times of the batch an entry pays the positive part of its own swap, if it is one of its own exercise times, and
nothing otherwise. -/
theorem C111_payoff (a : BermudanBatch ℝ) (paths : CurvePaths) (N : Nat) (step : ℝ) (s : Nat) (hs : s < N) (entry : List Nat)
    (hb : Valid a.batch entry) (hm : 0 < a.numPayments)
    (hd : ∀ e e', e < a.numExercise → e' < a.numExercise → a.exerciseTimes (entry ++ [e]) = a.exerciseTimes (entry ++ [e']) → e = e')
    (j : Nat) (t : ℝ) (hj : a.uniqueTimes[j]? = some t) :
    OwnPayoff a.numExercise (fun e => a.exerciseTimes (entry ++ [e])) (exerciseSwap a paths s entry) t (a.payoffFn paths N step entry j s) := by
  have hidx : ∀ e, e < a.numExercise → a.uniqueTimes[a.timeIndex.get (entry ++ [e])]? = some (a.exerciseTimes (entry ++ [e])) := by
    intro e he
    have hmem := exercise_mem a hb he
    have : a.timeIndex.get (entry ++ [e]) = a.uniqueTimes.idxOf (a.exerciseTimes (entry ++ [e])) := rfl
    rw [this, List.getElem?_eq_getElem (List.idxOf_lt_length_iff.2 hmem), List.getElem_idxOf]
  have hmap := C111_map a.batch a.numExercise N a.timeIndex (a.payoffSwap paths N step) rfl rfl s hs entry hb (fun e e' he he' h => by
    apply hd e e' he he'
    have h1 := hidx e he
    rw [h, hidx e' he'] at h1
    exact (Option.some.inj h1).symm)
  by_cases h : ∃ e, e < a.numExercise ∧ a.exerciseTimes (entry ++ [e]) = t
  · obtain ⟨e, he, het⟩ := h
    refine Or.inl ⟨e, he, het, ?_⟩
    have hje : a.timeIndex.get (entry ++ [e]) = j := by
      have hn : a.uniqueTimes.Nodup := nodup_tfUnique _
      have h1 := hidx e he
      rw [het] at h1
      obtain ⟨hl1, e1⟩ := List.getElem?_eq_some_iff.1 h1
      obtain ⟨hl2, e2⟩ := List.getElem?_eq_some_iff.1 hj
      exact (hn.getElem_inj_iff).1 (e1.trans e2.symm)
    obtain ⟨h1, h2⟩ := hmap.1 e he
    rw [hje] at h1 h2
    unfold BermudanBatch.payoffFn
    dsimp only
    rw [h1, h2, if_pos one_pos]
    have h3 : (a.payoffSwap paths N step).get (s :: entry ++ [e]) = exerciseSwap a paths s entry e := by
      change a.swapPayoff true (a.payoffBond paths N step s) (entry ++ [e]) = _
      rw [swapPayoff_eq a true _ entry e (fun p => a.coupon (entry ++ [e, p]) * a.daycount (entry ++ [e, p]))
        (fun p => paths.bond s (a.exerciseTimes (entry ++ [e])) (a.paymentTimes (entry ++ [e, p]))) hm (fun p hp => by
          have := C111_bonds a paths N step s hs entry hb e p he hp
          simpa using this) (fun _ _ => rfl)]
      rfl
    rw [h3]
  · have hne : ∀ e, e < a.numExercise → a.exerciseTimes (entry ++ [e]) ≠ t := fun e he h' => h ⟨e, he, h'⟩
    refine Or.inr ⟨hne, ?_⟩
    obtain ⟨h1, _⟩ := hmap.2 j (fun e he h' => by
      apply hne e he
      have h1 := hidx e he
      rw [h', hj] at h1
      exact (Option.some.inj h1).symm)
    unfold BermudanBatch.payoffFn
    dsimp only
    rw [h1, if_neg (lt_irrefl _)]

/-- C111.  The price by simulation: there is an exercise policy of Longstaff and Schwartz on the exercise times of the batch, in the order in which
they occur, for the payoffs of `C111_payoff` and the discount factors of the path, and the price is the notional times the mean of the discounted
payoff under the policy.  What is missing: the order (see `C111_order` and `C111_order_deviates`), and the discount factors begin at the first
simulated time (see C56). -/
theorem C111_price_partial (a : BermudanBatch ℝ) (paths : CurvePaths) (N : Nat) (step : ℝ) {b : Nat}
    (basis : (Fin N → ℝ) → Fin b → Fin N → ℝ) (pinv : Matrix (Fin b) (Fin b) ℝ → Matrix (Fin b) (Fin b) ℝ)
    (hp : ∀ A : Matrix (Fin b) (Fin b) ℝ, A * pinv A * A = A) (entry : List Nat) (hb : Valid a.batch entry) (hE : 0 < a.numExercise)
    (hm : 0 < a.numPayments)
    (hd : ∀ e e', e < a.numExercise → e' < a.numExercise → a.exerciseTimes (entry ++ [e]) = a.exerciseTimes (entry ++ [e']) → e = e') :
    ∃ (payoff factor : Nat → Fin N → ℝ) (tau : Nat → Fin N → Nat),
      (∀ (j : Nat) (t : ℝ), a.uniqueTimes[j]? = some t → ∀ s : Fin N,
        OwnPayoff a.numExercise (fun e => a.exerciseTimes (entry ++ [e])) (exerciseSwap a paths s entry) t (payoff j s) ∧
        ∃ i : Nat, (a.simTimes step)[i]? = some t ∧
        factor j s = Real.exp (-∑ k ∈ Finset.range i, paths.rate s ((a.simTimes step).getD (k + 1) 0) *
          ((a.simTimes step).getD (k + 1) 0 - (a.simTimes step).getD k 0))) ∧
      IsLsmPolicy (a.uniqueTimes.length - 1) payoff factor (fun j => basis (fun s => paths.rate s (a.uniqueTimes.getD j 0))) Finset.univ tau ∧
      a.priceMc paths N step basis pinv entry = a.notional entry * ((∑ s : Fin N, factor (tau 0 s) s * payoff (tau 0 s) s) / N) := by
  set L := a.lsmInput paths N step basis pinv entry with hL
  have hlen : 0 < a.uniqueTimes.length := List.length_pos_of_mem (exercise_mem a hb hE)
  have hnum : L.numTimes = a.uniqueTimes.length := by simp [hL, LsmInput.numTimes, BermudanBatch.lsmInput]
  have hsim : ∀ (j : Nat) (t : ℝ), a.uniqueTimes[j]? = some t → (a.simTimes step)[searchLeft (a.simTimes step) t]? = some t := by
    intro j t hj
    exact searchLeft_mem _ (sorted_simulationTimes _ _ _) _ (mem_simulationTimes _ _ _ _ (List.mem_of_getElem? hj))
  have hfac : ∀ (j : Nat) (t : ℝ), a.uniqueTimes[j]? = some t → ∀ s : Fin N, L.padded (j + 1) s =
      Real.exp (-∑ k ∈ Finset.range (searchLeft (a.simTimes step) t), paths.rate s ((a.simTimes step).getD (k + 1) 0) *
          ((a.simTimes step).getD (k + 1) 0 - (a.simTimes step).getD k 0)) := by
    intro j t hj s
    have hi := (List.getElem?_eq_some_iff.1 (hsim j t hj)).1
    have h1 : L.padded (j + 1) s = (pathDiscountFactors (a.simTimes step) ((a.simTimes step).map (paths.rate s))).getD
        (searchLeft (a.simTimes step) t) 0 := by
      unfold LsmInput.padded
      rw [List.getD_cons_succ, List.getD_eq_getElem?_getD]
      simp only [hL, BermudanBatch.lsmInput, List.getElem?_map, hj, Option.map_some, Option.getD_some]
    rw [h1, List.getD_eq_getElem?_getD, (C56_path_discount_partial _ _ (by simp) _ hi).1, Option.getD_some]
    congr 2
    refine Finset.sum_congr rfl (fun k hk => ?_)
    have hk' := Finset.mem_range.1 hk
    congr 1
    rw [List.getD_eq_getElem?_getD, List.getElem?_map, List.getElem?_eq_getElem (by omega), Option.map_some, Option.getD_some,
      List.getD_eq_getElem?_getD, List.getElem?_eq_getElem (by omega), Option.getD_some]
  have hget : ∀ j, j < a.uniqueTimes.length → a.uniqueTimes[j]? = some (a.uniqueTimes.getD j 0) := by
    intro j hj
    rw [List.getD_eq_getElem?_getD, List.getElem?_eq_getElem hj]; rfl
  have hD : ∀ i s, i ≤ L.numTimes → L.padded i s ≠ 0 := by
    intro i s hi
    cases i with
    | zero => simp [LsmInput.padded]
    | succ j =>
      rw [hfac j _ (hget j (by omega)) s]
      exact (Real.exp_pos _).ne'
  have hex : ∀ j, j < a.uniqueTimes.length → L.exerciseValue j = fun s : Fin N => a.payoffFn paths N step entry j s := by
    intro j hj
    unfold LsmInput.exerciseValue
    have : L.exerciseTimes.getD j 0 = j := by
      simp only [hL, BermudanBatch.lsmInput]
      rw [List.getD_eq_getElem?_getD, List.getElem?_range hj]; rfl
    rw [this]
    rfl
  have hdes : ∀ j, j < a.uniqueTimes.length → L.design j = basis (fun s => paths.rate s (a.uniqueTimes.getD j 0)) := by
    intro j hj
    unfold LsmInput.design
    have h1 : L.exerciseTimes.getD j 0 = j := by
      simp only [hL, BermudanBatch.lsmInput]
      rw [List.getD_eq_getElem?_getD, List.getElem?_range hj]; rfl
    rw [h1]
    simp only [hL, BermudanBatch.lsmInput]
    have h2 : (a.simTimes step).getD ((a.uniqueTimes.map (fun (t : ℝ) => searchLeft (a.simTimes step) t)).getD j 0) 0 = a.uniqueTimes.getD j 0 := by
      have : (a.uniqueTimes.map (fun (t : ℝ) => searchLeft (a.simTimes step) t)).getD j 0 = searchLeft (a.simTimes step) (a.uniqueTimes.getD j 0) := by
        rw [List.getD_eq_getElem?_getD, List.getElem?_map, hget j hj]; rfl
      rw [this, List.getD_eq_getElem?_getD, hsim j _ (hget j hj)]; rfl
    rw [h2]
  obtain ⟨tau, h1, h2⟩ := C57_price L hp hD (by omega) (by
    have hpt : L.numPathTimes = a.uniqueTimes.length := rfl
    omega)
  refine ⟨fun j => L.exerciseValue j, fun j => L.padded (j + 1), tau, ?_, ?_, ?_⟩
  · intro j t hj s
    have hjl := (List.getElem?_eq_some_iff.1 hj).1
    refine ⟨?_, searchLeft (a.simTimes step) t, hsim j t hj, hfac j t hj s⟩
    change OwnPayoff _ _ _ _ (L.exerciseValue j s)
    rw [hex j hjl]
    exact C111_payoff a paths N step s s.isLt entry hb hm hd j t hj
  · rw [hnum] at h1
    refine ⟨h1.1, fun j hj => ?_⟩
    obtain ⟨beta, h3, h4⟩ := h1.2 j hj
    dsimp only at h3 h4 ⊢
    have hjl : j < a.uniqueTimes.length := by omega
    have hcal : L.calibration = Finset.univ := rfl
    rw [hdes j hjl, hcal] at h3
    refine ⟨beta, h3, fun s => ?_⟩
    have h5 := h4 s
    by_cases hc : L.exerciseValue j s > max (∑ k, L.design j k s * beta k) 0
    · rw [if_pos hc] at h5
      rw [hdes j hjl] at hc
      rw [if_pos hc, h5]
    · rw [if_neg hc] at h5
      rw [hdes j hjl] at hc
      rw [if_neg hc, h5]
  · unfold BermudanBatch.priceMc
    rw [← hL, h2]
    simp [LsmInput.pricing, hL, BermudanBatch.lsmInput]

/-- C111.  If all entries of the batch have the same increasing exercise times, the exercise times of the simulation are these, in order.  This
includes a single swaption. -/
theorem C111_order {K : Type} [LinearOrder K] (a : BermudanBatch K) (times : Nat → K)
    (hmono : ∀ i j, i < j → j < a.numExercise → times i < times j)
    (h : ∀ entry e, Valid a.batch entry → e < a.numExercise → a.exerciseTimes (entry ++ [e]) = times e) (hpos : 0 < a.batch.prod) :
    a.uniqueTimes = (List.range a.numExercise).map times ∧ a.uniqueTimes.Pairwise (· < ·) := by
  have hp : ((List.range a.numExercise).map times).Pairwise (· < ·) := by
    rw [List.pairwise_map]
    refine List.Pairwise.imp_of_mem ?_ (List.pairwise_lt_range)
    intro i j _ hj hij
    exact hmono i j hij (List.mem_range.1 hj)
  have hflat : flatValues a.exerciseShape a.exerciseTimes = (List.range (a.batch.prod * a.numExercise)).map (fun k => times (k % a.numExercise)) := by
    unfold flatValues BermudanBatch.exerciseShape
    rw [List.prod_append, List.prod_singleton]
    refine List.map_congr_left (fun k hk => ?_)
    have hk' : k < (a.batch ++ [a.numExercise]).prod := by
      rw [List.prod_append, List.prod_singleton]
      exact List.mem_range.1 hk
    obtain ⟨h1, h2⟩ := NdArray.unflat_valid hk'
    obtain ⟨b, e, hbe, hb, he⟩ := valid_snoc_inv h1
    rw [hbe, h b e hb he]
    rw [hbe, NdArray.flat_append hb] at h2
    have h3 : flatIndex a.batch b * a.numExercise + e = k := by simpa [flatIndex] using h2
    rw [← h3, Nat.add_comm, Nat.add_mul_mod_self_right, Nat.mod_eq_of_lt he]
  have hu : a.uniqueTimes = (List.range a.numExercise).map times := by
    unfold BermudanBatch.uniqueTimes
    obtain ⟨m, hm⟩ : ∃ m, a.batch.prod = m + 1 := ⟨a.batch.prod - 1, by omega⟩
    have e1 : a.batch.prod * a.numExercise = a.numExercise + m * a.numExercise := by rw [hm]; ring
    have e2 : (List.range a.numExercise).map (fun k => times (k % a.numExercise)) = (List.range a.numExercise).map times := by
      refine List.map_congr_left (fun k hk => ?_)
      rw [Nat.mod_eq_of_lt (List.mem_range.1 hk)]
    rw [hflat, e1, List.range_add, List.map_append, tfUnique_append, e2, tfUnique_self]
    · exact hp.imp (fun h => h.ne)
    · intro x hx
      rw [List.map_map, List.mem_map] at hx
      obtain ⟨k, hk, rfl⟩ := hx
      rw [e2]
      have hE : 0 < a.numExercise := by
        rcases Nat.eq_zero_or_pos a.numExercise with h0 | h0
        · rw [h0] at hk; simp at hk
        · exact h0
      exact List.mem_map_of_mem (List.mem_range.2 (Nat.mod_lt _ hE))
  exact ⟨hu, hu ▸ hp⟩

/-- Two swaptions of one payment without coupon, with exercise times 1, 3 and 2, 3. -/
def orderBatch (K : Type) [Field K] : BermudanBatch K :=
  ⟨[2], 2, 1, fun idx => if idx = [0, 0] then 1 else if idx = [1, 0] then 2 else 3, fun _ => 10, fun _ => 1, fun _ => 0, fun _ => 1⟩

/-- The second of them alone. -/
def orderSingle (K : Type) [Field K] : BermudanBatch K :=
  ⟨[], 2, 1, fun idx => if idx = [0] then 2 else 3, fun _ => 10, fun _ => 1, fun _ => 0, fun _ => 1⟩

/-- Two paths that are the same up to time 2; the swap pays a tenth at time 2, and a half or nothing at time 3. -/
noncomputable def orderPaths : CurvePaths := ⟨fun s t _ => if t = 3 then (if s = 0 then 1 / 2 else 1) else 9 / 10, fun _ _ => 0⟩

theorem orderBatch_times : (orderBatch ℝ).uniqueTimes = [1, 3, 2] := by
  have h : flatValues (orderBatch ℝ).exerciseShape (orderBatch ℝ).exerciseTimes = [1, 3, 2] ++ [3] := by
    simp [flatValues, BermudanBatch.exerciseShape, orderBatch, List.range_succ, unflatIndex]
  unfold BermudanBatch.uniqueTimes
  rw [h, tfUnique_append _ _ (by simp), tfUnique_self]
  norm_num

theorem orderSingle_times : (orderSingle ℝ).uniqueTimes = [2, 3] := by
  have h : flatValues (orderSingle ℝ).exerciseShape (orderSingle ℝ).exerciseTimes = [2, 3] := by
    simp [flatValues, BermudanBatch.exerciseShape, orderSingle, List.range_succ, unflatIndex]
  unfold BermudanBatch.uniqueTimes
  rw [h, tfUnique_self]
  norm_num

theorem ownPayoff_hit {n : Nat} {times value : Nat → ℝ} {t x : ℝ} (h : OwnPayoff n times value t x) (e : Nat) (he : e < n) (ht : times e = t)
    (hu : ∀ e', e' < n → times e' = t → e' = e) : x = max (value e) 0 := by
  rcases h with ⟨e', h1, h2, h3⟩ | ⟨h1, _⟩
  · rw [hu e' h1 h2] at h3; exact h3
  · exact absurd ht (h1 e he)

theorem ownPayoff_miss {n : Nat} {times value : Nat → ℝ} {t x : ℝ} (h : OwnPayoff n times value t x) (ht : ∀ e, e < n → times e ≠ t) : x = 0 := by
  rcases h with ⟨e', h1, h2, _⟩ | ⟨_, h2⟩
  · exact absurd h2 (ht e' h1)
  · exact h2

open Classical in
/-- C111, deviation: exercise times are visited in the order in which they occur in the batch.  With a constant as the only regressor, the second
swaption of the batch is worth 3/10, since the decision between times 2 and 3 is taken at time 3; alone it is worth 1/4, which is the most that
can be had without looking ahead. -/
theorem C111_order_deviates (pinv : Matrix (Fin 1) (Fin 1) ℝ → Matrix (Fin 1) (Fin 1) ℝ) (hp : ∀ A : Matrix (Fin 1) (Fin 1) ℝ, A * pinv A * A = A)
    (step : ℝ) :
    (orderBatch ℝ).priceMc orderPaths 2 step (fun _ _ _ => 1) pinv [1] = 3 / 10 ∧
    (orderSingle ℝ).priceMc orderPaths 2 step (fun _ _ _ => 1) pinv [] = 1 / 4 := by
  constructor
  · obtain ⟨payoff, factor, tau, h1, h2, h3⟩ := C111_price_partial (orderBatch ℝ) orderPaths 2 step (fun _ _ _ => 1) pinv hp [1]
      (.cons (by decide) .nil) (by decide) (by decide) (by
        intro e e' he he' h
        have he2 : e < 2 := he
        have he2' : e' < 2 := he'
        interval_cases e <;> interval_cases e' <;> simp_all [orderBatch])
    rw [orderBatch_times] at h1 h2
    have hf : ∀ j t s, [(1 : ℝ), 3, 2][j]? = some t → factor j s = 1 := by
      intro j t s hj
      obtain ⟨_, i, _, hi⟩ := h1 j t hj s
      rw [hi]
      simp [orderPaths]
    have hv : ∀ s : Nat, ∀ e, exerciseSwap (orderBatch ℝ) orderPaths s [1] e =
        1 - orderPaths.bond s ((orderBatch ℝ).exerciseTimes ([1] ++ [e])) 10 := by
      intro s e
      simp [exerciseSwap, payerSwapValue, orderBatch]
    have hu : ∀ e e', e < 2 → e' < 2 → (orderBatch ℝ).exerciseTimes ([1] ++ [e]) = (orderBatch ℝ).exerciseTimes ([1] ++ [e']) → e = e' := by
      intro e e' he he' h
      interval_cases e <;> interval_cases e' <;> simp_all [orderBatch]
    have t0 : (orderBatch ℝ).exerciseTimes ([1] ++ [0]) = 2 := by simp [orderBatch]
    have t1 : (orderBatch ℝ).exerciseTimes ([1] ++ [1]) = 3 := by simp [orderBatch]
    have p0 : ∀ s, payoff 0 s = 0 := fun s => ownPayoff_miss (h1 0 1 rfl s).1 (by
      intro e he
      have he2 : e < 2 := he
      interval_cases e
      · rw [t0]; norm_num
      · rw [t1]; norm_num)
    have p1 : ∀ s : Fin 2, payoff 1 s = max (1 - orderPaths.bond s 3 10) 0 := fun s => by
      have := ownPayoff_hit (h1 1 3 rfl s).1 1 (by decide) t1 (fun e' he' h => hu e' 1 he' (by decide) (by rw [h, t1]))
      rw [this, hv, t1]
    have p2 : ∀ s : Fin 2, payoff 2 s = max (1 - orderPaths.bond s 2 10) 0 := fun s => by
      have := ownPayoff_hit (h1 2 2 rfl s).1 0 (by decide) t0 (fun e' he' h => hu e' 0 he' (by decide) (by rw [h, t0]))
      rw [this, hv, t0]
    have q10 : payoff 1 0 = 1 / 2 := by rw [p1]; norm_num [orderPaths]
    have q11 : payoff 1 1 = 0 := by rw [p1]; norm_num [orderPaths]
    have q2 : ∀ s, payoff 2 s = 1 / 10 := fun s => by rw [p2]; norm_num [orderPaths]
    obtain ⟨g1, g2⟩ := h2
    have l2 : ∀ s, tau 2 s = 2 := g1
    obtain ⟨beta, b1, b2⟩ := g2 1 (by simp)
    have hS : Finset.univ.filter (fun s : Fin 2 => payoff 1 s > 0) = {0} := by
      ext s
      fin_cases s
      · simp [q10]
      · simp [q11]
    have hbeta : beta 0 = 1 / 10 := by
      have := b1 (fun _ => 1 / 10)
      simp only [hS, Finset.sum_singleton, l2, q2, hf 2 2 _ rfl, hf 1 3 _ rfl, Finset.univ_unique, Finset.sum_singleton, Fin.default_eq_zero, one_mul] at this
      nlinarith [sq_nonneg (1 / 10 - beta 0)]
    have tau10 : tau 1 0 = 1 := by
      rw [b2 0]
      refine if_pos ?_
      rw [q10]
      simp [hbeta]
      norm_num
    have tau11 : tau 1 1 = 2 := by
      rw [b2 1]
      refine (if_neg ?_).trans (l2 1)
      rw [q11]
      simp
    obtain ⟨beta', _, b4⟩ := g2 0 (by simp)
    have tau0 : ∀ s, tau 0 s = tau 1 s := by
      intro s
      rw [b4 s]
      refine if_neg ?_
      rw [p0 s]
      simp
    rw [h3, Fin.sum_univ_two, tau0, tau0, tau10, tau11, hf 1 3 _ rfl, hf 2 2 _ rfl, q10, q2]
    norm_num [orderBatch]
  · obtain ⟨payoff, factor, tau, h1, h2, h3⟩ := C111_price_partial (orderSingle ℝ) orderPaths 2 step (fun _ _ _ => 1) pinv hp []
      .nil (by decide) (by decide) (by
        intro e e' he he' h
        have he2 : e < 2 := he
        have he2' : e' < 2 := he'
        interval_cases e <;> interval_cases e' <;> simp_all [orderSingle])
    rw [orderSingle_times] at h1 h2
    have hf : ∀ j t s, [(2 : ℝ), 3][j]? = some t → factor j s = 1 := by
      intro j t s hj
      obtain ⟨_, i, _, hi⟩ := h1 j t hj s
      rw [hi]
      simp [orderPaths]
    have hv : ∀ s : Nat, ∀ e, exerciseSwap (orderSingle ℝ) orderPaths s [] e =
        1 - orderPaths.bond s ((orderSingle ℝ).exerciseTimes ([] ++ [e])) 10 := by
      intro s e
      simp [exerciseSwap, payerSwapValue, orderSingle]
    have hu : ∀ e e', e < 2 → e' < 2 → (orderSingle ℝ).exerciseTimes ([] ++ [e]) = (orderSingle ℝ).exerciseTimes ([] ++ [e']) → e = e' := by
      intro e e' he he' h
      interval_cases e <;> interval_cases e' <;> simp_all [orderSingle]
    have t0 : (orderSingle ℝ).exerciseTimes ([] ++ [0]) = 2 := by simp [orderSingle]
    have t1 : (orderSingle ℝ).exerciseTimes ([] ++ [1]) = 3 := by simp [orderSingle]
    have p0 : ∀ s : Fin 2, payoff 0 s = max (1 - orderPaths.bond s 2 10) 0 := fun s => by
      have := ownPayoff_hit (h1 0 2 rfl s).1 0 (by decide) t0 (fun e' he' h => hu e' 0 he' (by decide) (by rw [h, t0]))
      rw [this, hv, t0]
    have p1 : ∀ s : Fin 2, payoff 1 s = max (1 - orderPaths.bond s 3 10) 0 := fun s => by
      have := ownPayoff_hit (h1 1 3 rfl s).1 1 (by decide) t1 (fun e' he' h => hu e' 1 he' (by decide) (by rw [h, t1]))
      rw [this, hv, t1]
    have q10 : payoff 1 0 = 1 / 2 := by rw [p1]; norm_num [orderPaths]
    have q11 : payoff 1 1 = 0 := by rw [p1]; norm_num [orderPaths]
    have q0 : ∀ s, payoff 0 s = 1 / 10 := fun s => by rw [p0]; norm_num [orderPaths]
    obtain ⟨g1, g2⟩ := h2
    have l1 : ∀ s, tau 1 s = 1 := g1
    obtain ⟨beta, b1, b2⟩ := g2 0 (by simp)
    have hS : Finset.univ.filter (fun s : Fin 2 => payoff 0 s > 0) = Finset.univ := by
      ext s
      simp [q0]
    have hbeta : beta 0 = 1 / 4 := by
      have := b1 (fun _ => 1 / 4)
      simp only [hS, Fin.sum_univ_two, zero_add, l1, q10, q11, hf 1 3 _ rfl, hf 0 2 _ rfl, Finset.univ_unique, Finset.sum_singleton,
        Fin.default_eq_zero, one_mul] at this
      nlinarith [sq_nonneg (1 / 4 - beta 0)]
    have tau0 : ∀ s, tau 0 s = 1 := by
      intro s
      rw [b2 s]
      refine (if_neg ?_).trans (l1 s)
      rw [q0 s]
      simp [hbeta]
      norm_num
    rw [h3, Fin.sum_univ_two, tau0, tau0, hf 1 3 _ rfl, hf 1 3 _ rfl, q10, q11]
    norm_num [orderSingle]

end Props
