import Verif.Props.HullWhiteSimulation

/-! # C132: simulated Hull-White prices of European swaptions -/

namespace Lemmas
open Model Spec MeasureTheory ProbabilityTheory Filter Topology

theorem sorted_mergeSort_real (l : List ℝ) : (l.mergeSort (fun (a b : ℝ) => decide (a ≤ b))).Pairwise (· ≤ ·) := by
  have := List.pairwise_mergeSort (le := fun a b : ℝ => decide (a ≤ b)) (by intro a b c; simp; exact le_trans) (by intro a b; simp; exact le_total a b) l
  exact this.imp (by simp)

/-- If no expiry is a multiple of the time step, no time is repeated. -/
theorem europeanSimTimes_eq (expiries : List ℝ) (step : ℝ) (n : Nat) (hs : 0 < step) (h : ∀ t ∈ expiries, ∀ i < n, ((i + 1 : Nat) : ℝ) * step ≠ t) :
    HullWhite.europeanSimTimes expiries step n = simulationTimes expiries step n := by
  have hnd : (expiries.dedup ++ (List.range n).map (fun (i : Nat) => ((i + 1 : Nat) : ℝ) * step)).Nodup := by
    refine List.Nodup.append (List.nodup_dedup _) ?_ ?_
    · refine List.Nodup.map ?_ List.nodup_range
      intro a b hab
      have := mul_right_cancel₀ hs.ne' hab
      have h2 : a + 1 = b + 1 := by exact_mod_cast this
      omega
    · intro t h1 h2
      rw [List.mem_map] at h2
      obtain ⟨i, hi, rfl⟩ := h2
      exact h _ (List.mem_dedup.1 h1) i (List.mem_range.1 hi) rfl
  unfold HullWhite.europeanSimTimes simulationTimes
  refine List.Perm.eq_of_pairwise (le := fun a b : ℝ => a ≤ b) (fun a b _ _ h1 h2 => le_antisymm h1 h2) (sorted_mergeSort_real _) (sorted_mergeSort_real _) ?_
  refine (List.mergeSort_perm _ _).trans (List.Perm.trans ?_ (List.mergeSort_perm _ _).symm)
  rw [List.perm_ext_iff_of_nodup hnd (List.nodup_dedup _)]
  intro t
  rw [List.mem_dedup, List.mem_append, List.mem_append, List.mem_dedup]

theorem recordLoop_length {A : Type} (k : Nat) (l : List (A × Bool)) : ∀ (c : Nat) (w : List (Option A)), (recordLoop k l c w).length = w.length := by
  induction l with
  | nil => intro c w; rfl
  | cons a l ih =>
    intro c w
    obtain ⟨x, b⟩ := a
    unfold recordLoop
    split
    · rw [ih, List.length_set]
    · rfl

theorem samplePath_length (m : HullWhite) (times draws : List ℝ) : (m.samplePath times draws).length = times.length := by
  unfold HullWhite.samplePath
  simp only
  rw [recordLoop_length, List.length_replicate]

theorem rates_getD (m : HullWhite) (times draws : List ℝ) (j : Nat) :
    ((m.samplePath times draws).map (fun (r : Option ℝ) => r.getD 0)).getD j 0 = pathRate m times draws j := by
  unfold pathRate
  rw [List.getD_eq_getElem?_getD, List.getElem?_map]
  cases (m.samplePath times draws)[j]? <;> rfl

theorem discountPaths_discount (m : HullWhite) (times : List ℝ) (draws : Nat → List ℝ) (s : Nat) (t : ℝ) (hi : searchLeft times t < times.length) :
    (m.discountPaths times draws).discount s t = Real.exp (-∑ j ∈ Finset.range (searchLeft times t), pathRate m times (draws s) (j + 1) *
      (times.getD (j + 1) 0 - times.getD j 0)) := by
  obtain ⟨h1, h2⟩ := Props.C56_path_discount_partial times ((m.samplePath times (draws s)).map (fun (r : Option ℝ) => r.getD 0))
    (by rw [List.length_map, samplePath_length]) _ hi
  unfold HullWhite.discountPaths
  simp only
  rw [List.getD_eq_getElem?_getD, h2, h1, Option.getD_some]
  simp only [rates_getD]

theorem swaptionPayoff_eq (isPayer : Bool) (payments : List (ℝ × ℝ × ℝ)) (hne : payments ≠ []) (bond : ℝ → ℝ) :
    Props.swaptionPayoff isPayer payments bond = if isPayer then max (payerSwap payments bond) 0 else max (-payerSwap payments bond) 0 := by
  obtain ⟨l, a, hl, hlast⟩ := payments_last payments hne 0
  have e : 1 - (payments.map (fun (p : ℝ × ℝ × ℝ) => bond p.1)).getLastD 0 - (payments.map (fun (p : ℝ × ℝ × ℝ) => p.2.2 * p.2.1 * bond p.1)).sum =
      payerSwap payments bond := by
    unfold payerSwap
    rw [hlast]
    congr 1
    · rw [hl]; simp
    · congr 2
      funext p
      ring
  unfold Props.swaptionPayoff
  simp only [e]
  cases isPayer <;> simp

theorem payerSwap_growth (m : HullWhite) (T0 : ℝ) (payments : List (ℝ × ℝ × ℝ)) :
    ExpGrowth (fun r => payerSwap payments (fun T => m.discountBondPrice r T0 T)) := by
  have h := ((ExpGrowth.const 1).add ((bondPrice_growth m T0 (payments.getLastD 0).1).const_mul (-1))).add
    ((ExpGrowth.list_sum payments (fun p r => p.2.1 * p.2.2 * m.discountBondPrice r T0 p.1) fun p _ => (bondPrice_growth m T0 p.1).const_mul _).const_mul (-1))
  have e : (fun r => payerSwap payments (fun T => m.discountBondPrice r T0 T)) = fun r => 1 + -1 * m.discountBondPrice r T0 (payments.getLastD 0).1 +
      -1 * (payments.map fun p => p.2.1 * p.2.2 * m.discountBondPrice r T0 p.1).sum := by
    funext r
    unfold payerSwap
    ring
  rw [e]
  exact h

theorem swaptionPayoff_growth (m : HullWhite) (T0 : ℝ) (isPayer : Bool) (payments : List (ℝ × ℝ × ℝ)) (hne : payments ≠ []) :
    ExpGrowth (fun r => Props.swaptionPayoff isPayer payments (fun T => m.discountBondPrice r T0 T)) := by
  simp only [swaptionPayoff_eq isPayer payments hne]
  cases isPayer
  · simp only [Bool.false_eq_true, if_false]
    have h := ((payerSwap_growth m T0 payments).const_mul (-1)).pos_part
    simpa only [neg_one_mul] using h
  · simpa only [if_true] using (payerSwap_growth m T0 payments).pos_part

end Lemmas

namespace Props
open Model Lemmas Spec MeasureTheory ProbabilityTheory Filter Topology

/-- The price of one swaption of a batch as an average over the paths, for any sorted times that contain the expiry. -/
theorem simulatedSwaptions_average (m : HullWhite) (swaptions : List HjmSwaption) (times : List ℝ) (hs : times.Pairwise (· ≤ ·)) (draws : Nat → List ℝ) (N : Nat) (k : Nat)
    (o : HjmSwaption) (hk : swaptions[k]? = some o) (ho : o.expiry ∈ times) :
    (swaptionsMc (some times) none swaptions (m.discountPaths times draws) N)[k]? = some (o.notional * ((∑ s ∈ Finset.range N,
      Real.exp (-∑ j ∈ Finset.range (searchLeft times o.expiry), pathRate m times (draws s) (j + 1) * (times.getD (j + 1) 0 - times.getD j 0)) *
        swaptionPayoff o.isPayer o.payments (fun T => m.discountBondPrice (pathRate m times (draws s) (searchLeft times o.expiry)) o.expiry T)) / N)) := by
  have hti : times[searchLeft times o.expiry]? = some o.expiry := searchLeft_mem _ hs _ ho
  have hi : searchLeft times o.expiry < times.length := (List.getElem?_eq_some_iff.1 hti).1
  unfold swaptionsMc
  rw [List.getElem?_map, hk, Option.map_some]
  change some (swaptionMc times _ _ _ _) = _
  rw [swaptionMc_eq _ _ _ N o o.expiry hti]
  · rw [← List.sum_toFinset _ List.nodup_range, List.toFinset_range]
    refine congrArg (fun x : ℝ => some (o.notional * (x / N))) (Finset.sum_congr rfl fun s _ => ?_)
    rw [discountPaths_discount m times draws s o.expiry hi]
    refine congrArg (fun f : ℝ → ℝ => _ * swaptionPayoff o.isPayer o.payments f) ?_
    funext T
    unfold HullWhite.discountPaths
    simp only [add_sub_cancel, rates_getD]
  · intro p hp
    apply searchLeft_mem _ (sorted_dedup _)
    rw [List.mem_mergeSort, List.mem_dedup, List.mem_flatMap]
    exact ⟨o, List.mem_of_getElem? hk, List.mem_map.2 ⟨p, hp, rfl⟩⟩
  · intro s
    rw [discountPaths_discount m times draws s o.expiry hi]
    exact (Real.exp_pos _).le

/-- C132: if no expiry is a multiple of the time step below the longest expiry, the simulated prices of swaptions converge almost surely with the number of paths for every
time step, and as the time step goes to zero these limits converge to the analytic price at the break-even rate. What is missing: expiries that are multiples, see
`C132_repeated_times_deviates`. -/
theorem C132_swaptions_partial {Ω : Type} [MeasurableSpace Ω] (P : Measure Ω) (m : HullWhite) (hm : HullWhiteOk m) (hR : ∀ t, 0 ≤ t → DifferentiableAt ℝ m.discountRate t)
    (hf : ContinuousOn m.instantForwardRate (Set.Ici 0)) (swaptions : List HjmSwaption) (he : ∀ o ∈ swaptions, 0 ≤ o.expiry) (hne : ∀ o ∈ swaptions, o.payments ≠ [])
    (hp : ∀ o ∈ swaptions, ∀ p ∈ o.payments, o.expiry < p.1 ∧ 0 ≤ p.2.1 * p.2.2) (hy : ∀ o ∈ swaptions, 0 < convexity m.meanReversion m.volatility o.expiry)
    (step : ℕ → ℝ) (hstep : ∀ N, 0 < step N) (hlim : Tendsto step atTop (𝓝 0)) (n : ℕ → ℕ) (hn : ∀ N, ∀ o ∈ swaptions, o.expiry ≤ ((n N + 1 : ℕ) : ℝ) * step N)
    (hrep : ∀ N, ∀ o ∈ swaptions, ∀ i < n N, ((i + 1 : ℕ) : ℝ) * step N ≠ o.expiry)
    (D : ∀ N : ℕ, ℕ → Ω → Fin ((HullWhite.europeanSimTimes (swaptions.map HjmSwaption.expiry) (step N) (n N)).length + m.volJumps.length) → ℝ)
    (hD : ∀ N, NormalDraws P _ (D N)) :
    ∃ v : ℕ → HjmSwaption → ℝ,
      (∀ o ∈ swaptions, ∃ root, m.jamshidianFunction o.expiry o.payments root = 0 ∧
        Tendsto (fun N => v N o) atTop (𝓝 (m.swaptionPrice o.expiry o.notional o.isPayer o.payments root))) ∧
      ∀ᵐ ω ∂P, ∀ (N k : ℕ) (o : HjmSwaption), swaptions[k]? = some o →
        Tendsto (fun S : ℕ => (m.simulatedSwaptions swaptions (fun s => List.ofFn (D N s ω)) S (step N) (n N)).getD k 0) atTop (𝓝 (v N o)) := by
  have hmem : ∀ t ∈ swaptions.map HjmSwaption.expiry, ∃ o ∈ swaptions, o.expiry = t := fun t ht => by rwa [List.mem_map] at ht
  have htimes : ∀ N, HullWhite.europeanSimTimes (swaptions.map HjmSwaption.expiry) (step N) (n N) = simulationTimes (swaptions.map HjmSwaption.expiry) (step N) (n N) := by
    intro N
    refine europeanSimTimes_eq _ _ _ (hstep N) fun t ht => ?_
    obtain ⟨o, ho, rfl⟩ := hmem t ht
    exact hrep N o ho
  have hnn : ∀ t ∈ swaptions.map HjmSwaption.expiry, 0 ≤ t := fun t ht => by obtain ⟨o, ho, rfl⟩ := hmem t ht; exact he o ho
  have hsort : ∀ N, (HullWhite.europeanSimTimes (swaptions.map HjmSwaption.expiry) (step N) (n N)).Pairwise (· < ·) := fun N => by rw [htimes N]; exact strict_simulationTimes _ _ _
  have hin : ∀ N, ∀ o ∈ swaptions, o.expiry ∈ HullWhite.europeanSimTimes (swaptions.map HjmSwaption.expiry) (step N) (n N) := fun N o ho => by
    rw [htimes N]; exact mem_simulationTimes _ _ _ _ (List.mem_map_of_mem ho)
  have hti : ∀ N, ∀ o ∈ swaptions, (HullWhite.europeanSimTimes (swaptions.map HjmSwaption.expiry) (step N) (n N))[searchLeft
      (HullWhite.europeanSimTimes (swaptions.map HjmSwaption.expiry) (step N) (n N)) o.expiry]? = some o.expiry :=
    fun N o ho => searchLeft_mem _ ((hsort N).imp le_of_lt) _ (hin N o ho)
  refine ⟨fun N o => o.notional * gridValue m (fun j => (HullWhite.europeanSimTimes (swaptions.map HjmSwaption.expiry) (step N) (n N)).getD j 0)
    (searchLeft (HullWhite.europeanSimTimes (swaptions.map HjmSwaption.expiry) (step N) (n N)) o.expiry) o.expiry
    (fun r => swaptionPayoff o.isPayer o.payments (fun T => m.discountBondPrice r o.expiry T)), fun o ho => ?_, ?_⟩
  · obtain ⟨root, hroot, _⟩ := C55_break_even m hm.mr o.expiry o.payments (hne o ho) (hp o ho)
    refine ⟨root, hroot, ?_⟩
    rw [C55_swaption_partial m hm o.expiry o.notional o.isPayer o.payments (hne o ho) (he o ho) (hy o ho) (hp o ho) root hroot]
    have hg := gridValue_limit m hm hR hf o.expiry (he o ho) _ (swaptionPayoff_growth m o.expiry o.isPayer o.payments (hne o ho)) step hlim
      (fun N j => (HullWhite.europeanSimTimes (swaptions.map HjmSwaption.expiry) (step N) (n N)).getD j 0)
      (fun N => searchLeft (HullWhite.europeanSimTimes (swaptions.map HjmSwaption.expiry) (step N) (n N)) o.expiry) (fun N => ?_) (fun N => getD_of_some _ _ _ (hti N o ho))
    · simp only [swaptionPayoff_eq o.isPayer o.payments (hne o ho)] at hg ⊢
      exact hg.const_mul _
    · have hlt := (List.getElem?_eq_some_iff.1 (hti N o ho)).1
      revert hlt
      rw [htimes N]
      intro hlt
      refine simulationTimes_fine _ _ _ (hstep N) hnn ?_ _ hlt
      intro t ht
      obtain ⟨o', ho', rfl⟩ := hmem t ht
      exact hn N o' ho'
  · rw [ae_all_iff]
    intro N
    rw [ae_all_iff]
    intro k
    cases h : swaptions[k]? with
    | none => exact Eventually.of_forall fun ω o ho => by simp at ho
    | some o =>
      have ho := List.mem_of_getElem? h
      have h0 : ∀ t ∈ HullWhite.europeanSimTimes (swaptions.map HjmSwaption.expiry) (step N) (n N), 0 ≤ t := by
        rw [htimes N]; exact simulationTimes_nonneg _ _ _ (hstep N) hnn
      have hav := discounted_average P m hm _ (hsort N) h0 _ (List.getElem?_eq_some_iff.1 (hti N o ho)).1 _
        (swaptionPayoff_growth m o.expiry o.isPayer o.payments (hne o ho)) (D N) (hD N)
      rw [getD_of_some _ _ _ (hti N o ho)] at hav
      filter_upwards [hav] with ω hω
      intro o' ho'
      rw [Option.some.injEq] at ho'
      subst ho'
      refine (hω.const_mul o.notional).congr fun S => ?_
      unfold HullWhite.simulatedSwaptions
      simp only
      rw [List.getD_eq_getElem?_getD, simulatedSwaptions_average m swaptions _ ((hsort N).imp le_of_lt) _ S k o h (hin N o ho), Option.getD_some]

/-- The simulation times for expiries one and two with half a year as the step: the first expiry is repeated. -/
theorem repeated_sim_times : HullWhite.europeanSimTimes [1, 2] (1 / 2) 3 = [1 / 2, 1, 1, 3 / 2, 2] := by
  unfold HullWhite.europeanSimTimes
  rw [List.Nodup.dedup (by simp)]
  refine List.Perm.eq_of_pairwise (le := fun a b : ℝ => a ≤ b) (fun a b _ _ h1 h2 => le_antisymm h1 h2) (sorted_mergeSort_real _) (by norm_num) ?_
  refine (List.mergeSort_perm _ _).trans ?_
  have e : (List.range 3).map (fun (i : Nat) => ((i + 1 : Nat) : ℝ) * (1 / 2)) = [1 / 2, 1, 3 / 2] := by norm_num [List.range_succ]
  rw [e, List.perm_iff_count]
  intro a
  simp only [List.cons_append, List.nil_append, List.count_cons, List.count_nil]
  omega

/-- The rates of a path at these times: the rate at the last time is never written, the others move to the front. -/
theorem repeated_path (m : HullWhite) (hj : m.volJumps = []) (z1 z2 z3 z4 z5 : ℝ) : ∃ r1 r2 r3 r4 : ℝ,
    m.samplePath [1 / 2, 1, 1, 3 / 2, 2] [z1, z2, z3, z4, z5] = [some r1, some r2, some r3, some r4, none] := by
  have hgrid : m.grid [1 / 2, 1, 1, 3 / 2, 2] = [0, 1 / 2, 1, 1, 3 / 2, 2] := by
    unfold HullWhite.grid
    rw [hj]
    norm_num [List.insertionSort, List.orderedInsert]
  have hmask : m.keepMask [1 / 2, 1, 1, 3 / 2, 2] = [false, true, true, false, true, true] := by
    unfold HullWhite.keepMask HullWhite.gridIndices
    rw [hgrid]
    norm_num [searchLeft, List.takeWhile, List.range_succ]
  unfold HullWhite.samplePath
  rw [hgrid, hmask]
  simp only [List.headD_cons, List.tail_cons, HullWhite.states, List.zipWith_cons_cons, List.zip_cons_cons, List.zipWith_nil_right, List.zip_nil_right, List.length_cons, List.length_nil]
  have hrec : ∀ a0 a1 a2 a3 a4 a5 : ℝ, recordLoop 5 [(a0, false), (a1, true), (a2, true), (a3, false), (a4, true), (a5, true)] 0 (List.replicate 5 none) =
      [some a1, some a2, some a4, some a5, none] := fun a0 a1 a2 a3 a4 a5 => rfl
  exact ⟨_, _, _, _, hrec _ _ _ _ _ _⟩

/-- C132: expiries one and two with half a year as the time step. The first expiry occurs twice among the simulation times, the rate at the second expiry is never written and
taken to be zero. For a curve at one hundred percent, the simulated price of the second swaption is zero whatever the draws and the number of paths, while its analytic price is
positive. -/
theorem C132_repeated_times_deviates :
    let m : HullWhite := ⟨1, [], [1], fun _ => 1⟩
    let swaptions : List HjmSwaption := [⟨1, [(2, 1, 1)], 1, true⟩, ⟨2, [(3, 1, 1)], 1, true⟩]
    (∀ (draws : Nat → List ℝ), (∀ s, (draws s).length = 5) → ∀ N : Nat, (m.simulatedSwaptions swaptions draws N (1 / 2) 3)[1]? = some 0) ∧
    ∀ root, m.jamshidianFunction 2 [(3, 1, 1)] root = 0 → 0 < m.swaptionPrice 2 1 true [(3, 1, 1)] root := by
  intro m swaptions
  have hvol : m.volatility = fun _ => 1 := by
    funext t; simp [m, HullWhite.volatility, piecewiseConstant, searchLeft]
  have hfwd : m.instantForwardRate = fun _ => 1 := by
    funext t
    rw [instantForwardRate_eq]
    simp only [m]
    rw [deriv_const_mul _ differentiableAt_id]
    simp
  have hm : HullWhiteOk m := ⟨by simp [m], by simp [m], by simp [m]⟩
  have hy : m.computeYt 2 = 1 / 2 * (1 - Real.exp (-4)) := by
    rw [computeYt_eq m hm 2 (by norm_num), hvol]
    unfold convexity
    rw [(C51_constant 1 1 one_ne_zero (fun _ => 0) 2 (by norm_num)).1]
    norm_num
  have hE1 : Real.exp (-1) < 37 / 100 := by
    rw [Real.exp_neg, inv_lt_comm₀ (Real.exp_pos _) (by norm_num)]
    have := Real.exp_one_gt_d9
    norm_num at this ⊢
    linarith
  have hE1' := Real.exp_pos (-1)
  have hE4 := Real.exp_pos (-4)
  have hE4' : Real.exp (-4) < 1 := by rw [← Real.exp_zero]; exact Real.exp_lt_exp.2 (by norm_num)
  have hG : bondG m 2 3 = 1 - Real.exp (-1) := by
    unfold bondG
    simp only [m]
    norm_num
  constructor
  · intro draws hdraws N
    have hexp : swaptions.map HjmSwaption.expiry = [1, 2] := rfl
    unfold HullWhite.simulatedSwaptions
    simp only [hexp, repeated_sim_times]
    rw [simulatedSwaptions_average m swaptions [1 / 2, 1, 1, 3 / 2, 2] (by norm_num) draws N 1 ⟨2, [(3, 1, 1)], 1, true⟩ rfl (by simp)]
    have hs2 : searchLeft [1 / 2, 1, 1, 3 / 2, (2 : ℝ)] 2 = 4 := by norm_num [searchLeft, List.takeWhile]
    have hrate : ∀ s, pathRate m [1 / 2, 1, 1, 3 / 2, 2] (draws s) 4 = 0 := by
      intro s
      have hl := hdraws s
      match hd : draws s, hl with
      | [z1, z2, z3, z4, z5], _ =>
        obtain ⟨r1, r2, r3, r4, h⟩ := repeated_path m rfl z1 z2 z3 z4 z5
        unfold pathRate
        rw [h]
        rfl
    have hpay : swaptionPayoff true [((3 : ℝ), (1 : ℝ), (1 : ℝ))] (fun T => m.discountBondPrice 0 2 T) = 0 := by
      unfold swaptionPayoff
      simp only [List.map_cons, List.map_nil, List.getLastD_cons, List.getLastD_nil, List.sum_cons, List.sum_nil, if_true]
      have hb : 1 / 2 ≤ m.discountBondPrice 0 2 3 := by
        rw [discountBondPrice_eq, hy, hG, hfwd]
        simp only [m]
        have hlog := Real.log_two_gt_d9
        have hhalf : (1 / 2 : ℝ) = Real.exp (-Real.log 2) := by rw [Real.exp_neg, Real.exp_log (by norm_num)]; norm_num
        refine (le_of_eq hhalf).trans (Real.exp_le_exp.2 ?_)
        have h1 : (1 - Real.exp (-1)) ^ 2 ≤ 1 := by nlinarith
        have h2 : (1 - Real.exp (-4)) * (1 - Real.exp (-1)) ^ 2 ≤ 1 := by nlinarith [sq_nonneg (1 - Real.exp (-1))]
        norm_num at hlog
        linarith
      rw [max_eq_right]
      linarith
    simp only [hs2, hrate, hpay, mul_zero, Finset.sum_const_zero, zero_div]
  · intro root hroot
    have hvar : 0 < convexity m.meanReversion m.volatility 2 := by
      rw [← computeYt_eq m hm 2 (by norm_num), hy]
      nlinarith
    have hcond : ∀ p ∈ [((3 : ℝ), (1 : ℝ), (1 : ℝ))], (2 : ℝ) < p.1 ∧ 0 ≤ p.2.1 * p.2.2 := by
      intro p hp
      rw [List.mem_singleton] at hp
      subst hp
      norm_num
    have hpar := C55_parity m 2 1 [(3, 1, 1)] (by simp) (by
      intro p hp
      rw [List.mem_singleton] at hp
      subst hp
      refine ⟨by norm_num, ?_⟩
      rw [bondOptionVariance_eq, hy, hG]
      have h1 : 0 < 1 - Real.exp (-4) := by linarith
      have h2 : 0 < 1 - Real.exp (-1) := by linarith
      positivity) root hroot
    have hrec : 0 ≤ m.swaptionPrice 2 1 false [(3, 1, 1)] root := by
      rw [C55_swaption_partial m hm 2 1 false _ (by simp) (by norm_num) hvar hcond root hroot, one_mul]
      refine mul_nonneg (Real.exp_pos _).le ?_
      unfold normalExpectation
      refine integral_nonneg fun r => ?_
      simp only [Bool.false_eq_true, if_false]
      exact le_max_right _ _
    have hfw : 0 < 1 * (Real.exp (-(m.discountRate 2 * 2)) * payerSwap [(3, 1, 1)] (fun T => Real.exp (-(m.discountRate T * T)) / Real.exp (-(m.discountRate 2 * 2)))) := by
      rw [one_mul]
      refine mul_pos (Real.exp_pos _) ?_
      unfold payerSwap
      simp only [m, List.getLastD_cons, List.getLastD_nil, List.map_cons, List.map_nil, List.sum_cons, List.sum_nil]
      rw [← Real.exp_sub]
      norm_num
      linarith
    linarith

/-- A model with mean reversion and volatility one and a flat curve at ten percent; swaptions that expire after one and two years on swaps over one year, the time steps are
`2 / (2 N + 3)`, which never divide one year or two years before the end. -/
example {Ω : Type} [MeasurableSpace Ω] (P : Measure Ω)
    (D : ∀ N : ℕ, ℕ → Ω → Fin ((HullWhite.europeanSimTimes [1, 2] (2 / (2 * (N : ℝ) + 3)) (2 * N + 2)).length + 0) → ℝ) (hD : ∀ N, NormalDraws P _ (D N)) :
    ∃ v : ℕ → ℝ, (∃ root, HullWhite.jamshidianFunction ⟨1, [], [1], fun _ => 1 / 10⟩ 2 [(3, 1, 1 / 10)] root = 0 ∧
        Tendsto v atTop (𝓝 (HullWhite.swaptionPrice ⟨1, [], [1], fun _ => 1 / 10⟩ 2 100 true [(3, 1, 1 / 10)] root))) ∧
      ∀ᵐ ω ∂P, ∀ N, Tendsto (fun S : ℕ => (HullWhite.simulatedSwaptions ⟨1, [], [1], fun _ => 1 / 10⟩ [⟨1, [(2, 1, 1 / 10)], 100, false⟩, ⟨2, [(3, 1, 1 / 10)], 100, true⟩]
        (fun s => List.ofFn (D N s ω)) S (2 / (2 * (N : ℝ) + 3)) (2 * N + 2)).getD 1 0) atTop (𝓝 (v N)) := by
  have hvol : HullWhite.volatility ⟨1, [], [1], fun _ => 1 / 10⟩ = fun _ => 1 := by
    funext t; simp [HullWhite.volatility, piecewiseConstant, searchLeft]
  have hfwd : HullWhite.instantForwardRate ⟨1, [], [1], fun _ => 1 / 10⟩ = fun _ => 1 / 10 := by
    funext t
    rw [instantForwardRate_eq]
    simp only
    rw [deriv_const_mul _ differentiableAt_id]
    simp
  have hvar : ∀ t : ℝ, 0 < t → 0 < convexity 1 (fun _ => 1) t := by
    intro t ht
    unfold convexity
    rw [(C51_constant 1 1 one_ne_zero (fun _ => 1 / 10) t ht.le).1]
    have : Real.exp (-2 * 1 * t) < 1 := (Real.exp_lt_exp.2 (by linarith : -2 * 1 * t < 0)).trans_eq Real.exp_zero
    have h2 : (0 : ℝ) < 1 - Real.exp (-2 * 1 * t) := by linarith
    positivity
  obtain ⟨v, h1, h2⟩ := C132_swaptions_partial P ⟨1, [], [1], fun _ => 1 / 10⟩ ⟨by norm_num, by simp, by simp⟩ (fun t _ => differentiableAt_const _)
    (by rw [hfwd]; exact continuousOn_const) [⟨1, [(2, 1, 1 / 10)], 100, false⟩, ⟨2, [(3, 1, 1 / 10)], 100, true⟩] (by simp) (by simp) (by
      intro o ho p hp
      simp only [List.mem_cons, List.not_mem_nil, or_false] at ho
      rcases ho with rfl | rfl <;> rw [List.mem_singleton] at hp <;> subst hp <;> norm_num) (by
      intro o ho
      rw [hvol]
      simp only [List.mem_cons, List.not_mem_nil, or_false] at ho
      rcases ho with rfl | rfl
      · exact hvar 1 one_pos
      · exact hvar 2 two_pos)
    (fun N => 2 / (2 * (N : ℝ) + 3)) (fun N => by positivity) (by
      have h := (tendsto_one_div_add_atTop_nhds_zero_nat (𝕜 := ℝ)).const_mul 2
      rw [mul_zero] at h
      refine squeeze_zero (fun N => by positivity) (fun N => ?_) h
      rw [mul_one_div]
      refine div_le_div_of_nonneg_left (by norm_num) (by positivity) ?_
      have : (0 : ℝ) ≤ N := Nat.cast_nonneg N
      linarith) (fun N => 2 * N + 2) (by
      intro N o ho
      have hN : (0 : ℝ) ≤ N := Nat.cast_nonneg N
      have e : (((2 * N + 2 + 1 : ℕ) : ℝ)) * (2 / (2 * (N : ℝ) + 3)) = 2 := by
        push_cast
        field_simp
        ring
      simp only [List.mem_cons, List.not_mem_nil, or_false] at ho
      rw [e]
      rcases ho with rfl | rfl
      · norm_num
      · exact le_rfl) (by
      intro N o ho i hi heq
      have hN : (2 * (N : ℝ) + 3) ≠ 0 := by positivity
      simp only [List.mem_cons, List.not_mem_nil, or_false] at ho
      rw [mul_div_assoc', div_eq_iff hN] at heq
      rcases ho with rfl | rfl
      · have : (i + 1) * 2 = 2 * N + 3 := by have h := heq; simp only at h; push_cast at h; exact_mod_cast (by linarith : ((i : ℝ) + 1) * 2 = 2 * N + 3)
        omega
      · have : (i + 1) * 2 = 2 * (2 * N + 3) := by have h := heq; simp only at h; push_cast at h; exact_mod_cast (by linarith : ((i : ℝ) + 1) * 2 = 2 * (2 * N + 3))
        omega) D hD
  refine ⟨fun N => v N ⟨2, [(3, 1, 1 / 10)], 100, true⟩, h1 ⟨2, [(3, 1, 1 / 10)], 100, true⟩ (List.mem_cons_of_mem _ List.mem_cons_self), ?_⟩
  filter_upwards [h2] with ω hω
  intro N
  exact hω N 1 _ rfl

end Props
