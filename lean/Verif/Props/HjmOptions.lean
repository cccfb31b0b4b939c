import Mathlib.Tactic.FieldSimp
import Mathlib.Tactic.Linarith
import Verif.Model.HjmOptions
import Verif.Props.PathDiscount
import Verif.Props.PrepareGrid
import Verif.Props.HullWhiteOptions

/-!
# Property theorems C94: options in Heath-Jarrow-Morton models
-/

namespace Lemmas
open Model

theorem flatMap_block {A B : Type} (f : A → List B) (m : Nat) (l : List A) (h : ∀ a ∈ l, (f a).length = m) (i j : Nat) (hj : j < m) :
    (l.flatMap f)[i * m + j]? = (l[i]?).bind (fun (a : A) => (f a)[j]?) := by
  induction l generalizing i with
  | nil => simp
  | cons a l ih =>
    have ha := h a List.mem_cons_self
    rw [List.flatMap_cons]
    cases i with
    | zero =>
      rw [List.getElem?_append_left (by omega)]
      simp
    | succ i =>
      rw [List.getElem?_append_right (by rw [ha, Nat.succ_mul]; omega), ha]
      have e : (i + 1) * m + j - m = i * m + j := by rw [Nat.succ_mul]; omega
      rw [e, ih (fun b hb => h b (List.mem_cons_of_mem _ hb))]
      simp

theorem repeatEach_getElem? (l : List Nat) (k i j : Nat) (hj : j < k) :
    (l.flatMap (fun (a : Nat) => List.replicate k a))[i * k + j]? = l[i]? := by
  rw [flatMap_block _ k l (by simp) i j hj]
  simp [List.getElem?_replicate, hj]

theorem tile_getElem? (l : List Nat) (k i j : Nat) (hi : i < k) (hj : j < l.length) :
    (List.replicate k l).flatten[i * l.length + j]? = l[j]? := by
  have := flatMap_block (fun (a : List Nat) => a) l.length (List.replicate k l) (by simp) i j hj
  rw [List.flatMap_id'] at this
  rw [this, List.getElem?_replicate, if_pos hi]
  rfl

end Lemmas

namespace Props
open Model Spec Lemmas

/-- C94.  The flat list of indices is in the order of the shape `[samples, options, dim]`: at the place of sample `s`, option `k` and
dimension `d` are the entries `s`, `k`, `k` and `d` of the four lists. -/
theorem C94_indices (idx0 idx1 idx2 idx3 : List Nat) (h : idx1.length = idx2.length) (s k d : Nat) (hs : s < idx0.length) (hk : k < idx1.length)
    (hd : d < idx3.length) :
    (prepareIndices idx0 idx1 idx2 idx3)[(s * idx1.length + k) * idx3.length + d]? =
      some (idx0.getD s 0, idx1.getD k 0, idx2.getD k 0, idx3.getD d 0) := by
  have hk' : k * idx3.length + d < idx1.length * idx3.length := by
    calc k * idx3.length + d < k * idx3.length + idx3.length := by omega
      _ = (k + 1) * idx3.length := by ring
      _ ≤ _ := Nat.mul_le_mul_right _ hk
  have e : (s * idx1.length + k) * idx3.length + d = s * (idx1.length * idx3.length) + (k * idx3.length + d) := by ring
  have hlen : ∀ l : List Nat, (l.flatMap (fun (a : Nat) => List.replicate idx3.length a)).length = l.length * idx3.length := by
    intro l; simp [List.length_flatMap, mul_comm]
  have g0 : ∀ (l : List Nat) (i : Nat), i < l.length → l[i]? = some (l.getD i 0) := by
    intro l i hi
    rw [List.getD_eq_getElem?_getD, List.getElem?_eq_getElem hi]; rfl
  have i0 := repeatEach_getElem? idx0 (idx1.length * idx3.length) s (k * idx3.length + d) hk'
  have i1 := tile_getElem? (idx1.flatMap (fun (a : Nat) => List.replicate idx3.length a)) idx0.length s (k * idx3.length + d) hs
    (by rw [hlen]; exact hk')
  have i2 := tile_getElem? (idx2.flatMap (fun (a : Nat) => List.replicate idx3.length a)) idx0.length s (k * idx3.length + d) hs
    (by rw [hlen, ← h]; exact hk')
  have i3 := tile_getElem? idx3 (idx0.length * idx1.length) (s * idx1.length + k) d (by
    calc s * idx1.length + k < s * idx1.length + idx1.length := by omega
      _ = (s + 1) * idx1.length := by ring
      _ ≤ _ := Nat.mul_le_mul_right _ hs) hd
  rw [hlen, repeatEach_getElem? _ _ _ _ hd, ← e, g0 _ _ hk] at i1
  rw [hlen, repeatEach_getElem? _ _ _ _ hd, ← h, ← e, g0 idx2 k (h ▸ hk)] at i2
  rw [g0 _ _ hd] at i3
  rw [← e, g0 _ _ hs] at i0
  unfold prepareIndices
  simp only [List.zip]
  rw [List.getElem?_zipWith, i0, List.getElem?_zipWith, i1, List.getElem?_zipWith, i2, i3]

theorem mem_simulationTimes (expiries : List ℝ) (step : ℝ) (n : Nat) (t : ℝ) (h : t ∈ expiries) : t ∈ simulationTimes expiries step n := by
  unfold simulationTimes
  rw [List.mem_mergeSort, List.mem_dedup, List.mem_append]
  exact Or.inl h

theorem sorted_simulationTimes (expiries : List ℝ) (step : ℝ) (n : Nat) : (simulationTimes expiries step n).Pairwise (· ≤ ·) := by
  unfold simulationTimes
  have := List.pairwise_mergeSort (le := fun a b : ℝ => decide (a ≤ b)) (by intro a b c; simp; exact le_trans) (by intro a b; simp; exact le_total a b)
    (expiries ++ (List.range n).map (fun i => ((i + 1 : Nat) : ℝ) * step)).dedup
  exact this.imp (by simp)

theorem sorted_dedup (l : List ℝ) : (l.dedup.mergeSort (fun (a b : ℝ) => decide (a ≤ b))).Pairwise (· ≤ ·) := by
  have := List.pairwise_mergeSort (le := fun a b : ℝ => decide (a ≤ b)) (by intro a b c; simp; exact le_trans) (by intro a b; simp; exact le_total a b)
    l.dedup
  exact this.imp (by simp)

/-- C94.  Options on bonds: each option of the batch is priced as the mean over the paths of its own payoff, for the bond prices at its own
expiry and maturity, with the path's discount factor from the first sampled time to the expiry. -/
theorem C94_bond_options_partial (options : List BondOption) (paths : CurvePaths) (N : Nat) (step : ℝ) (n k : Nat) (o : BondOption)
    (hk : options[k]? = some o) :
    let times := simulationTimes (options.map BondOption.expiry) step n
    ∃ i, times[i]? = some o.expiry ∧
    (optionsPriceFromSamples options paths N step n)[k]? =
      some (((List.range N).map (fun (s : Nat) =>
        Real.exp (-∑ j ∈ Finset.range i, paths.rate s (times.getD (j + 1) 0) * (times.getD (j + 1) 0 - times.getD j 0)) *
          vanillaPayoff o.isCall o.strike (paths.bond s o.expiry o.maturity))).sum / N) := by
  intro times
  have ho : o ∈ options := List.mem_of_getElem? hk
  have hkl : k < options.length := (List.getElem?_eq_some_iff.1 hk).1
  set taus := options.map (fun (o : BondOption) => o.maturity - o.expiry) with htaus
  set curveTimes := taus.dedup.mergeSort (fun (a b : ℝ) => decide (a ≤ b)) with hcurve
  have ht : times[searchLeft times o.expiry]? = some o.expiry := by
    apply searchLeft_mem _ (sorted_simulationTimes _ _ _)
    apply mem_simulationTimes
    exact List.mem_map_of_mem ho
  have hc : curveTimes[searchLeft curveTimes (o.maturity - o.expiry)]? = some (o.maturity - o.expiry) := by
    apply searchLeft_mem _ (sorted_dedup _)
    rw [List.mem_mergeSort, List.mem_dedup]
    exact List.mem_map_of_mem ho
  refine ⟨searchLeft times o.expiry, ht, ?_⟩
  have hi : searchLeft times o.expiry < times.length := (List.getElem?_eq_some_iff.1 ht).1
  unfold optionsPriceFromSamples
  simp only [← htaus, ← hcurve]
  rw [List.getElem?_map, List.getElem?_zipIdx, hk]
  simp only [Option.map_some, zero_add]
  congr 3
  refine List.map_congr_left (fun s hs => ?_)
  rw [List.mem_range] at hs
  have hidx := C94_indices (List.range N) (taus.map (fun (t : ℝ) => searchLeft curveTimes t))
    (options.map (fun (o : BondOption) => searchLeft times o.expiry)) [0] (by simp [htaus]) s k 0 (by simpa using hs) (by simp [htaus, hkl]) (by simp)
  have e1 : (taus.map (fun (t : ℝ) => searchLeft curveTimes t)).length = options.length := by simp [htaus]
  have e2 : (taus.map (fun (t : ℝ) => searchLeft curveTimes t)).getD k 0 = searchLeft curveTimes (o.maturity - o.expiry) := by
    rw [List.getD_eq_getElem?_getD, List.getElem?_map, htaus, List.getElem?_map, hk]; rfl
  have e3 : (options.map (fun (o : BondOption) => searchLeft times o.expiry)).getD k 0 = searchLeft times o.expiry := by
    rw [List.getD_eq_getElem?_getD, List.getElem?_map, hk]; rfl
  have e4 : (List.range N).getD s 0 = s := by rw [List.getD_eq_getElem?_getD, List.getElem?_range hs]; rfl
  rw [e1, e2, e3, e4] at hidx
  simp only [List.length_singleton, mul_one, add_zero] at hidx
  have hm : ∀ (f : Nat × Nat × Nat × Nat → ℝ), (List.map f (prepareIndices (List.range N) (taus.map (fun (t : ℝ) => searchLeft curveTimes t))
      (options.map (fun (o : BondOption) => searchLeft times o.expiry)) [0])).getD (s * options.length + k) 0 =
      f (s, searchLeft curveTimes (o.maturity - o.expiry), searchLeft times o.expiry, [0].getD 0 0) := by
    intro f
    rw [List.getD_eq_getElem?_getD, List.getElem?_map, hidx]; rfl
  rw [hm, hm]
  have d1 := (C56_path_discount_partial times (times.map (paths.rate s)) (by simp) _ hi).1
  have t1 : times.getD (searchLeft times o.expiry) 0 = o.expiry := by rw [List.getD_eq_getElem?_getD, ht]; rfl
  have t2 : curveTimes.getD (searchLeft curveTimes (o.maturity - o.expiry)) 0 = o.maturity - o.expiry := by
    rw [List.getD_eq_getElem?_getD, hc]; rfl
  change (pathDiscountFactors times (times.map (paths.rate s))).getD (searchLeft times o.expiry) 0 * _ = _
  rw [List.getD_eq_getElem?_getD, d1, Option.getD_some]
  change _ * (if o.isCall = true then max (paths.bond s (times.getD (searchLeft times o.expiry) 0) (times.getD (searchLeft times o.expiry) 0 +
    curveTimes.getD (searchLeft curveTimes (o.maturity - o.expiry)) 0) - o.strike) 0 else
    max (o.strike - paths.bond s (times.getD (searchLeft times o.expiry) 0) (times.getD (searchLeft times o.expiry) 0 +
    curveTimes.getD (searchLeft curveTimes (o.maturity - o.expiry)) 0)) 0) = _
  rw [t1, t2, add_sub_cancel]
  congr 1
  congr 2
  refine Finset.sum_congr rfl (fun j hj => ?_)
  have := Finset.mem_range.1 hj
  congr 1
  rw [List.getD_eq_getElem?_getD, List.getElem?_map, List.getElem?_eq_getElem (show j + 1 < times.length by omega),
    List.getD_eq_getElem?_getD, List.getElem?_eq_getElem (show j + 1 < times.length by omega)]
  rfl

theorem sum_mean_mul (c : ℝ) (N : Nat) (f : Nat → ℝ) : c * (((List.range N).map f).sum / N) = ((List.range N).map (fun (s : Nat) => c * f s)).sum / N := by
  rw [List.sum_map_mul_left]
  ring

/-- C94.  A cap (floor) is the sum over its periods that do not start in the past of the notional times the mean over the paths of the
discounted value of the caplet (floorlet) at the start of the period. -/
theorem C94_cap_floor_partial (caplets : List HjmCaplet) (notional : ℝ) (isCap : Bool) (paths : CurvePaths) (N : Nat) (step : ℝ) (n : Nat)
    (hd : ∀ c ∈ caplets, 0 < c.daycount ∧ 0 < 1 + c.daycount * c.strike) (hb : ∀ s t T, 0 < paths.bond s t T) :
    let times := simulationTimes (caplets.map HjmCaplet.expiry) step n
    ∃ index : HjmCaplet → Nat, (∀ c ∈ caplets, times[index c]? = some c.expiry) ∧
    hjmCapFloor caplets notional isCap paths N step n = (caplets.map (fun (c : HjmCaplet) => if c.expiry < 0 then 0 else
      notional * (((List.range N).map (fun (s : Nat) =>
        Real.exp (-∑ j ∈ Finset.range (index c), paths.rate s (times.getD (j + 1) 0) * (times.getD (j + 1) 0 - times.getD j 0)) *
          capletValue isCap c.strike c.daycount (paths.bond s c.expiry c.maturity))).sum / N))).sum := by
  intro times
  set options := caplets.map (fun (c : HjmCaplet) => BondOption.mk (1 / (1 + c.daycount * c.strike)) c.expiry c.maturity (!isCap)) with hopt
  have hexp : options.map BondOption.expiry = caplets.map HjmCaplet.expiry := by
    rw [hopt, List.map_map]; rfl
  have hidx : ∀ c ∈ caplets, times[searchLeft times c.expiry]? = some c.expiry := by
    intro c hc
    apply searchLeft_mem _ (sorted_simulationTimes _ _ _)
    apply mem_simulationTimes
    exact List.mem_map_of_mem hc
  have huniq : ∀ (i j : Nat) (x : ℝ), times[i]? = some x → times[j]? = some x → i = j := by
    intro i j x hi hj
    have hnd : times.Nodup := (List.mergeSort_perm _ _).nodup_iff.2 (List.nodup_dedup _)
    obtain ⟨hi1, hi2⟩ := List.getElem?_eq_some_iff.1 hi
    obtain ⟨hj1, hj2⟩ := List.getElem?_eq_some_iff.1 hj
    exact (List.Nodup.getElem_inj_iff hnd).1 (hi2.trans hj2.symm)
  refine ⟨fun c => searchLeft times c.expiry, hidx, ?_⟩
  unfold hjmCapFloor
  simp only [← hopt]
  congr 1
  apply List.ext_getElem?
  intro k
  rw [List.getElem?_zipWith, List.getElem?_map]
  cases hk : caplets[k]? with
  | none => rfl
  | some c =>
    have hc : c ∈ caplets := List.mem_of_getElem? hk
    obtain ⟨i, h1, h2⟩ := C94_bond_options_partial options paths N step n k
      (BondOption.mk (1 / (1 + c.daycount * c.strike)) c.expiry c.maturity (!isCap)) (by rw [hopt, List.getElem?_map, hk]; rfl)
    rw [hexp] at h1 h2
    have hi : i = searchLeft times c.expiry := huniq _ _ _ h1 (hidx c hc)
    rw [h2, hi]
    simp only [Option.map_some]
    congr 1
    by_cases hneg : c.expiry < 0
    · rw [if_pos hneg, if_pos hneg, mul_zero]
    · rw [if_neg hneg, if_neg hneg, mul_assoc, sum_mean_mul]
      congr 4
      funext s
      rw [caplet_bond isCap c.strike c.daycount _ (hd c hc).1 (hd c hc).2 (hb _ _ _)]
      ring

/-- The swaption payoff for bond prices. -/
noncomputable def swaptionPayoff (isPayer : Bool) (payments : List (ℝ × ℝ × ℝ)) (bond : ℝ → ℝ) : ℝ :=
  let swap := 1 - (payments.map (fun (p : ℝ × ℝ × ℝ) => bond p.1)).getLastD 0 -
    (payments.map (fun (p : ℝ × ℝ × ℝ) => p.2.2 * p.2.1 * bond p.1)).sum
  max (if isPayer then swap else -swap) 0

theorem swaptionMc_eq (simTimes curveTimes : List ℝ) (paths : DiscountPaths) (N : Nat) (o : HjmSwaption) (t : ℝ)
    (ht : simTimes[searchLeft simTimes o.expiry]? = some t)
    (hc : ∀ p ∈ o.payments, curveTimes[searchLeft curveTimes (p.1 - o.expiry)]? = some (p.1 - o.expiry)) (hd : ∀ s, 0 ≤ paths.discount s t) :
    swaptionMc simTimes curveTimes paths N o = o.notional * (((List.range N).map (fun (s : Nat) =>
      paths.discount s t * swaptionPayoff o.isPayer o.payments (fun T => paths.bond s t (t + (T - o.expiry))))).sum / N) := by
  unfold swaptionMc
  have e1 : simTimes.getD (searchLeft simTimes o.expiry) 0 = t := by rw [List.getD_eq_getElem?_getD, ht]; rfl
  have e2 : ∀ s, o.payments.map (fun (p : ℝ × ℝ × ℝ) => paths.bond s t (t + curveTimes.getD (searchLeft curveTimes (p.1 - o.expiry)) 0)) =
      o.payments.map (fun (p : ℝ × ℝ × ℝ) => paths.bond s t (t + (p.1 - o.expiry))) := by
    intro s
    refine List.map_congr_left (fun p hp => ?_)
    rw [List.getD_eq_getElem?_getD, hc p hp]; rfl
  simp only [e1, e2]
  congr 4
  funext s
  unfold swaptionPayoff
  have e3 : List.zipWith (fun (p : ℝ × ℝ × ℝ) (b : ℝ) => p.2.2 * p.2.1 * b) o.payments
      (o.payments.map (fun (p : ℝ × ℝ × ℝ) => paths.bond s t (t + (p.1 - o.expiry)))) =
      o.payments.map (fun (p : ℝ × ℝ × ℝ) => p.2.2 * p.2.1 * paths.bond s t (t + (p.1 - o.expiry))) := by
    rw [List.zipWith_map_right, List.zipWith_self]
  simp only [e3]
  rw [mul_max_of_nonneg _ _ (hd s), mul_zero]
  congr 1
  cases o.isPayer
  · simp only [Bool.false_eq_true, if_false]; ring
  · simp only [if_true]

/-- C94.  Each swaption of a batch is priced as the notional times the mean over the paths of the discounted payoff, for the bond prices of
the path at the expiry, if no other times are given. -/
theorem C94_swaption_partial (swaptions : List HjmSwaption) (paths : DiscountPaths) (N : Nat) (k : Nat) (o : HjmSwaption)
    (hk : swaptions[k]? = some o) (hne : o.payments ≠ []) (hd : ∀ s, 0 ≤ paths.discount s o.expiry) :
    (swaptionsMc none none swaptions paths N)[k]? = some (o.notional * (((List.range N).map (fun (s : Nat) =>
      paths.discount s o.expiry * swaptionPayoff o.isPayer o.payments (fun T => paths.bond s o.expiry T))).sum / N)) := by
  have ho : o ∈ swaptions := List.mem_of_getElem? hk
  unfold swaptionsMc
  rw [List.getElem?_map, hk, Option.map_some, swaptionMc_eq _ _ paths N o o.expiry]
  · simp only [add_sub_cancel]
  · apply searchLeft_mem
    · have := List.pairwise_mergeSort (le := fun a b : ℝ => decide (a ≤ b)) (by intro a b c; simp; exact le_trans)
        (by intro a b; simp; exact le_total a b) (swaptions.flatMap (fun (s : HjmSwaption) => s.payments.map (fun _ => s.expiry)))
      exact this.imp (by simp)
    · unfold swaptionSimTimes
      rw [List.mem_mergeSort, List.mem_flatMap]
      obtain ⟨p, hp⟩ := List.exists_mem_of_ne_nil _ hne
      exact ⟨o, ho, List.mem_map.2 ⟨p, hp, rfl⟩⟩
  · intro p hp
    apply searchLeft_mem _ (sorted_dedup _)
    rw [List.mem_mergeSort, List.mem_dedup, List.mem_flatMap]
    exact ⟨o, ho, List.mem_map.2 ⟨p, hp, rfl⟩⟩
  · exact hd

/-- C94.  Payer minus receiver swaption is the mean of the discounted swap values. -/
theorem C94_parity (simTimes curveTimes : List ℝ) (paths : DiscountPaths) (N : Nat) (o : HjmSwaption) (t : ℝ)
    (ht : simTimes[searchLeft simTimes o.expiry]? = some t)
    (hc : ∀ p ∈ o.payments, curveTimes[searchLeft curveTimes (p.1 - o.expiry)]? = some (p.1 - o.expiry)) (hd : ∀ s, 0 ≤ paths.discount s t) :
    swaptionMc simTimes curveTimes paths N { o with isPayer := true } - swaptionMc simTimes curveTimes paths N { o with isPayer := false } =
      o.notional * (((List.range N).map (fun (s : Nat) => paths.discount s t * (1 -
        (o.payments.map (fun (p : ℝ × ℝ × ℝ) => paths.bond s t (t + (p.1 - o.expiry)))).getLastD 0 -
        (o.payments.map (fun (p : ℝ × ℝ × ℝ) => p.2.2 * p.2.1 * paths.bond s t (t + (p.1 - o.expiry)))).sum))).sum / N) := by
  rw [swaptionMc_eq simTimes curveTimes paths N { o with isPayer := true } t ht hc hd,
    swaptionMc_eq simTimes curveTimes paths N { o with isPayer := false } t ht hc hd]
  simp only
  have hsub : ∀ (l : List Nat) (f g : Nat → ℝ), (l.map f).sum - (l.map g).sum = (l.map (fun (s : Nat) => f s - g s)).sum := by
    intro l f g
    induction l with
    | nil => simp
    | cons a l ih => simp only [List.map_cons, List.sum_cons, ← ih]; ring
  rw [← mul_sub, ← sub_div, hsub]
  congr 4
  funext s
  unfold swaptionPayoff
  simp only [if_true, Bool.false_eq_true, if_false]
  rw [← mul_sub]
  congr 1
  generalize 1 - (o.payments.map (fun (p : ℝ × ℝ × ℝ) => paths.bond s t (t + (p.1 - o.expiry)))).getLastD 0 -
        (o.payments.map (fun (p : ℝ × ℝ × ℝ) => p.2.2 * p.2.1 * paths.bond s t (t + (p.1 - o.expiry)))).sum = v
  rcases le_total v 0 with h | h
  · rw [max_eq_right h, max_eq_left (by linarith)]; ring
  · rw [max_eq_left h, max_eq_right (by linarith)]; ring

/-- Deviation from C94: for given times without the expiry the next later time takes its place.  Expiry 3/2, times 1 and 2: the bond and
discount factor are those of time 2. -/
theorem C94_times : swaptionMc [1, 2] [1] ⟨fun _ t _ => if t = 3 / 2 then 1 / 2 else 9 / 10, fun _ _ => 1⟩ 1 ⟨3 / 2, [(5 / 2, 1, 0)], 1, true⟩ = 1 / 10 ∧
    swaptionMc [3 / 2] [1] ⟨fun _ t _ => if t = 3 / 2 then 1 / 2 else 9 / 10, fun _ _ => 1⟩ 1 ⟨3 / 2, [(5 / 2, 1, 0)], 1, true⟩ = 1 / 2 := by
  constructor
  · rw [swaptionMc_eq _ _ _ _ _ 2 (by norm_num [searchLeft, List.takeWhile]) (by norm_num [searchLeft, List.takeWhile]) (by simp)]
    norm_num [swaptionPayoff]
  · rw [swaptionMc_eq _ _ _ _ _ (3 / 2) (by norm_num [searchLeft, List.takeWhile]) (by norm_num [searchLeft, List.takeWhile]) (by simp)]
    norm_num [swaptionPayoff]

/-- Deviation from C94: swaptions that expire in the past are not set to zero. -/
theorem C94_past (b : ℝ) (hb : b < 1) : 0 < swaptionMc [-1] [1] ⟨fun _ _ _ => b, fun _ _ => 1⟩ 1 ⟨-1, [(0, 1, 0)], 1, true⟩ := by
  rw [swaptionMc_eq _ _ _ _ _ (-1) (by norm_num [searchLeft, List.takeWhile]) (by norm_num [searchLeft, List.takeWhile]) (by simp)]
  simp [swaptionPayoff]
  exact hb

section
variable {K : Type} [Field K] [LinearOrder K] [IsStrictOrderedRing K]

theorem fdAxis_getElem? (n k : Nat) (hk : k < n) (hn : 2 ≤ n) : (fdAxis (K := K) n)[k]? = some (-(1 / 2) + (k : K) / ((n : K) - 1)) := by
  unfold fdAxis tfLinspace
  rw [List.getElem?_map, List.getElem?_range hk, Option.map_some]
  have e : ((max (n - 1) 1 : Nat) : K) = (n : K) - 1 := by
    rw [max_eq_left (by omega), Nat.cast_sub (by omega), Nat.cast_one]
  rw [e]
  congr 1
  ring

theorem fdAxis_read (n m : Nat) (hn : 2 ≤ n) (hm : m < n) (h1 : n ≤ 2 * m + 1) (h2 : 2 * m ≤ n) :
    fdReadPoint (K := K) n = some (-(1 / 2) + (m : K) / ((n : K) - 1)) := by
  have hpos : (0 : K) < (n : K) - 1 := by
    have : (2 : K) ≤ n := by exact_mod_cast hn
    linarith
  have hlen : (fdAxis (K := K) n).length = n := by simp [fdAxis, tfLinspace]
  have hsorted : (fdAxis (K := K) n).Pairwise (· ≤ ·) := by
    rw [List.pairwise_iff_getElem]
    intro i j hi hj hij
    rw [hlen] at hi hj
    have a := fdAxis_getElem? (K := K) n i hi hn
    have b := fdAxis_getElem? (K := K) n j hj hn
    rw [List.getElem?_eq_getElem (by omega)] at a b
    rw [Option.some.inj a, Option.some.inj b]
    have : (i : K) ≤ j := by exact_mod_cast hij.le
    have := div_le_div_of_nonneg_right this hpos.le
    linarith
  have hidx : searchLeft (fdAxis (K := K) n) 0 = m := by
    apply searchLeft_eq _ hsorted 0 m (by omega)
    · intro a h0 ha
      rw [fdAxis_getElem? n (m - 1) (by omega) hn] at ha
      rw [← Option.some.inj ha]
      have : ((m - 1 : Nat) : K) / ((n : K) - 1) < 1 / 2 := by
        rw [div_lt_iff₀ hpos]
        have h3 : (2 * (m - 1) + 1 : Nat) < n := by omega
        have h4 : (2 * ((m - 1 : Nat) : K) + 1) < (n : K) := by exact_mod_cast h3
        linarith
      linarith
    · intro a ha
      rw [fdAxis_getElem? n m hm hn] at ha
      rw [← Option.some.inj ha]
      have : 1 / 2 ≤ (m : K) / ((n : K) - 1) := by
        rw [le_div_iff₀ hpos]
        have h4 : (n : K) ≤ 2 * (m : K) + 1 := by exact_mod_cast h1
        linarith
      linarith
  unfold fdReadPoint
  rw [hidx, fdAxis_getElem? n m hm hn]

/-- C94.  With an odd number of grid points the finite difference price is read at the state zero. -/
theorem C94_fd_point_partial (m : Nat) (hm : 1 ≤ m) : fdReadPoint (K := K) (2 * m + 1) = some 0 := by
  rw [fdAxis_read (2 * m + 1) m (by omega) (by omega) (by omega) (by omega)]
  have : (m : K) ≠ 0 := by exact_mod_cast (by omega : m ≠ 0)
  congr 1
  push_cast
  field_simp
  ring

/-- Deviation from C94: with an even number of points it is read half a grid step above zero. -/
theorem C94_fd_even (m : Nat) (hm : 1 ≤ m) : ∃ x : K, fdReadPoint (K := K) (2 * m) = some x ∧ 0 < x := by
  refine ⟨_, fdAxis_read (2 * m) m (by omega) (by omega) (by omega) (by omega), ?_⟩
  have h1 : (1 : K) ≤ m := by exact_mod_cast hm
  have h2 : (0 : K) < 2 * (m : K) - 1 := by linarith
  push_cast
  have : 1 / 2 < (m : K) / (2 * (m : K) - 1) := by
    rw [lt_div_iff₀ h2]
    linarith
  linarith

/-- Deviation from C94: without step and number of steps there is no time grid, where the documentation has one hundred steps. -/
theorem C94_fd_default [FloorRing K] (exerciseTimes : List K) (tol : K) : createPdeTimeGrid exerciseTimes tol none none = .error "TypeError" := rfl

theorem createPdeTimeGrid_steps [FloorRing K] (exerciseTimes : List K) (tol : K) (step : Option K) (n : Option Nat) (grid dt : List K)
    (h : createPdeTimeGrid exerciseTimes tol step n = .ok (grid, dt)) :
    dt = 100 :: List.zipWith (fun (a b : K) => a - b) grid.tail grid.dropLast := by
  unfold createPdeTimeGrid at h
  simp only at h
  split at h
  · simp at h
  · split at h
    · simp at h
    · simp only [Except.ok.injEq, Prod.mk.injEq] at h
      rw [← h.1, ← h.2]

/-- C94.  From each point of the time grid the solver steps to the point before: the time is found on the grid, and the step there is the
distance to the point before. -/
theorem C94_fd_steps [FloorRing K] (exerciseTimes : List K) (tol : K) (step : Option K) (n : Option Nat) (grid dt : List K)
    (h : createPdeTimeGrid exerciseTimes tol step n = .ok (grid, dt)) (tol' : K) (hgap : grid.Pairwise (fun a b => 2 * tol' < b - a))
    (htol : 0 < tol') (i : Nat) (a b t : K) (ha : grid[i]? = some a) (hb : grid[i + 1]? = some b) (ht : |t - b| < tol') :
    pdeGridIndex tol' grid t = some ((i + 1 : Nat) : Int) ∧ dt[i + 1]? = some (b - a) := by
  have hsorted : grid.Pairwise (· ≤ ·) := hgap.imp (fun {a b} h => by linarith)
  obtain ⟨hi1, hi2⟩ := List.getElem?_eq_some_iff.1 ha
  obtain ⟨hj1, hj2⟩ := List.getElem?_eq_some_iff.1 hb
  have hab : 2 * tol' < b - a := by
    have := List.pairwise_iff_getElem.1 hgap i (i + 1) hi1 hj1 (by omega)
    rwa [hi2, hj2] at this
  obtain ⟨h1, h2⟩ := abs_lt.1 ht
  have hidx : searchRight grid (t - tol') = i + 1 := by
    apply searchRight_eq grid hsorted _ (i + 1) (by omega)
    · intro c _ hc
      rw [Nat.add_sub_cancel, ha] at hc
      rw [← Option.some.inj hc]
      linarith
    · intro c hc
      rw [hb] at hc
      rw [← Option.some.inj hc]
      linarith
  constructor
  · unfold pdeGridIndex
    simp only [hidx, hb, Option.map_some, ht, if_true]
  · rw [createPdeTimeGrid_steps _ _ _ _ _ _ h, List.getElem?_cons_succ, List.getElem?_zipWith, List.getElem?_tail, hb, List.getElem?_dropLast,
      if_pos (by omega), ha]

/-- C94.  With a number of steps the time grid of a single expiry is sorted, starts at zero, ends with the expiry and has the number of steps. -/
theorem C94_fd_grid [FloorRing K] (expiry tol : K) (hpos : 0 < expiry) (n : Nat) (hn : 1 ≤ n) (step : Option K) :
    ∃ grid dt, createPdeTimeGrid [expiry] tol step (some n) = .ok (grid, dt) ∧ grid.Pairwise (· ≤ ·) ∧ grid.head? = some 0 ∧
      grid.length = n + 1 ∧ expiry ∈ grid := by
  have hn' : (1 : K) ≤ n := by exact_mod_cast hn
  obtain ⟨all, mask, indices, h1, h2, h3, h4, h5, h6⟩ := C39_num_times [expiry] (expiry / (n : K)) tol expiry n (by simp [hpos.le]) rfl
    (div_nonneg hpos.le (by linarith)) (div_le_self hpos.le hn')
  refine ⟨all, 100 :: List.zipWith (fun (a b : K) => a - b) all.tail all.dropLast, ?_, h2, h3, ?_, ?_⟩
  · unfold createPdeTimeGrid
    simp [h1]
  · rw [h4]; simp; omega
  · obtain ⟨i, _, hi⟩ := h6 0 expiry rfl
    exact List.mem_of_getElem? hi

end

/-- C94.  The finite difference method has the same payoff as the simulation. -/
theorem C94_fd_payoff (isPayer : Bool) (payments : List (ℝ × ℝ × ℝ)) (bond : ℝ → ℝ) :
    fdSwaptionPayoff isPayer (payments.map (fun (p : ℝ × ℝ × ℝ) => p.2)) (payments.map (fun (p : ℝ × ℝ × ℝ) => bond p.1)) =
      swaptionPayoff isPayer payments bond := by
  unfold fdSwaptionPayoff swaptionPayoff
  rw [List.zipWith_map_left, List.zipWith_map_right, List.zipWith_self]

/-! Examples. -/

/-- Two options with different expiries and maturities and two paths with rate zero. -/
example : (optionsPriceFromSamples [⟨1 / 2, 2, 3, true⟩, ⟨1, 1, 3, false⟩] ⟨fun s t T => if s = 0 then T / (4 * t) else 1, fun _ _ => 0⟩ 2 5 0)[1]? =
    some (1 / 8) := by
  obtain ⟨i, _, h⟩ := C94_bond_options_partial [⟨1 / 2, 2, 3, true⟩, ⟨1, 1, 3, false⟩] ⟨fun s t T => if s = 0 then T / (4 * t) else 1, fun _ _ => 0⟩ 2 5 0 1
    ⟨1, 1, 3, false⟩ rfl
  rw [h]
  norm_num [vanillaPayoff, List.range_succ]

example : prepareIndices [0, 1] [5, 6] [7, 8] [0] = [(0, 5, 7, 0), (0, 6, 8, 0), (1, 5, 7, 0), (1, 6, 8, 0)] := by decide

example : (swaptionsMc none none [⟨1, [(2, 1, 1 / 10), (3, 1, 1 / 10)], 100, true⟩] ⟨fun _ _ T => 1 - T / 10, fun _ _ => 9 / 10⟩ 2)[0]? =
    some (27 / 2) := by
  rw [C94_swaption_partial _ _ 2 0 ⟨1, [(2, 1, 1 / 10), (3, 1, 1 / 10)], 100, true⟩ rfl (by simp) (by intro; norm_num)]
  norm_num [swaptionPayoff, List.range_succ]

example : fdReadPoint (K := ℚ) 101 = some 0 ∧ fdReadPoint (K := ℚ) 100 = some (1 / 198) := by decide +kernel

end Props
