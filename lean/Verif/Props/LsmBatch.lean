import Verif.Lemmas.LsmBatch
import Verif.Props.Lsm
import Mathlib.Data.Finset.Card
import Mathlib.Tactic.Linarith
import Mathlib.Tactic.NormNum

/-!
# C114: batches of American basket puts by the method of Longstaff and Schwartz
-/

namespace Props
open Model Lemmas Spec
open scoped BigOperators

/-- Coordinate `d` at time `i` of sample `s` of the paths of option `v`: shared paths, or a batch of one, are the paths of every option. -/
def pathEntry (paths : LsmPaths) (v s i d : Nat) : ℝ :=
  match paths with
  | .shared t => t.get s i d
  | .batch t => t.get (if t.d0 = 1 then 0 else v) s i d

/-- `n` samples of `T` times in dimension `dim`, for `B` options or for all. -/
def PathsFit (paths : LsmPaths) (n T dim B : Nat) : Prop :=
  match paths with
  | .shared t => t.d0 = n ∧ t.d1 = T ∧ t.d2 = dim
  | .batch t => (t.d0 = B ∨ t.d0 = 1) ∧ t.d1 = n ∧ t.d2 = T ∧ t.d3 = dim

/-- The paths alone make a batch of `B`. -/
def PathsBatch (paths : LsmPaths) (B : Nat) : Prop :=
  match paths with
  | .shared _ => B = 1
  | .batch t => t.d0 = B

/-- The factor from exercise `j` to today for option `v` and sample `s`. -/
def discountEntry (discounts : LsmDiscounts) (v s j : Nat) : ℝ :=
  match discounts with
  | .missing => 1
  | .rank0 x => x
  | .rank1 _ x => x j
  | .rank2 _ => 0
  | .rank3 x => x.get (if x.d0 = 1 then 0 else s) (if x.d1 = 1 then 0 else v) j

/-- Discount factors for `N` exercises, as documented: none, one for each exercise, or compatible with `[num_samples, batch_size, num_exercise_times]`. -/
def DiscountsFit (discounts : LsmDiscounts) (N n B : Nat) : Prop :=
  match discounts with
  | .missing => True
  | .rank0 _ => N = 1
  | .rank1 k _ => k = N
  | .rank2 _ => False
  | .rank3 x => (x.d0 = n ∨ x.d0 = 1) ∧ (x.d1 = B ∨ x.d1 = 1) ∧ x.d2 = N

/-- The payoff of a put with strike `K` on the mean of `dim` assets. -/
noncomputable def basketPut (K : ℝ) (dim : Nat) (x : Nat → ℝ) : ℝ := max (K - (∑ d ∈ Finset.range dim, x d) / (dim : ℝ)) 0

/-- The monomial with exponents `p` in the coordinates of sample `s`, less their means over the `n` samples. -/
noncomputable def centredMonomial (n dim : Nat) (p : List Nat) (x : Nat → Nat → ℝ) (s : Nat) : ℝ :=
  ∏ d ∈ Finset.range dim, (x s d - (∑ s' ∈ Finset.range n, x s' d) / (n : ℝ)) ^ (p.getD d 0)

/-- C114, discount factors: the prepared tensor has a one in front of the given factors. -/
theorem discounts_prepare (discounts : LsmDiscounts) (N n B : Nat) (h : DiscountsFit discounts N n B) :
    ∃ T, discounts.prepare N = .ok T ∧ T.d0 = N + 1 ∧ (T.d1 = n ∨ T.d1 = 1) ∧ (T.d2 = B ∨ T.d2 = 1) ∧ (∀ s v, T.get 0 s v = 1) ∧
      ∀ j s v, T.get (j + 1) (broadcastGet T.d1 s) (broadcastGet T.d2 v) = discountEntry discounts v s j := by
  cases discounts with
  | missing => exact ⟨_, rfl, rfl, Or.inr rfl, Or.inr rfl, fun _ _ => rfl, fun _ _ _ => rfl⟩
  | rank0 x =>
    have h' : N = 1 := h
    subst h'
    exact ⟨_, rfl, rfl, Or.inr rfl, Or.inr rfl, fun _ _ => rfl, fun _ _ _ => rfl⟩
  | rank1 k x =>
    have h' : k = N := h
    subst h'
    exact ⟨_, rfl, rfl, Or.inr rfl, Or.inr rfl, fun _ _ => rfl, fun _ _ _ => rfl⟩
  | rank2 x => exact h.elim
  | rank3 x =>
    obtain ⟨h0, h1, h2⟩ := h
    subst h2
    exact ⟨_, rfl, rfl, h0, h1, fun _ _ => rfl, fun _ _ _ => rfl⟩

/-- C114, payoff: the put valuer gives the payoff of the basket put of every option on every sample. -/
theorem C114_payoff (strikes : Tensor2 ℝ) (paths : LsmPaths) (n T dim B i : Nat) (hp : PathsFit paths n T dim B) (hi : i < T)
    (h0 : strikes.d0 = n ∨ strikes.d0 = 1) (h1 : strikes.d1 = B ∨ strikes.d1 = 1) (hB : strikes.d1 = B ∨ PathsBatch paths B) :
    ∃ r, putValuer strikes paths i = .ok r ∧ r.d0 = n ∧ r.d1 = B ∧ ∀ s v, s < n → v < B →
      r.get s v = basketPut (strikes.get (if strikes.d0 = 1 then 0 else s) (if strikes.d1 = 1 then 0 else v)) dim (pathEntry paths v s i) := by
  unfold putValuer
  cases paths with
  | shared t =>
    obtain ⟨p0, p1, p2⟩ := hp
    have hB' : strikes.d1 = B ∨ 1 = B := hB.imp_right Eq.symm
    simp only
    rw [if_pos (show i < (LsmPaths.shared t).samplesFirst.d2 from (show i < t.d1 by omega))]
    simp only [bind, Except.bind, LsmPaths.samplesFirst]
    rw [map2_ok (n := n) (B := B) _ _ _ h0 h1 (Or.inl p0) (Or.inr rfl) (Or.inr p0) hB']
    refine ⟨_, rfl, rfl, rfl, fun s v hs hv => ?_⟩
    simp only [Tensor2.map, p0, p2, broadcastGet_lt hs, basketPut, pathEntry]
    rfl
  | batch t =>
    obtain ⟨p0, p1, p2, p3⟩ := hp
    have hB' : strikes.d1 = B ∨ t.d0 = B := hB
    simp only
    rw [if_pos (show i < (LsmPaths.batch t).samplesFirst.d2 from p2 ▸ hi)]
    simp only [bind, Except.bind, LsmPaths.samplesFirst]
    rw [map2_ok (n := n) (B := B) _ _ _ h0 h1 (Or.inl p1) p0 (Or.inr p1) hB']
    refine ⟨_, rfl, rfl, rfl, fun s v hs hv => ?_⟩
    simp only [Tensor2.map, p1, p3, broadcastGet_lt hs, basketPut, pathEntry]
    rfl

/-- C114, basis: for every option, all monomials in its centred coordinates with exponents up to the degree, each exactly once (`C57_basis_powers`). -/
theorem C114_basis (degree : Nat) (paths : LsmPaths) (n T dim B i : Nat) (hp : PathsFit paths n T dim B) (hi : i < T) (hd : 0 < dim) :
    ∃ r, batchBasis degree paths i = .ok r ∧ (r.d0 = B ∨ r.d0 = 1) ∧ r.d1 = (basisPowers degree dim).length ∧ r.d2 = n ∧ ∀ v k s, v < B →
      r.get (broadcastGet r.d0 v) k s = centredMonomial n dim ((basisPowers degree dim).getD k []) (fun s d => pathEntry paths v s i d) s := by
  unfold batchBasis
  cases paths with
  | shared t =>
    obtain ⟨p0, p1, p2⟩ := hp
    simp only
    rw [if_pos (show i < (LsmPaths.shared t).batchFirst.d2 ∧ 0 < (LsmPaths.shared t).batchFirst.d3 from ⟨(show i < t.d1 by omega), (show 0 < t.d2 by omega)⟩)]
    simp only [LsmPaths.batchFirst, p0, p2]
    exact ⟨_, rfl, Or.inr rfl, rfl, rfl, fun v k s hv => rfl⟩
  | batch t =>
    obtain ⟨p0, p1, p2, p3⟩ := hp
    simp only
    rw [if_pos (show i < (LsmPaths.batch t).batchFirst.d2 ∧ 0 < (LsmPaths.batch t).batchFirst.d3 from ⟨p2 ▸ hi, p3 ▸ hd⟩)]
    simp only [LsmPaths.batchFirst, p1, p3]
    exact ⟨_, rfl, p0, rfl, rfl, fun v k s hv => rfl⟩

/-- C114, any payoff and basis of fitting shapes: every option of the batch gets the price that the method gives for it alone. -/
theorem C114_alone (a : BatchLsm) (T : Tensor3 ℝ) (P : Nat → Tensor2 ℝ) (D : Nat → Tensor3 ℝ) (n b B : Nat) (h : BatchFits a T P D n b B)
    (hne : a.exerciseTimes ≠ []) :
    ∃ r, a.price = .ok r ∧ r.1 = B ∧ ∀ v, v < B →
      ∃ r1, BatchLsm.price ⟨a.exerciseTimes, fun t => .ok ⟨n, 1, fun s _ => (P t).get s v⟩,
        fun t => .ok ⟨1, b, n, fun _ k s => (D t).get (if (D t).d0 = 1 then 0 else v) k s⟩,
        .rank3 ⟨n, 1, a.exerciseTimes.length, fun s _ i => T.get (i + 1) (if T.d1 = 1 then 0 else s) (if T.d2 = 1 then 0 else v)⟩,
        a.numCalibration, a.numPathTimes, a.pinv⟩ = .ok r1 ∧ r1.1 = 1 ∧ r1.2 0 = r.2 v := by
  obtain ⟨r, h1, h2, h3⟩ := batchPrice_member a T P D h hne
  refine ⟨r, h1, h2, fun v hv => ?_⟩
  obtain ⟨r1, g1, g2, g3⟩ := batchPrice_member ⟨a.exerciseTimes, fun t => .ok ⟨n, 1, fun s _ => (P t).get s v⟩,
        fun t => .ok ⟨1, b, n, fun _ k s => (D t).get (if (D t).d0 = 1 then 0 else v) k s⟩,
        .rank3 ⟨n, 1, a.exerciseTimes.length, fun s _ i => T.get (i + 1) (if T.d1 = 1 then 0 else s) (if T.d2 = 1 then 0 else v)⟩,
        a.numCalibration, a.numPathTimes, a.pinv⟩
    ⟨a.exerciseTimes.length + 1, n, 1, fun i s _ => if i = 0 then 1 else T.get (i - 1 + 1) (if T.d1 = 1 then 0 else s) (if T.d2 = 1 then 0 else v)⟩
    (fun t => ⟨n, 1, fun s _ => (P t).get s v⟩) (fun t => ⟨1, b, n, fun _ k s => (D t).get (if (D t).d0 = 1 then 0 else v) k s⟩) (n := n) (b := b) (B := 1)
    ⟨fun t _ => ⟨rfl, rfl, rfl⟩, fun t _ => ⟨rfl, Or.inl rfl, rfl, rfl⟩, rfl, rfl, Or.inl rfl, Or.inl rfl, fun _ _ => rfl, h.calibration⟩ hne
  refine ⟨r1, g1, g2, ?_⟩
  rw [g3 0 (by omega), h3 v hv]
  congr 1
  unfold batchMember
  simp only [LsmInput.mk.injEq, true_and, and_true, heq_eq_eq]
  refine ⟨rfl, ?_⟩
  refine List.map_congr_left fun i _ => ?_
  funext s
  simp only [Nat.add_one_ne_zero, if_false, Nat.add_sub_cancel]
  rw [broadcastGet_lt s.isLt]
  rfl

/-- C114: each price of a batch of American basket puts is the mean over the pricing samples of the discounted payoff of this option under an
exercise policy of Longstaff and Schwartz for this option: its strike, its paths, its discount factors, a regression on the monomials in its coordinates. -/
theorem C114_prices (strikes : Tensor2 ℝ) (paths : LsmPaths) (discounts : LsmDiscounts) (exerciseTimes : List Nat) (degree : Nat) (numCalibration : Option Nat)
    (pinv : (b : Nat) → Matrix (Fin b) (Fin b) ℝ → Matrix (Fin b) (Fin b) ℝ) (n T dim B : Nat)
    (hpinv : ∀ b (A : Matrix (Fin b) (Fin b) ℝ), A * pinv b A * A = A)
    (hp : PathsFit paths n T dim B) (hdim : 0 < dim) (hne : exerciseTimes ≠ []) (hnd : exerciseTimes.Nodup) (hT : ∀ t ∈ exerciseTimes, t < T)
    (h0 : strikes.d0 = n ∨ strikes.d0 = 1) (h1 : strikes.d1 = B ∨ strikes.d1 = 1) (hB : strikes.d1 = B ∨ PathsBatch paths B)
    (hd : DiscountsFit discounts exerciseTimes.length n B)
    (hnz : ∀ v s j, v < B → s < n → j < exerciseTimes.length → discountEntry discounts v s j ≠ 0)
    (hc : ∀ m, numCalibration = some m → m ≤ n) :
    ∃ r, BatchLsm.price ⟨exerciseTimes, putValuer strikes paths, batchBasis degree paths, discounts, numCalibration, paths.numTimes, pinv⟩ = .ok r ∧
      r.1 = B ∧ ∀ v, v < B → ∃ tau : Nat → Fin n → Nat,
        IsLsmPolicy (b := (basisPowers degree dim).length) (exerciseTimes.length - 1)
          (fun j s => basketPut (strikes.get (if strikes.d0 = 1 then 0 else s.val) (if strikes.d1 = 1 then 0 else v)) dim (pathEntry paths v s (exerciseTimes.getD j 0)))
          (fun j s => discountEntry discounts v s.val j)
          (fun j k s => centredMonomial n dim ((basisPowers degree dim).getD k []) (fun s d => pathEntry paths v s (exerciseTimes.getD j 0) d) s)
          (Finset.univ.filter fun s => s.val < numCalibration.getD n) tau ∧
        (∀ s, tau 0 s < exerciseTimes.length) ∧
        r.2 v = (∑ s : Fin n with numCalibration.getD 0 ≤ s.val, discountEntry discounts v s.val (tau 0 s) *
          basketPut (strikes.get (if strikes.d0 = 1 then 0 else s.val) (if strikes.d1 = 1 then 0 else v)) dim (pathEntry paths v s (exerciseTimes.getD (tau 0 s) 0))) /
            ((n - numCalibration.getD 0 : Nat) : ℝ) := by
  classical
  have hpay := fun t (ht : t ∈ exerciseTimes) => C114_payoff strikes paths n T dim B t hp (hT t ht) h0 h1 hB
  have hbas := fun t (ht : t ∈ exerciseTimes) => C114_basis degree paths n T dim B t hp (hT t ht) hdim
  choose P hP using hpay
  choose D hD using hbas
  obtain ⟨X, hX, X0, X1, X2, Xs, Xe⟩ := discounts_prepare discounts exerciseTimes.length n B hd
  obtain ⟨P', hP'⟩ : ∃ P' : Nat → Tensor2 ℝ, ∀ t (ht : t ∈ exerciseTimes), P' t = P t ht :=
    ⟨fun t => if ht : t ∈ exerciseTimes then P t ht else ⟨0, 0, fun _ _ => 0⟩, fun t ht => dif_pos ht⟩
  obtain ⟨D', hD'⟩ : ∃ D' : Nat → Tensor3 ℝ, ∀ t (ht : t ∈ exerciseTimes), D' t = D t ht :=
    ⟨fun t => if ht : t ∈ exerciseTimes then D t ht else ⟨0, 0, 0, fun _ _ _ => 0⟩, fun t ht => dif_pos ht⟩
  have fits : BatchFits ⟨exerciseTimes, putValuer strikes paths, batchBasis degree paths, discounts, numCalibration, paths.numTimes, pinv⟩ X P' D' n (basisPowers degree dim).length B := by
    refine ⟨fun t ht => ?_, fun t ht => ?_, hX, X0, X1, X2, Xs, hc⟩
    · rw [hP' t ht]; exact ⟨(hP t ht).1, (hP t ht).2.1, (hP t ht).2.2.1⟩
    · rw [hD' t ht]; exact ⟨(hD t ht).1, (hD t ht).2.1, (hD t ht).2.2.1, (hD t ht).2.2.2.1⟩
  obtain ⟨r, r1, r2, r3⟩ := batchPrice_member _ X P' D' fits hne
  refine ⟨r, r1, r2, fun v hv => ?_⟩
  have hpos : 0 < exerciseTimes.length := List.length_pos_iff.2 hne
  have hmem : ∀ j, j < exerciseTimes.length → exerciseTimes.getD j 0 ∈ exerciseTimes := by
    intro j hj
    simp [List.getD, List.getElem?_eq_getElem hj]
  have hlen : exerciseTimes.length ≤ T := by
    have := Finset.card_le_card (s := exerciseTimes.toFinset) (t := Finset.range T) (fun t ht => by
      rw [Finset.mem_range]; exact hT t (List.mem_toFinset.1 ht))
    rwa [List.toFinset_card_of_nodup hnd, Finset.card_range] at this
  have hnum : paths.numTimes = T := by
    cases paths with
    | shared t => exact hp.2.1
    | batch t => exact hp.2.2.1
  set a := batchMember ⟨exerciseTimes, putValuer strikes paths, batchBasis degree paths, discounts, numCalibration, paths.numTimes, pinv⟩ X P' D' n (basisPowers degree dim).length v with ha
  have hpad : ∀ j (s : Fin n), j < exerciseTimes.length → a.padded (j + 1) s = discountEntry discounts v s.val j := by
    intro j s hj
    rw [ha, batchMember_padded _ X P' D' fits v (j + 1) hj s, Xe]
  have hpad0 : ∀ s : Fin n, a.padded 0 s = 1 := fun s => rfl
  have hex : ∀ j (s : Fin n), j < exerciseTimes.length → a.exerciseValue j s =
      basketPut (strikes.get (if strikes.d0 = 1 then 0 else s.val) (if strikes.d1 = 1 then 0 else v)) dim (pathEntry paths v s (exerciseTimes.getD j 0)) := by
    intro j s hj
    show (P' (exerciseTimes.getD j 0)).get s.val v = _
    rw [hP' _ (hmem j hj)]
    exact (hP _ (hmem j hj)).2.2.2 s.val v s.isLt hv
  have hdes : ∀ j (k : Fin (basisPowers degree dim).length) (s : Fin n), j < exerciseTimes.length → a.design j k s =
      centredMonomial n dim ((basisPowers degree dim).getD k []) (fun s d => pathEntry paths v s (exerciseTimes.getD j 0) d) s := by
    intro j k s hj
    show (D' (exerciseTimes.getD j 0)).get (broadcastGet (D' (exerciseTimes.getD j 0)).d0 v) k.val s.val = _
    rw [hD' _ (hmem j hj)]
    exact (hD _ (hmem j hj)).2.2.2.2 v k.val s.val hv
  have hn : a.numTimes = exerciseTimes.length := rfl
  obtain ⟨tau, t1, t2⟩ := C57_price a (hpinv _) (fun i s hi => by
    cases i with
    | zero => rw [hpad0]; exact one_ne_zero
    | succ j => rw [hpad j s (by omega)]; exact hnz v s.val j hv s.isLt (by omega)) (by omega) (by
      show exerciseTimes.length ≤ paths.numTimes + 1
      omega)
  have hcal : a.calibration = Finset.univ.filter fun s : Fin n => s.val < numCalibration.getD n := by
    show LsmInput.calibration a = _
    have hcc : a.numCalibration = numCalibration := rfl
    unfold LsmInput.calibration
    rw [hcc]
    cases numCalibration with
    | none =>
      simp only [Option.getD_none]
      exact (Finset.filter_true_of_mem fun s _ => s.isLt).symm
    | some m => simp only [Option.getD_some]
  have hpr : a.pricing = Finset.univ.filter fun s : Fin n => numCalibration.getD 0 ≤ s.val := by
    have hcc : a.numCalibration = numCalibration := rfl
    unfold LsmInput.pricing
    rw [hcc]
    cases numCalibration with
    | none => simp
    | some m => simp only [Option.getD_some]
  obtain ⟨tl, ts⟩ := t1
  have hrange : ∀ d, d ≤ exerciseTimes.length - 1 → ∀ s, tau (exerciseTimes.length - 1 - d) s ≤ exerciseTimes.length - 1 := by
    intro d
    induction d with
    | zero => intro _ s; rw [Nat.sub_zero]; exact (tl s).le
    | succ d ih =>
      intro hd s
      obtain ⟨_, _, h2⟩ := ts (exerciseTimes.length - 1 - (d + 1)) (by omega)
      rw [h2 s]
      split
      · omega
      · have : exerciseTimes.length - 1 - (d + 1) + 1 = exerciseTimes.length - 1 - d := by omega
        rw [this]
        exact ih (by omega) s
  have htau : ∀ j, j ≤ exerciseTimes.length - 1 → ∀ s, tau j s < exerciseTimes.length := by
    intro j hj s
    have := hrange (exerciseTimes.length - 1 - j) (by omega) s
    have e : exerciseTimes.length - 1 - (exerciseTimes.length - 1 - j) = j := by omega
    rw [e] at this
    omega
  refine ⟨tau, ⟨tl, fun j hj => ?_⟩, htau 0 (by omega), ?_⟩
  · obtain ⟨beta, b1, b2⟩ := ts j hj
    have hj' : j < exerciseTimes.length := by omega
    refine ⟨beta, ?_, fun s => ?_⟩
    · rw [hcal] at b1
      intro beta'
      have := b1 beta'
      have hf : (Finset.univ.filter fun s : Fin n => s.val < numCalibration.getD n).filter (fun s : Fin n => basketPut (strikes.get (if strikes.d0 = 1 then 0 else s.val)
          (if strikes.d1 = 1 then 0 else v)) dim (pathEntry paths v s (exerciseTimes.getD j 0)) > 0) =
          (Finset.univ.filter fun s : Fin n => s.val < numCalibration.getD n).filter (fun s : Fin n => a.exerciseValue j s > 0) :=
        Finset.filter_congr fun s _ => by rw [hex j s hj']
      rw [hf]
      simp only [hdes j _ _ hj', hpad j _ hj'] at this
      have e1 : ∀ s, discountEntry discounts v s.val (tau (j + 1) s) = a.padded (tau (j + 1) s + 1) s := fun s => (hpad _ s (htau (j + 1) (by omega) s)).symm
      have e2 : ∀ s : Fin n, basketPut (strikes.get (if strikes.d0 = 1 then 0 else s.val) (if strikes.d1 = 1 then 0 else v)) dim (pathEntry paths v s (exerciseTimes.getD (tau (j + 1) s) 0)) =
          a.exerciseValue (tau (j + 1) s) s := fun s => (hex _ s (htau (j + 1) (by omega) s)).symm
      simp only [e1, e2]
      exact this
    · rw [b2 s]
      simp only [hdes j _ _ hj', hex j s hj']
  · rw [r3 v hv, t2, card_pricing, hpr]
    congr 1
    refine Finset.sum_congr rfl fun s _ => ?_
    rw [hpad _ s (htau 0 (by omega) s), hex _ s (htau 0 (by omega) s)]

/-- C114: a price lies between zero and the strike, if discount factors lie in (0, 1], the mean of the assets is never negative and the strike is not. -/
theorem C114_bounds (strikes : Tensor2 ℝ) (paths : LsmPaths) (discounts : LsmDiscounts) (exerciseTimes : List Nat) (degree : Nat) (numCalibration : Option Nat)
    (pinv : (b : Nat) → Matrix (Fin b) (Fin b) ℝ → Matrix (Fin b) (Fin b) ℝ) (n T dim B : Nat)
    (hpinv : ∀ b (A : Matrix (Fin b) (Fin b) ℝ), A * pinv b A * A = A)
    (hp : PathsFit paths n T dim B) (hdim : 0 < dim) (hne : exerciseTimes ≠ []) (hnd : exerciseTimes.Nodup) (hT : ∀ t ∈ exerciseTimes, t < T)
    (h0 : strikes.d0 = 1) (h1 : strikes.d1 = B ∨ strikes.d1 = 1) (hB : strikes.d1 = B ∨ PathsBatch paths B)
    (hd : DiscountsFit discounts exerciseTimes.length n B)
    (hpos : ∀ v s j, v < B → s < n → j < exerciseTimes.length → 0 < discountEntry discounts v s j)
    (hone : ∀ v s j, v < B → s < n → j < exerciseTimes.length → discountEntry discounts v s j ≤ 1)
    (hx : ∀ v s t, v < B → s < n → t < T → 0 ≤ ∑ d ∈ Finset.range dim, pathEntry paths v s t d)
    (hK : ∀ v, v < B → 0 ≤ strikes.get 0 (if strikes.d1 = 1 then 0 else v))
    (hc : ∀ m, numCalibration = some m → m < n) :
    ∃ r, BatchLsm.price ⟨exerciseTimes, putValuer strikes paths, batchBasis degree paths, discounts, numCalibration, paths.numTimes, pinv⟩ = .ok r ∧
      r.1 = B ∧ ∀ v, v < B → 0 ≤ r.2 v ∧ r.2 v ≤ strikes.get 0 (if strikes.d1 = 1 then 0 else v) := by
  obtain ⟨r, h2, h3, h4⟩ := C114_prices strikes paths discounts exerciseTimes degree numCalibration pinv n T dim B hpinv hp hdim hne hnd hT (Or.inr h0) h1 hB hd
    (fun v s j hv hs hj => (hpos v s j hv hs hj).ne') (fun m hm => (hc m hm).le)
  refine ⟨r, h2, h3, fun v hv => ?_⟩
  obtain ⟨tau, _, t2, t3⟩ := h4 v hv
  have hmem : ∀ s, exerciseTimes.getD (tau 0 s) 0 < T := by
    intro s
    refine hT _ ?_
    simp [List.getD, List.getElem?_eq_getElem (t2 s)]
  simp only [h0, if_true] at t3
  have bound : ∀ s : Fin n, 0 ≤ discountEntry discounts v s.val (tau 0 s) * basketPut (strikes.get 0 (if strikes.d1 = 1 then 0 else v)) dim
      (pathEntry paths v s (exerciseTimes.getD (tau 0 s) 0)) ∧ discountEntry discounts v s.val (tau 0 s) * basketPut (strikes.get 0 (if strikes.d1 = 1 then 0 else v)) dim
      (pathEntry paths v s (exerciseTimes.getD (tau 0 s) 0)) ≤ strikes.get 0 (if strikes.d1 = 1 then 0 else v) := by
    intro s
    have e1 := hpos v s.val (tau 0 s) hv s.isLt (t2 s)
    have e2 := hone v s.val (tau 0 s) hv s.isLt (t2 s)
    have e3 : 0 ≤ basketPut (strikes.get 0 (if strikes.d1 = 1 then 0 else v)) dim (pathEntry paths v s (exerciseTimes.getD (tau 0 s) 0)) := le_max_right _ _
    have e4 : basketPut (strikes.get 0 (if strikes.d1 = 1 then 0 else v)) dim (pathEntry paths v s (exerciseTimes.getD (tau 0 s) 0)) ≤
        strikes.get 0 (if strikes.d1 = 1 then 0 else v) := by
      refine max_le ?_ (hK v hv)
      have := div_nonneg (hx v s.val (exerciseTimes.getD (tau 0 s) 0) hv s.isLt (hmem s)) (Nat.cast_nonneg dim : (0 : ℝ) ≤ (dim : ℝ))
      linarith
    exact ⟨mul_nonneg e1.le e3, (mul_le_of_le_one_left e3 e2).trans e4⟩
  have hcard : (Finset.univ.filter fun s : Fin n => numCalibration.getD 0 ≤ s.val).card = n - numCalibration.getD 0 := by
    have := card_pricing (n := n) (b := 0) ⟨[], fun _ _ => 0, fun _ _ _ => 0, [], numCalibration, 0, fun A => A⟩
    have e : LsmInput.pricing (n := n) (b := 0) ⟨[], fun _ _ => 0, fun _ _ _ => 0, [], numCalibration, 0, fun A => A⟩ = Finset.univ.filter fun s : Fin n => numCalibration.getD 0 ≤ s.val := by
      unfold LsmInput.pricing
      cases numCalibration with
      | none => simp
      | some m => simp
    rw [e] at this
    exact_mod_cast this
  by_cases hn : n = 0
  · subst hn
    have : numCalibration.getD 0 = 0 := by
      cases numCalibration with
      | none => rfl
      | some m => exact absurd (hc m rfl) (by omega)
    rw [t3, this]
    simp only [Finset.univ_eq_empty, Finset.filter_empty, Finset.sum_empty, zero_div]
    exact ⟨le_refl _, hK v hv⟩
  have hlt : numCalibration.getD 0 < n := by
    cases numCalibration with
    | none => simp only [Option.getD_none]; omega
    | some m => exact hc m rfl
  have hN : (0 : ℝ) < ((n - numCalibration.getD 0 : Nat) : ℝ) := by
    have : 0 < n - numCalibration.getD 0 := by omega
    exact_mod_cast this
  rw [t3]
  constructor
  · exact div_nonneg (Finset.sum_nonneg fun s _ => (bound s).1) hN.le
  · rw [div_le_iff₀ hN]
    calc _ ≤ ∑ s : Fin n with numCalibration.getD 0 ≤ s.val, strikes.get 0 (if strikes.d1 = 1 then 0 else v) := Finset.sum_le_sum fun s _ => (bound s).2
      _ = _ := by rw [Finset.sum_const, hcard, nsmul_eq_mul, mul_comm]

/-- C114, deviation: the code has a branch for discount factors of rank 2, but it always fails. -/
theorem C114_rank_two_fails (a : BatchLsm) (x : Tensor2 ℝ) (h : a.discountFactors = .rank2 x) : ∃ e, a.price = .error e := by
  unfold BatchLsm.price
  rw [h]
  exact ⟨_, rfl⟩

/-- C114: a scalar discount factor is accepted for a single exercise only. -/
theorem C114_scalar_fails (a : BatchLsm) (x : ℝ) (h : a.discountFactors = .rank0 x) (hl : 2 ≤ a.exerciseTimes.length) (hf : 0 < a.numPathTimes) :
    ∃ e, a.price = .error e := by
  unfold BatchLsm.price
  rw [h]
  simp only [LsmDiscounts.prepare, bind, Except.bind]
  obtain ⟨fuel, hfuel⟩ : ∃ fuel, a.numPathTimes = fuel + 1 := ⟨a.numPathTimes - 1, by omega⟩
  cases a.timeIndex (a.exerciseTimes.length - 1) with
  | error e => exact ⟨_, rfl⟩
  | ok t =>
    simp only
    cases a.payoffFn t with
    | error e => exact ⟨_, rfl⟩
    | ok p =>
      simp only
      rw [hfuel, BatchLsm.loop]
      rw [if_pos (show a.exerciseTimes.length - 1 > 0 by omega)]
      have hb : ∃ e, a.loopBody ⟨1 + 1, 1, 1, fun i _ _ => if i = 0 then 1 else x⟩ ⟨a.exerciseTimes.length - 1, p, p.map fun _ => 0⟩ = .error e := by
        unfold BatchLsm.loopBody
        simp only [bind, Except.bind]
        cases a.timeIndex (a.exerciseTimes.length - 1 - 1) with
        | error e => exact ⟨_, rfl⟩
        | ok t' =>
          simp only
          cases a.payoffFn t' with
          | error e => exact ⟨_, rfl⟩
          | ok p' =>
            simp only
            cases Tensor2.map2 (fun x y : ℝ => x + y) (p.map fun _ => 0) p with
            | error e => exact ⟨_, rfl⟩
            | ok w =>
              simp only
              unfold batchDiscount Tensor3.slice
              rw [if_neg (show ¬ a.exerciseTimes.length - 1 + 1 < 1 + 1 by omega)]
              exact ⟨_, rfl⟩
      obtain ⟨e, he⟩ := hb
      rw [he]
      exact ⟨_, rfl⟩

/-- Two puts with strikes 2 and 4 on the same two samples, which end at 1 and 3, with the factor one half: the prices are 1/4 and 1. -/
example (pinv : (b : Nat) → Matrix (Fin b) (Fin b) ℝ → Matrix (Fin b) (Fin b) ℝ) (hpinv : ∀ b (A : Matrix (Fin b) (Fin b) ℝ), A * pinv b A * A = A) :
    ∃ r, BatchLsm.price ⟨[1], putValuer (.ofRow 2 fun j => 2 * (j + 1)) (.shared ⟨2, 2, 1, fun s i _ => if i = 0 then 2 else 1 + 2 * s⟩),
      batchBasis 2 (.shared ⟨2, 2, 1, fun s i _ => if i = 0 then 2 else 1 + 2 * s⟩), .rank0 (1 / 2), none, 2, pinv⟩ = .ok r ∧ r.1 = 2 ∧ r.2 0 = 1 / 4 ∧ r.2 1 = 1 := by
  obtain ⟨r, h1, h2, h3⟩ := C114_prices (.ofRow 2 fun j => 2 * (j + 1)) (.shared ⟨2, 2, 1, fun s i _ => if i = 0 then 2 else 1 + 2 * s⟩) (.rank0 (1 / 2)) [1] 2 none pinv 2 2 1 2
    hpinv ⟨rfl, rfl, rfl⟩ (by omega) (by simp) (by simp) (by simp) (Or.inr rfl) (Or.inl rfl) (Or.inl rfl) rfl (fun _ _ _ _ _ _ => by norm_num [discountEntry]) (by simp)
  refine ⟨r, h1, h2, ?_, ?_⟩
  · obtain ⟨tau, _, t2, t3⟩ := h3 0 (by omega)
    have ht : ∀ s, tau 0 s = 0 := fun s => by have := t2 s; simpa using this
    rw [t3]
    simp only [ht]
    norm_num [Fin.sum_univ_two, basketPut, discountEntry, pathEntry, Tensor2.ofRow]
  · obtain ⟨tau, _, t2, t3⟩ := h3 1 (by omega)
    have ht : ∀ s, tau 0 s = 0 := fun s => by have := t2 s; simpa using this
    rw [t3]
    simp only [ht]
    norm_num [Fin.sum_univ_two, basketPut, discountEntry, pathEntry, Tensor2.ofRow]

end Props
