import Verif.Model.LsmBatch
import Mathlib.Tactic.Ring

/-! Batches in the method of Longstaff and Schwartz: every member of the batch follows the loop of a single option. -/

namespace Lemmas
open Model
open scoped BigOperators

theorem broadcastDim_ok {a b N : Nat} (ha : a = N ∨ a = 1) (hb : b = N ∨ b = 1) (h : a = N ∨ b = N) : broadcastDim a b = .ok N := by
  unfold broadcastDim
  by_cases h1 : a = b ∨ b = 1
  · rw [if_pos h1]
    have : a = N := by omega
    rw [this]
  · rw [if_neg h1]
    have h2 : a = 1 := by omega
    have h3 : b = N := by omega
    rw [if_pos h2, h3]

theorem broadcastDim_self (a : Nat) : broadcastDim a a = .ok a := broadcastDim_ok (Or.inl rfl) (Or.inl rfl) (Or.inl rfl)

theorem broadcastGet_lt {d i : Nat} (h : i < d) : broadcastGet d i = i := by
  unfold broadcastGet
  split
  · omega
  · rfl

theorem broadcastGet_one (i : Nat) : broadcastGet 1 i = 0 := by simp [broadcastGet]

theorem broadcastGet_idem (d i : Nat) : broadcastGet d (broadcastGet d i) = broadcastGet d i := by
  unfold broadcastGet
  split <;> rfl

theorem map2_ok {K L M : Type} (f : K → L → M) (a : Tensor2 K) (b : Tensor2 L) {n B : Nat} (a0 : a.d0 = n ∨ a.d0 = 1) (a1 : a.d1 = B ∨ a.d1 = 1)
    (b0 : b.d0 = n ∨ b.d0 = 1) (b1 : b.d1 = B ∨ b.d1 = 1) (h0 : a.d0 = n ∨ b.d0 = n) (h1 : a.d1 = B ∨ b.d1 = B) :
    Tensor2.map2 f a b = .ok ⟨n, B, fun i j => f (a.get (broadcastGet a.d0 i) (broadcastGet a.d1 j)) (b.get (broadcastGet b.d0 i) (broadcastGet b.d1 j))⟩ := by
  unfold Tensor2.map2
  rw [broadcastDim_ok a0 b0 h0, broadcastDim_ok a1 b1 h1]
  rfl

/-- Two tensors of the same shape. -/
theorem map2_same {K L M : Type} (f : K → L → M) (a : Tensor2 K) (b : Tensor2 L) {n B : Nat} (a0 : a.d0 = n) (a1 : a.d1 = B) (b0 : b.d0 = n) (b1 : b.d1 = B) :
    ∃ r, Tensor2.map2 f a b = .ok r ∧ r.d0 = n ∧ r.d1 = B ∧ ∀ i j, i < n → j < B → r.get i j = f (a.get i j) (b.get i j) := by
  refine ⟨_, map2_ok f a b (Or.inl a0) (Or.inl a1) (Or.inl b0) (Or.inl b1) (Or.inl a0) (Or.inl a1), rfl, rfl, fun i j hi hj => ?_⟩
  simp only [a0, a1, b0, b1, broadcastGet_lt hi, broadcastGet_lt hj]

theorem batchDiscount_ok (D : Tensor3 ℝ) (x : Tensor2 ℝ) {n B : Nat} (x0 : x.d0 = n) (x1 : x.d1 = B) (D1 : D.d1 = n ∨ D.d1 = 1) (D2 : D.d2 = B ∨ D.d2 = 1)
    (i : Nat) (hi : i + 1 < D.d0) :
    ∃ r, batchDiscount D x i = .ok r ∧ r.d0 = n ∧ r.d1 = B ∧ ∀ s v, s < n → v < B →
      r.get s v = D.get (i + 1) (broadcastGet D.d1 s) (broadcastGet D.d2 v) / D.get i (broadcastGet D.d1 s) (broadcastGet D.d2 v) * x.get s v := by
  unfold batchDiscount Tensor3.slice
  rw [if_pos hi, if_pos (by omega)]
  simp only [bind, Except.bind]
  rw [map2_ok (n := D.d1) (B := D.d2) _ _ _ (Or.inl rfl) (Or.inl rfl) (Or.inl rfl) (Or.inl rfl) (Or.inl rfl) (Or.inl rfl)]
  simp only
  refine ⟨_, map2_ok _ _ _ D1 D2 (Or.inl x0) (Or.inl x1) (Or.inr x0) (Or.inr x1), rfl, rfl, fun s v hs hv => ?_⟩
  simp only [x0, x1, broadcastGet_lt hs, broadcastGet_lt hv, broadcastGet_idem]

/-- A sum over the calibration samples of an option is one over the first rows. -/
theorem sum_calibration {n b : Nat} (a : LsmInput n b) (m : Nat) (hm : (a.numCalibration = none ∧ m = n) ∨ (a.numCalibration = some m ∧ m ≤ n))
    (f : Nat → ℝ) : ∑ s ∈ a.calibration, f s.val = ∑ s ∈ Finset.range m, f s := by
  have h : a.calibration = Finset.univ.filter (fun s : Fin n => s.val < m) := by
    unfold LsmInput.calibration
    rcases hm with ⟨h1, h2⟩ | ⟨h1, h2⟩
    · rw [h1]
      simp only
      refine (Finset.filter_true_of_mem fun s _ => ?_).symm
      rw [h2]; exact s.isLt
    · rw [h1]
  have hmn : m ≤ n := by
    rcases hm with h | h
    · omega
    · exact h.2
  rw [h]
  refine Finset.sum_bij (fun s _ => s.val) ?_ ?_ ?_ ?_
  · intro s hs
    simpa using hs
  · intro s _ t _ hst
    exact Fin.ext hst
  · intro k hk
    have hk' : k < m := by simpa using hk
    exact ⟨⟨k, by omega⟩, by simpa using hk', rfl⟩
  · intro s _
    rfl

theorem calibrationRows_ok (c : Option Nat) (x : Tensor3 ℝ) (y : Tensor2 ℝ) {n : Nat} (x1 : x.d1 = n) (y0 : y.d0 = n) (hc : ∀ m, c = some m → m ≤ n) :
    calibrationRows c x y = .ok (⟨x.d0, c.getD n, x.d2, x.get⟩, ⟨c.getD n, y.d1, y.get⟩) := by
  unfold calibrationRows
  cases c with
  | none =>
    simp only [Option.getD_none]
    cases x; cases y
    simp only at x1 y0
    rw [x1, y0]
  | some m =>
    simp only [Option.getD_some]
    rw [if_pos]
    have := hc m rfl
    omega

theorem matmul_ok (x y : Tensor3 ℝ) {N : Nat} (hx : x.d0 = N ∨ x.d0 = 1) (hy : y.d0 = N ∨ y.d0 = 1) (h : x.d0 = N ∨ y.d0 = N) (hxy : x.d2 = y.d1) :
    ∃ r, Tensor3.matmul x y = .ok r ∧ r.d0 = N ∧ r.d1 = x.d1 ∧ r.d2 = y.d2 ∧
      ∀ v i k, r.get v i k = ∑ j ∈ Finset.range x.d2, x.get (broadcastGet x.d0 v) i j * y.get (broadcastGet y.d0 v) j k := by
  unfold Tensor3.matmul
  rw [broadcastDim_ok hx hy h]
  simp only [bind, Except.bind]
  rw [if_pos hxy]
  exact ⟨_, rfl, rfl, rfl, rfl, fun _ _ _ => rfl⟩

open Classical in
theorem whereElseZero_ok (mask : Tensor3 Bool) (x : Tensor3 ℝ) {B n b : Nat} (m0 : mask.d0 = B) (m1 : mask.d1 = n) (m2 : mask.d2 = 1)
    (x0 : x.d0 = B ∨ x.d0 = 1) (x1 : x.d1 = n) (x2 : x.d2 = b) :
    ∃ r, Tensor3.whereElseZero mask x = .ok r ∧ r.d0 = B ∧ r.d1 = n ∧ r.d2 = b ∧ ∀ v s k, v < B → s < n → k < b →
      r.get v s k = if mask.get v s 0 = true then x.get (broadcastGet x.d0 v) s k else 0 := by
  unfold Tensor3.whereElseZero
  rw [broadcastDim_ok (N := B) (Or.inl m0) x0 (Or.inl m0), broadcastDim_ok (N := n) (Or.inl m1) (Or.inl x1) (Or.inl m1),
    broadcastDim_ok (N := b) (Or.inr m2) (Or.inl x2) (Or.inr x2)]
  refine ⟨_, rfl, rfl, rfl, rfl, fun v s k hv hs hk => ?_⟩
  simp only [m0, m1, m2, x1, x2, broadcastGet_lt hv, broadcastGet_lt hs, broadcastGet_lt hk, broadcastGet_one]

open Classical in
/-- The regression of the batch is, for each member, that of a single option. -/
theorem batchExpectedExercise_ok {n b B : Nat} (a : LsmInput n b) (pinv : (b : Nat) → Matrix (Fin b) (Fin b) ℝ → Matrix (Fin b) (Fin b) ℝ)
    (hp : a.pinv = pinv b) (hc : ∀ m, a.numCalibration = some m → m ≤ n) (D : Tensor3 ℝ) (y x : Tensor2 ℝ)
    (D0 : D.d0 = B ∨ D.d0 = 1) (D1 : D.d1 = b) (D2 : D.d2 = n) (y0 : y.d0 = n) (y1 : y.d1 = B) (x0 : x.d0 = n) (x1 : x.d1 = B) :
    ∃ r, batchExpectedExercise pinv a.numCalibration D y x = .ok r ∧ r.d0 = n ∧ r.d1 = B ∧ ∀ v, v < B → ∀ s : Fin n,
      r.get s.val v = a.expectedExercise (fun k s => D.get (broadcastGet D.d0 v) k.val s.val) (fun s => y.get s.val v) (fun s => x.get s.val v) s := by
  unfold batchExpectedExercise
  obtain ⟨M, hM, M0, M1, M2, Mget⟩ := whereElseZero_ok (x.map fun t => decide (t > 0)).column D.swap (B := B) (n := n) (b := b) x1 x0 rfl D0 D2 D1
  rw [hM]
  simp only [bind, Except.bind]
  rw [calibrationRows_ok (n := n) a.numCalibration _ y M1 y0 hc]
  simp only
  generalize hm : a.numCalibration.getD n = m
  have hm' : (a.numCalibration = none ∧ m = n) ∨ (a.numCalibration = some m ∧ m ≤ n) := by
    cases h : a.numCalibration with
    | none => rw [h] at hm; exact Or.inl ⟨rfl, hm.symm⟩
    | some k => rw [h] at hm; simp only [Option.getD_some] at hm; subst hm; exact Or.inr ⟨rfl, hc k h⟩
  have hmn : m ≤ n := by
    rcases hm' with h | h
    · omega
    · exact h.2
  obtain ⟨L, hL, L0, L1, L2, Lget⟩ := matmul_ok (N := B) (Tensor3.swap ⟨M.d0, m, M.d2, M.get⟩) ⟨M.d0, m, M.d2, M.get⟩ (Or.inl M0) (Or.inl M0) (Or.inl M0) rfl
  rw [hL]
  simp only
  obtain ⟨R, hR, R0, R1, R2, Rget⟩ := matmul_ok (N := B) (Tensor3.swap ⟨M.d0, m, M.d2, M.get⟩) (Tensor2.column ⟨m, y.d1, y.get⟩) (Or.inl M0) (Or.inl y1) (Or.inl M0) rfl
  rw [hR]
  simp only
  simp only [Tensor3.swap, Tensor2.column, M2] at L1 L2 R1 R2 Lget Rget
  obtain ⟨E, hE, E0, E1, E2, Eget⟩ := matmul_ok (N := B) (batchPinv pinv L) R (Or.inl L0) (Or.inl R0) (Or.inl L0) (by simp only [batchPinv]; omega)
  rw [hE]
  simp only [batchPinv] at E1 Eget ⊢
  obtain ⟨F, hF, F0, F1, F2, Fget⟩ := matmul_ok (N := B) D.swap E D0 (Or.inl E0) (Or.inr E0) (by rw [E1, L1]; exact D1)
  rw [hF]
  refine ⟨_, rfl, F1.trans D2, F0, fun v hv s => ?_⟩
  simp only [LsmInput.expectedExercise]
  rw [Fget]
  simp only [Tensor3.swap, D1, E0, broadcastGet_lt hv, broadcastGet_idem]
  congr 1
  rw [← Fin.sum_univ_eq_sum_range (fun j => D.get (broadcastGet D.d0 v) j s.val * E.get v j 0) b]
  refine Finset.sum_congr rfl fun k _ => ?_
  congr 1
  rw [Eget]
  simp only [L0, R0, broadcastGet_lt hv]
  have hmask : ∀ (s : Nat) (k : Nat), s < m → k < b → M.get v s k = if x.get s v > 0 then D.get (broadcastGet D.d0 v) k s else 0 := by
    intro s k hs hk
    rw [Mget v s k hv (by omega) hk]
    simp only [Tensor2.column, Tensor2.map, Tensor3.swap]
    by_cases h : x.get s v > 0
    · simp [h]
    · simp [h]
  have hsum : (∑ j ∈ Finset.range L.d1, (if h : k.val < L.d1 ∧ j < L.d1 then pinv L.d1 (fun p q => L.get v p.val q.val) ⟨k.val, h.1⟩ ⟨j, h.2⟩ else 0) * R.get v j 0) =
      ∑ l : Fin b, pinv b (fun p q => L.get v p.val q.val) k l * R.get v l.val 0 := by
    rw [L1, Finset.sum_range]
    refine Finset.sum_congr rfl fun l _ => ?_
    rw [dif_pos ⟨k.isLt, l.isLt⟩]
  rw [hsum]
  refine Finset.sum_congr rfl fun l _ => ?_
  rw [hp]
  congr 1
  · congr 2
    funext p q
    rw [sum_calibration a m hm' (fun s => (if x.get s v > 0 then D.get (broadcastGet D.d0 v) p.val s else 0) * (if x.get s v > 0 then D.get (broadcastGet D.d0 v) q.val s else 0)), Lget]
    refine Finset.sum_congr rfl fun s hs => ?_
    rw [M0, broadcastGet_lt hv, hmask s p (Finset.mem_range.1 hs) p.isLt, hmask s q (Finset.mem_range.1 hs) q.isLt]
  · rw [sum_calibration a m hm' (fun s => (if x.get s v > 0 then D.get (broadcastGet D.d0 v) l.val s else 0) * y.get s v), Rget]
    refine Finset.sum_congr rfl fun s hs => ?_
    rw [M0, y1, broadcastGet_lt hv, hmask s l (Finset.mem_range.1 hs) l.isLt]

/-- Member `v` of the batch as a single option: its payoffs, its basis, its discount factors. -/
noncomputable def batchMember (a : BatchLsm) (T : Tensor3 ℝ) (P : Nat → Tensor2 ℝ) (D : Nat → Tensor3 ℝ) (n b v : Nat) : LsmInput n b :=
  ⟨a.exerciseTimes, fun t s => (P t).get s.val v, fun t k s => (D t).get (broadcastGet (D t).d0 v) k.val s.val,
    (List.range a.exerciseTimes.length).map (fun i (s : Fin n) => T.get (i + 1) (broadcastGet T.d1 s.val) (broadcastGet T.d2 v)),
    a.numCalibration, a.numPathTimes, a.pinv b⟩

/-- The tensors of a batch of `B` options with `n` samples and `b` basis functions have shapes that fit. -/
structure BatchFits (a : BatchLsm) (T : Tensor3 ℝ) (P : Nat → Tensor2 ℝ) (D : Nat → Tensor3 ℝ) (n b B : Nat) : Prop where
  payoff : ∀ t ∈ a.exerciseTimes, a.payoffFn t = .ok (P t) ∧ (P t).d0 = n ∧ (P t).d1 = B
  basis : ∀ t ∈ a.exerciseTimes, a.basisFn t = .ok (D t) ∧ ((D t).d0 = B ∨ (D t).d0 = 1) ∧ (D t).d1 = b ∧ (D t).d2 = n
  prepared : a.discountFactors.prepare a.exerciseTimes.length = .ok T
  T0 : T.d0 = a.exerciseTimes.length + 1
  T1 : T.d1 = n ∨ T.d1 = 1
  T2 : T.d2 = B ∨ T.d2 = 1
  start : ∀ s v, T.get 0 s v = 1
  calibration : ∀ m, a.numCalibration = some m → m ≤ n

theorem batchMember_padded (a : BatchLsm) (T : Tensor3 ℝ) (P : Nat → Tensor2 ℝ) (D : Nat → Tensor3 ℝ) {n b B : Nat} (h : BatchFits a T P D n b B)
    (v i : Nat) (hi : i ≤ a.exerciseTimes.length) (s : Fin n) :
    (batchMember a T P D n b v).padded i s = T.get i (broadcastGet T.d1 s.val) (broadcastGet T.d2 v) := by
  unfold LsmInput.padded batchMember
  cases i with
  | zero => simp [h.start]
  | succ i =>
    have : i < a.exerciseTimes.length := hi
    simp [List.getD, this]

/-- The state of the batch loop, seen by its members. -/
structure Simulates (w : BatchVars) {n : Nat} (B : Nat) (u : Nat → LsmInput.Vars n) : Prop where
  index : ∀ v, v < B → (u v).exerciseIndex = w.exerciseIndex
  c0 : w.cashflow.d0 = n
  c1 : w.cashflow.d1 = B
  v0 : w.values.d0 = n
  v1 : w.values.d1 = B
  cash : ∀ v, v < B → ∀ s : Fin n, w.cashflow.get s.val v = (u v).cashflow s
  value : ∀ v, v < B → ∀ s : Fin n, w.values.get s.val v = (u v).values s

theorem batchDiscount_member (a : BatchLsm) (T : Tensor3 ℝ) (P : Nat → Tensor2 ℝ) (D : Nat → Tensor3 ℝ) {n b B : Nat} (h : BatchFits a T P D n b B)
    (x : Tensor2 ℝ) (x0 : x.d0 = n) (x1 : x.d1 = B) (i : Nat) (hi : i < a.exerciseTimes.length) :
    ∃ r, batchDiscount T x i = .ok r ∧ r.d0 = n ∧ r.d1 = B ∧ ∀ v, v < B → ∀ s : Fin n,
      r.get s.val v = (batchMember a T P D n b v).applyDiscount (fun s => x.get s.val v) i s := by
  obtain ⟨r, h1, h2, h3, h4⟩ := batchDiscount_ok T x x0 x1 h.T1 h.T2 i (by rw [h.T0]; omega)
  refine ⟨r, h1, h2, h3, fun v hv s => ?_⟩
  rw [h4 s.val v s.isLt hv, LsmInput.applyDiscount, batchMember_padded a T P D h v (i + 1) hi s, batchMember_padded a T P D h v i hi.le s]

open Classical in
theorem batchLoopBody_member (a : BatchLsm) (T : Tensor3 ℝ) (P : Nat → Tensor2 ℝ) (D : Nat → Tensor3 ℝ) {n b B : Nat} (h : BatchFits a T P D n b B)
    (w : BatchVars) (u : Nat → LsmInput.Vars n) (hw : Simulates w B u) (hpos : 0 < w.exerciseIndex) (hlt : w.exerciseIndex < a.exerciseTimes.length) :
    ∃ w', a.loopBody T w = .ok w' ∧ w'.exerciseIndex = w.exerciseIndex - 1 ∧ Simulates w' B (fun v => (batchMember a T P D n b v).loopBody (u v)) := by
  have hlt' : w.exerciseIndex - 1 < a.exerciseTimes.length := by omega
  have ht : a.timeIndex (w.exerciseIndex - 1) = .ok (a.exerciseTimes.getD (w.exerciseIndex - 1) 0) := by
    unfold BatchLsm.timeIndex
    rw [List.getElem?_eq_getElem hlt']
    simp [List.getD, List.getElem?_eq_getElem hlt']
  have hmem : a.exerciseTimes.getD (w.exerciseIndex - 1) 0 ∈ a.exerciseTimes := by
    simp [List.getD, List.getElem?_eq_getElem hlt']
  generalize htt : a.exerciseTimes.getD (w.exerciseIndex - 1) 0 = t at ht hmem
  obtain ⟨p1, p2, p3⟩ := h.payoff t hmem
  obtain ⟨q1, q2, q3, q4⟩ := h.basis t hmem
  obtain ⟨A, hA, A0, A1, Aget⟩ := map2_same (fun x y : ℝ => x + y) w.values w.cashflow hw.v0 hw.v1 hw.c0 hw.c1
  obtain ⟨C, hC, C0, C1, Cget⟩ := batchDiscount_member a T P D h A A0 A1 w.exerciseIndex hlt
  have hE := fun v => batchExpectedExercise_ok (batchMember a T P D n b v) a.pinv rfl h.calibration (D t) C (P t) q2 q3 q4 C0 C1 p2 p3
  obtain ⟨E, hE1, E0, E1, Eget0⟩ := hE 0
  have Eget : ∀ v, v < B → ∀ s : Fin n, E.get s.val v = (batchMember a T P D n b v).expectedExercise (fun k s => (D t).get (broadcastGet (D t).d0 v) k.val s.val)
      (fun s => C.get s.val v) (fun s => (P t).get s.val v) s := by
    intro v hv s
    obtain ⟨E', hE1', _, _, Eget'⟩ := hE v
    have : E = E' := by
      have := hE1.symm.trans hE1'
      injection this
    rw [this]
    exact Eget' v hv s
  obtain ⟨U, hU, U0, U1, Uget⟩ := map2_same (fun x y : ℝ => decide (x > y)) (P t) E p2 p3 E0 E1
  obtain ⟨A', hA', A0', A1', Aget'⟩ := map2_same (fun x y : ℝ => x + y) w.cashflow w.values hw.c0 hw.c1 hw.v0 hw.v1
  obtain ⟨V, hV, V0, V1, Vget⟩ := map2_same (fun (u : Bool) (x : ℝ) => if u then 0 else x) U A' U0 U1 A0' A1'
  obtain ⟨X, hX, X0, X1, Xget⟩ := map2_same (fun (u : Bool) (x : ℝ) => if u then x else 0) U (P t) U0 U1 p2 p3
  obtain ⟨Y, hY, Y0, Y1, Yget⟩ := batchDiscount_member a T P D h V V0 V1 w.exerciseIndex hlt
  have hE1' : batchExpectedExercise a.pinv a.numCalibration (D t) C (P t) = .ok E := hE1
  refine ⟨⟨w.exerciseIndex - 1, X, Y⟩, ?_, rfl, ?_⟩
  · unfold BatchLsm.loopBody
    simp only [ht, p1, hA, hC, q1, hE1', bind, Except.bind]
    have hU' : Tensor2.map2 (fun x y : ℝ => decide (x > y)) (P t) E = .ok U := by
      rw [← hU]
    rw [hU', hA']
    simp only [hV, hX, hY]
  · have key : ∀ v, v < B → ∀ s : Fin n, (U.get s.val v = true ↔ (batchMember a T P D n b v).exerciseValue (w.exerciseIndex - 1) s >
        (batchMember a T P D n b v).expectedExercise ((batchMember a T P D n b v).design (w.exerciseIndex - 1))
          ((batchMember a T P D n b v).applyDiscount (fun s => (u v).values s + (u v).cashflow s) w.exerciseIndex) ((batchMember a T P D n b v).exerciseValue (w.exerciseIndex - 1)) s) := by
      intro v hv s
      have e1 : (batchMember a T P D n b v).exerciseValue (w.exerciseIndex - 1) = fun s => (P t).get s.val v := by
        unfold LsmInput.exerciseValue
        simp only [batchMember, htt]
      have e2 : (batchMember a T P D n b v).design (w.exerciseIndex - 1) = fun k s => (D t).get (broadcastGet (D t).d0 v) k.val s.val := by
        unfold LsmInput.design
        simp only [batchMember, htt]
      have e3 : (batchMember a T P D n b v).applyDiscount (fun s => (u v).values s + (u v).cashflow s) w.exerciseIndex = fun s => C.get s.val v := by
        funext s
        rw [Cget v hv s]
        congr 1
        funext s
        rw [Aget s.val v s.isLt hv, hw.cash v hv, hw.value v hv]
      rw [e1, e2, e3, Uget s.val v s.isLt hv, Eget v hv s]
      simp
    have e1 : ∀ v, (batchMember a T P D n b v).exerciseValue (w.exerciseIndex - 1) = fun s => (P t).get s.val v := by
      intro v
      unfold LsmInput.exerciseValue
      simp only [batchMember, htt]
    refine ⟨fun v hv => ?_, X0, X1, Y0, Y1, fun v hv s => ?_, fun v hv s => ?_⟩
    · simp only [LsmInput.loopBody, hw.index v hv]
    · simp only [LsmInput.loopBody, hw.index v hv]
      rw [Xget s.val v s.isLt hv]
      by_cases hu : U.get s.val v = true
      · rw [if_pos hu, if_pos ((key v hv s).1 hu), e1]
      · rw [if_neg hu, if_neg (fun h => hu ((key v hv s).2 h))]
    · simp only [LsmInput.loopBody, hw.index v hv]
      rw [Yget v hv s]
      congr 1
      funext s
      rw [Vget s.val v s.isLt hv, Aget' s.val v s.isLt hv]
      by_cases hu : U.get s.val v = true
      · rw [if_pos hu, if_pos ((key v hv s).1 hu)]
      · rw [if_neg hu, if_neg (fun h => hu ((key v hv s).2 h)), hw.cash v hv, hw.value v hv]

theorem batchLoop_member (a : BatchLsm) (T : Tensor3 ℝ) (P : Nat → Tensor2 ℝ) (D : Nat → Tensor3 ℝ) {n b B : Nat} (h : BatchFits a T P D n b B) (fuel : Nat) :
    ∀ (w : BatchVars) (u : Nat → LsmInput.Vars n), Simulates w B u → w.exerciseIndex < a.exerciseTimes.length →
      ∃ w', a.loop T fuel w = .ok w' ∧ Simulates w' B (fun v => (batchMember a T P D n b v).loop fuel (u v)) := by
  induction fuel with
  | zero => exact fun w u hw _ => ⟨w, rfl, hw⟩
  | succ fuel ih =>
    intro w u hw hlt
    by_cases hpos : w.exerciseIndex > 0
    · obtain ⟨w1, h1, h2, h3⟩ := batchLoopBody_member a T P D h w u hw hpos hlt
      obtain ⟨w2, h4, h5⟩ := ih w1 _ h3 (by omega)
      refine ⟨w2, ?_, ?_⟩
      · rw [BatchLsm.loop, if_pos hpos, h1]
        exact h4
      · refine ⟨fun v hv => ?_, h5.c0, h5.c1, h5.v0, h5.v1, fun v hv s => ?_, fun v hv s => ?_⟩
        · rw [LsmInput.loop, if_pos (by rw [hw.index v hv]; exact hpos)]; exact h5.index v hv
        · rw [LsmInput.loop, if_pos (by rw [hw.index v hv]; exact hpos)]; exact h5.cash v hv s
        · rw [LsmInput.loop, if_pos (by rw [hw.index v hv]; exact hpos)]; exact h5.value v hv s
    · refine ⟨w, ?_, ?_⟩
      · rw [BatchLsm.loop, if_neg hpos]
      · refine ⟨fun v hv => ?_, hw.c0, hw.c1, hw.v0, hw.v1, fun v hv s => ?_, fun v hv s => ?_⟩
        · rw [LsmInput.loop, if_neg (by rw [hw.index v hv]; exact hpos)]; exact hw.index v hv
        · rw [LsmInput.loop, if_neg (by rw [hw.index v hv]; exact hpos)]; exact hw.cash v hv s
        · rw [LsmInput.loop, if_neg (by rw [hw.index v hv]; exact hpos)]; exact hw.value v hv s

/-- The sum over the pricing samples. -/
theorem sum_pricing {n b : Nat} (a : LsmInput n b) (f : Nat → ℝ) :
    ∑ s ∈ a.pricing, f s.val = ∑ s ∈ Finset.Ico (a.numCalibration.getD 0) n, f s := by
  have h : a.pricing = Finset.univ.filter (fun s : Fin n => a.numCalibration.getD 0 ≤ s.val) := by
    unfold LsmInput.pricing
    cases a.numCalibration with
    | none => simp
    | some m => simp
  rw [h]
  refine Finset.sum_bij (fun s _ => s.val) ?_ ?_ ?_ ?_
  · intro s hs
    simpa using hs
  · intro s _ t _ hst
    exact Fin.ext hst
  · intro k hk
    have hk' := Finset.mem_Ico.1 hk
    exact ⟨⟨k, hk'.2⟩, by simpa using hk'.1, rfl⟩
  · intro s _
    rfl

theorem card_pricing {n b : Nat} (a : LsmInput n b) : (a.pricing.card : ℝ) = ((n - a.numCalibration.getD 0 : Nat) : ℝ) := by
  have := sum_pricing a (fun _ => 1)
  simpa using this

/-- Every member of the batch gets the price of a single option. -/
theorem batchPrice_member (a : BatchLsm) (T : Tensor3 ℝ) (P : Nat → Tensor2 ℝ) (D : Nat → Tensor3 ℝ) {n b B : Nat} (h : BatchFits a T P D n b B)
    (hne : a.exerciseTimes ≠ []) :
    ∃ r, a.price = .ok r ∧ r.1 = B ∧ ∀ v, v < B → r.2 v = (batchMember a T P D n b v).leastSquareMc := by
  have hpos : 0 < a.exerciseTimes.length := List.length_pos_iff.2 hne
  have hlt' : a.exerciseTimes.length - 1 < a.exerciseTimes.length := by omega
  have ht : a.timeIndex (a.exerciseTimes.length - 1) = .ok (a.exerciseTimes.getD (a.exerciseTimes.length - 1) 0) := by
    unfold BatchLsm.timeIndex
    rw [List.getElem?_eq_getElem hlt']
    simp [List.getD, List.getElem?_eq_getElem hlt']
  have hmem : a.exerciseTimes.getD (a.exerciseTimes.length - 1) 0 ∈ a.exerciseTimes := by
    simp [List.getD, List.getElem?_eq_getElem hlt']
  obtain ⟨p1, p2, p3⟩ := h.payoff _ hmem
  obtain ⟨w, hw1, hw2⟩ := batchLoop_member a T P D h a.numPathTimes
    ⟨a.exerciseTimes.length - 1, P (a.exerciseTimes.getD (a.exerciseTimes.length - 1) 0), (P (a.exerciseTimes.getD (a.exerciseTimes.length - 1) 0)).map fun _ => 0⟩
    (fun v => ⟨a.exerciseTimes.length - 1, (batchMember a T P D n b v).exerciseValue (a.exerciseTimes.length - 1), fun _ => 0⟩)
    ⟨fun _ _ => rfl, p2, p3, p2, p3, fun _ _ _ => rfl, fun _ _ _ => rfl⟩ hlt'
  obtain ⟨A, hA, A0, A1, Aget⟩ := map2_same (fun x y : ℝ => x + y) w.cashflow w.values hw2.c0 hw2.c1 hw2.v0 hw2.v1
  obtain ⟨C, hC, C0, C1, Cget⟩ := batchDiscount_member a T P D h A A0 A1 0 hpos
  refine ⟨(C.d1, fun v => (∑ s ∈ Finset.Ico (a.numCalibration.getD 0) C.d0, C.get s v) / ((C.d0 - a.numCalibration.getD 0 : Nat) : ℝ)), ?_, C1, fun v hv => ?_⟩
  · unfold BatchLsm.price
    rw [h.prepared, ht]
    simp only [bind, Except.bind, p1]
    rw [hw1]
    simp only [hA, hC]
  · simp only
    rw [LsmInput.leastSquareMc, card_pricing]
    have : ∀ s : Fin n, (batchMember a T P D n b v).applyDiscount (fun s => ((batchMember a T P D n b v).loop (batchMember a T P D n b v).numPathTimes
        ⟨(batchMember a T P D n b v).numTimes - 1, (batchMember a T P D n b v).exerciseValue ((batchMember a T P D n b v).numTimes - 1), fun _ => 0⟩).cashflow s +
        ((batchMember a T P D n b v).loop (batchMember a T P D n b v).numPathTimes
        ⟨(batchMember a T P D n b v).numTimes - 1, (batchMember a T P D n b v).exerciseValue ((batchMember a T P D n b v).numTimes - 1), fun _ => 0⟩).values s) 0 s = C.get s.val v := by
      intro s
      rw [Cget v hv s]
      congr 1
      funext s
      rw [Aget s.val v s.isLt hv, hw2.cash v hv, hw2.value v hv]
      rfl
    simp only [this]
    rw [sum_pricing (batchMember a T P D n b v) (fun s => C.get s v), C0]
    rfl

end Lemmas
