import Verif.Lemmas.DirichletGrid
import Verif.Lemmas.TaylorBound

/-! # Repeated second differences of smooth functions of several variables -/

namespace Lemmas
open Model Spec Set

variable {n : ℕ}

/-- Second difference with step `h d` of a function of several real variables. -/
noncomputable def smoothSecond (h : Fin n → ℝ) (d : Fin n) (F : (Fin n → ℝ) → ℝ) (x : Fin n → ℝ) : ℝ :=
  (F (Function.update x d (x d + h d)) - 2 * F x + F (Function.update x d (x d - h d))) / h d ^ 2

noncomputable def smoothSeconds (h : Fin n → ℝ) : List (Fin n) → ((Fin n → ℝ) → ℝ) → (Fin n → ℝ) → ℝ
  | [], F => F
  | d :: L, F => smoothSecond h d (smoothSeconds h L F)

/-- The neighbours in the given dimensions are in the box. -/
def RoomIn (h lo hi : Fin n → ℝ) (L : List (Fin n)) (x : Fin n → ℝ) : Prop := ∀ d ∈ L, lo d ≤ x d - h d ∧ x d + h d ≤ hi d

theorem update_mem_box {lo hi x : Fin n → ℝ} (hx : x ∈ Icc lo hi) (d : Fin n) (y : ℝ) (hy : y ∈ Icc (lo d) (hi d)) : Function.update x d y ∈ Icc lo hi := by
  constructor
  · intro e
    by_cases he : e = d
    · subst he; simpa using hy.1
    · rw [Function.update_of_ne he]; exact hx.1 e
  · intro e
    by_cases he : e = d
    · subst he; simpa using hy.2
    · rw [Function.update_of_ne he]; exact hx.2 e

theorem room_update {h lo hi x : Fin n → ℝ} {L : List (Fin n)} (hr : RoomIn h lo hi L x) (d : Fin n) (hd : d ∉ L) (y : ℝ) :
    RoomIn h lo hi L (Function.update x d y) := by
  intro e he
  have : e ≠ d := fun hc => hd (hc ▸ he)
  rw [Function.update_of_ne this]
  exact hr e he

/-- Derivative of repeated differences in another variable. -/
theorem smoothSeconds_deriv (h lo hi : Fin n → ℝ) (hh : ∀ d, 0 < h d) (d : Fin n) (F F' : (Fin n → ℝ) → ℝ)
    (hF : ∀ x ∈ Icc lo hi, HasDerivWithinAt (fun y => F (Function.update x d y)) (F' x) (Icc (lo d) (hi d)) (x d)) (L : List (Fin n)) (hL : L.Nodup)
    (hd : d ∉ L) (x : Fin n → ℝ) (hx : x ∈ Icc lo hi) (hr : RoomIn h lo hi L x) :
    HasDerivWithinAt (fun y => smoothSeconds h L F (Function.update x d y)) (smoothSeconds h L F' x) (Icc (lo d) (hi d)) (x d) := by
  induction L generalizing x with
  | nil => exact hF x hx
  | cons e L ih =>
    rw [List.nodup_cons] at hL
    rw [List.mem_cons, not_or] at hd
    have hed : e ≠ d := fun hc => hd.1 hc.symm
    have re := hr e (List.mem_cons_self)
    have hrL : RoomIn h lo hi L x := fun e' he' => hr e' (List.mem_cons_of_mem _ he')
    have hp := hh e
    have mem : ∀ y, y ∈ Icc (lo e) (hi e) → HasDerivWithinAt (fun z => smoothSeconds h L F (Function.update (Function.update x e y) d z))
        (smoothSeconds h L F' (Function.update x e y)) (Icc (lo d) (hi d)) (x d) := by
      intro y hy
      have := ih hL.2 hd.2 (Function.update x e y) (update_mem_box hx e y hy) (room_update hrL e hL.1 y)
      rwa [Function.update_of_ne hed.symm] at this
    have m1 := mem (x e + h e) ⟨by linarith [hx.1 e, re.1], re.2⟩
    have m2 := ih hL.2 hd.2 x hx hrL
    have m3 := mem (x e - h e) ⟨re.1, by linarith [hx.2 e, re.2]⟩
    have := ((m1.sub (m2.const_mul 2)).add m3).div_const (h e ^ 2)
    refine HasDerivWithinAt.congr_of_eventuallyEq (this : HasDerivWithinAt _ _ _ _) ?_ ?_
    · refine Filter.Eventually.of_forall (fun z => ?_)
      simp only [smoothSeconds, smoothSecond, Function.update_of_ne hed, Function.update_comm hed, Pi.add_apply, Pi.sub_apply]
    · simp only [smoothSeconds, smoothSecond, Function.update_of_ne hed, Function.update_comm hed, Pi.add_apply, Pi.sub_apply]

/-- A second difference is bounded by the second derivative. -/
theorem second_difference_le (lo hi B h : ℝ) (F : ℕ → ℝ → ℝ) (hF : ∀ k, k < 2 → ∀ y ∈ Icc lo hi, HasDerivWithinAt (F k) (F (k + 1) y) (Icc lo hi) y)
    (hB : ∀ y ∈ Icc lo hi, |F 2 y| ≤ B) (hh : 0 < h) (x : ℝ) (h1 : lo ≤ x - h) (h2 : x + h ≤ hi) :
    |(F 0 (x + h) - 2 * F 0 x + F 0 (x - h)) / h ^ 2| ≤ B := by
  have mx : x ∈ Icc lo hi := ⟨by linarith, by linarith⟩
  have t1 := taylor_bound lo hi B 2 F hF hB x (x + h) mx ⟨by linarith, h2⟩
  have t2 := taylor_bound lo hi B 2 F hF hB x (x - h) mx ⟨h1, by linarith⟩
  rw [show x + h - x = h by ring, abs_of_pos hh] at t1
  rw [show x - h - x = -h by ring, abs_neg, abs_of_pos hh] at t2
  simp only [Finset.sum_range_succ, Finset.sum_range_zero, zero_add, pow_zero, mul_one, Nat.factorial, Nat.cast_one, div_one, pow_one] at t1 t2
  norm_num at t1 t2
  rw [abs_div, abs_of_pos (show 0 < h ^ 2 by positivity), div_le_iff₀ (by positivity)]
  rw [abs_le] at t1 t2 ⊢
  constructor <;> linarith [t1.1, t1.2, t2.1, t2.2]

/-- A second difference approximates the second derivative. -/
theorem second_difference_error (lo hi M h : ℝ) (F : ℕ → ℝ → ℝ) (hF : ∀ k, k < 4 → ∀ y ∈ Icc lo hi, HasDerivWithinAt (F k) (F (k + 1) y) (Icc lo hi) y)
    (hM : ∀ y ∈ Icc lo hi, |F 4 y| ≤ M) (hh : 0 < h) (x : ℝ) (h1 : lo ≤ x - h) (h2 : x + h ≤ hi) :
    |(F 0 (x + h) - 2 * F 0 x + F 0 (x - h)) / h ^ 2 - F 2 x| ≤ M * h ^ 2 / 12 := by
  have mx : x ∈ Icc lo hi := ⟨by linarith, by linarith⟩
  have t1 := taylor_bound lo hi M 4 F hF hM x (x + h) mx ⟨by linarith, h2⟩
  have t2 := taylor_bound lo hi M 4 F hF hM x (x - h) mx ⟨h1, by linarith⟩
  rw [show x + h - x = h by ring, abs_of_pos hh] at t1
  rw [show x - h - x = -h by ring, abs_neg, abs_of_pos hh] at t2
  simp only [Finset.sum_range_succ, Finset.sum_range_zero, zero_add, pow_zero, mul_one, Nat.factorial, Nat.cast_one, div_one, pow_one] at t1 t2
  norm_num at t1 t2
  have e : (F 0 (x + h) - 2 * F 0 x + F 0 (x - h)) / h ^ 2 - F 2 x = (F 0 (x + h) - 2 * F 0 x + F 0 (x - h) - F 2 x * h ^ 2) / h ^ 2 := by field_simp
  rw [e, abs_div, abs_of_pos (show 0 < h ^ 2 by positivity), div_le_iff₀ (by positivity)]
  rw [abs_le] at t1 t2 ⊢
  constructor <;> nlinarith [t1.1, t1.2, t2.1, t2.2]

/-- Repeated differences are bounded by derivatives. `W k` are the derivatives of order `2 k d` in the variables `d`, `V k d` those between. -/
theorem smoothSeconds_le (h lo hi : Fin n → ℝ) (hh : ∀ d, 0 < h d) (B : ℝ) (W : Finset (Fin n) → (Fin n → ℝ) → ℝ) (V : Finset (Fin n) → Fin n → (Fin n → ℝ) → ℝ)
    (hW : ∀ S d, d ∉ S → ∀ x ∈ Icc lo hi, HasDerivWithinAt (fun y => W S (Function.update x d y)) (V S d x) (Icc (lo d) (hi d)) (x d))
    (hV : ∀ S d, d ∉ S → ∀ x ∈ Icc lo hi, HasDerivWithinAt (fun y => V S d (Function.update x d y)) (W (insert d S) x) (Icc (lo d) (hi d)) (x d))
    (hB : ∀ S, ∀ x ∈ Icc lo hi, |W S x| ≤ B) (L : List (Fin n)) (hL : L.Nodup) (S : Finset (Fin n)) (hS : ∀ d ∈ L, d ∉ S)
    (x : Fin n → ℝ) (hx : x ∈ Icc lo hi) (hr : RoomIn h lo hi L x) : |smoothSeconds h L (W S) x| ≤ B := by
  induction L generalizing S x with
  | nil => exact hB S x hx
  | cons d L ih =>
    rw [List.nodup_cons] at hL
    have hdS := hS d List.mem_cons_self
    have rd := hr d List.mem_cons_self
    have hrL : RoomIn h lo hi L x := fun e' he' => hr e' (List.mem_cons_of_mem _ he')
    have e : smoothSeconds h (d :: L) (W S) x = (smoothSeconds h L (W S) (Function.update x d (x d + h d)) -
        2 * smoothSeconds h L (W S) (Function.update x d (x d)) + smoothSeconds h L (W S) (Function.update x d (x d - h d))) / h d ^ 2 := by
      rw [Function.update_eq_self]; rfl
    rw [e]
    refine second_difference_le (lo d) (hi d) B (h d) (fun k y => match k with
      | 0 => smoothSeconds h L (W S) (Function.update x d y)
      | 1 => smoothSeconds h L (V S d) (Function.update x d y)
      | _ => smoothSeconds h L (W (insert d S)) (Function.update x d y)) ?_ ?_ (hh d) (x d) rd.1 rd.2
    · intro k hk y hy
      have hm := update_mem_box hx d y hy
      have hr' := room_update hrL d hL.1 y
      have i1 := smoothSeconds_deriv h lo hi hh d (W S) (V S d) (hW S d hdS) L hL.2 hL.1 _ hm hr'
      have i2 := smoothSeconds_deriv h lo hi hh d (V S d) (W (insert d S)) (hV S d hdS) L hL.2 hL.1 _ hm hr'
      simp only [Function.update_idem, Function.update_self] at i1 i2
      interval_cases k
      · exact i1
      · exact i2
    · intro y hy
      refine ih hL.2 (insert d S) (fun e he => ?_) _ (update_mem_box hx d y hy) (room_update hrL d hL.1 y)
      rw [Finset.mem_insert, not_or]
      exact ⟨fun hc => hL.1 (hc ▸ he), hS e (List.mem_cons_of_mem _ he)⟩

/-- Repeated differences on a grid. -/
noncomputable def gridSeconds (h : Fin n → ℝ) : List (Fin n) → (GridIndex n → ℝ) → GridIndex n → ℝ
  | [], f => f
  | d :: L, f => centralSecond (h d) (gridSeconds h L f) d

/-- The position of a grid point. -/
def gridPoint (lo h : Fin n → ℝ) (q : GridIndex n) : Fin n → ℝ := fun d => lo d + q d * h d

theorem gridPoint_update (lo h : Fin n → ℝ) (q : GridIndex n) (d : Fin n) (k : ℕ) :
    gridPoint lo h (Function.update q d k) = Function.update (gridPoint lo h q) d (lo d + k * h d) := by
  funext e
  unfold gridPoint
  by_cases he : e = d
  · subst he; simp
  · simp [Function.update_of_ne he]

theorem gridSeconds_eq (lo h : Fin n → ℝ) (F : (Fin n → ℝ) → ℝ) (L : List (Fin n)) (hL : L.Nodup) (q : GridIndex n) (hq : ∀ d ∈ L, 1 ≤ q d) :
    gridSeconds h L (fun q => F (gridPoint lo h q)) q = smoothSeconds h L F (gridPoint lo h q) := by
  induction L generalizing q with
  | nil => rfl
  | cons d L ih =>
    rw [List.nodup_cons] at hL
    have hqd := hq d List.mem_cons_self
    have hqL : ∀ e ∈ L, 1 ≤ q e := fun e he => hq e (List.mem_cons_of_mem _ he)
    have hup : ∀ k, ∀ e ∈ L, 1 ≤ Function.update q d k e := by
      intro k e he
      rw [Function.update_of_ne (show e ≠ d from fun hc => hL.1 (hc ▸ he))]
      exact hqL e he
    show centralSecond (h d) (gridSeconds h L _) d q = smoothSecond h d (smoothSeconds h L F) _
    unfold centralSecond smoothSecond
    rw [ih hL.2 _ (hup _), ih hL.2 _ hqL, ih hL.2 _ (hup _), gridPoint_update, gridPoint_update]
    have e1 : lo d + ((q d + 1 : ℕ) : ℝ) * h d = gridPoint lo h q d + h d := by unfold gridPoint; push_cast; ring
    have e2 : lo d + ((q d - 1 : ℕ) : ℝ) * h d = gridPoint lo h q d - h d := by unfold gridPoint; rw [Nat.cast_sub hqd]; push_cast; ring
    rw [e1, e2]

/-- Repeated application of the operators. -/
noncomputable def innerSecondOps (size : Fin n → ℕ) (a h : Fin n → ℝ) : List (Fin n) → InnerSpaceOn size → InnerSpaceOn size
  | [], x => x
  | d :: L, x => innerSecondOp size (a d) (h d) d (innerSecondOps size a h L x)

theorem innerSecondOps_eq (size : Fin n → ℕ) (a h : Fin n → ℝ) (x : InnerSpaceOn size) (L : List (Fin n)) (hL : L.Nodup) (q : GridIndex n)
    (hq : ∀ d ∈ L, 1 ≤ q d ∧ q d + 1 < size d) : extendZero (innerSecondOps size a h L x) q = (L.map a).prod * gridSeconds h L (extendZero x) q := by
  induction L generalizing q with
  | nil => simp [innerSecondOps, gridSeconds]
  | cons d L ih =>
    rw [List.nodup_cons] at hL
    have hqd := hq d List.mem_cons_self
    have hqL : ∀ e ∈ L, 1 ≤ q e ∧ q e + 1 < size e := fun e he => hq e (List.mem_cons_of_mem _ he)
    have hup : ∀ k, ∀ e ∈ L, 1 ≤ Function.update q d k e ∧ Function.update q d k e + 1 < size e := by
      intro k e he
      rw [Function.update_of_ne (show e ≠ d from fun hc => hL.1 (hc ▸ he))]
      exact hqL e he
    show extendZero (innerSecondOp size (a d) (h d) d _) q = _
    rw [extendZero_second _ _ _ _ _ hqd]
    unfold centralSecond
    rw [ih hL.2 _ (hup _), ih hL.2 _ hqL, ih hL.2 _ (hup _)]
    simp only [List.map_cons, List.prod_cons, gridSeconds, centralSecond]
    ring

/-- Repeated differences depend on the values next to the point. -/
theorem gridSeconds_congr (h : Fin n → ℝ) (size : Fin n → ℕ) (f k : GridIndex n → ℝ) (hfk : ∀ q, (∀ d, q d < size d) → f q = k q) (L : List (Fin n))
    (q : GridIndex n) (hL : L.Nodup) (hq : ∀ d ∈ L, q d + 1 < size d) (hq' : ∀ d, q d < size d) : gridSeconds h L f q = gridSeconds h L k q := by
  induction L generalizing q with
  | nil => exact hfk q hq'
  | cons d L ih =>
    rw [List.nodup_cons] at hL
    have hqd := hq d List.mem_cons_self
    have hqL : ∀ e ∈ L, q e + 1 < size e := fun e he => hq e (List.mem_cons_of_mem _ he)
    have hup : ∀ k, ∀ e ∈ L, Function.update q d k e + 1 < size e := by
      intro k e he
      rw [Function.update_of_ne (show e ≠ d from fun hc => hL.1 (hc ▸ he))]
      exact hqL e he
    have hup' : ∀ k, k < size d → ∀ e, Function.update q d k e < size e := by
      intro k hk e
      by_cases he : e = d
      · subst he; simpa using hk
      · rw [Function.update_of_ne he]; exact hq' e
    show centralSecond (h d) (gridSeconds h L f) d q = centralSecond (h d) (gridSeconds h L k) d q
    unfold centralSecond
    rw [ih _ hL.2 (hup _) (hup' _ hqd), ih _ hL.2 hqL hq', ih _ hL.2 (hup _) (hup' _ (by omega))]

end Lemmas
