import Verif.Model.Halton
import Verif.Lemmas.DigitalNet

/-! Digit reversal. -/

namespace Lemmas
open Model Spec

/-- Digits `0, ..., m-1` of `n` in base `b`, permuted, in reverse order. -/
def rev (b : Nat) (π : Nat → Nat → Nat) (n : Nat) : Nat → Nat
  | 0 => 0
  | m + 1 => rev b π n m * b + π m (n / b ^ m % b)

/-- `π e` permutes the digits. -/
def DigitPerms (b S : Nat) (π : Nat → Nat → Nat) : Prop :=
  ∀ e, e < S → (∀ d, d < b → π e d < b) ∧ ∀ d d', d < b → d' < b → π e d = π e d' → d = d'

theorem rev_lt (b S : Nat) (π : Nat → Nat → Nat) (hb : 0 < b) (hπ : DigitPerms b S π) (n m : Nat) (hm : m ≤ S) :
    rev b π n m < b ^ m := by
  induction m with
  | zero => simp [rev]
  | succ m ih =>
    have h1 := ih (by omega)
    have h2 := (hπ m (by omega)).1 (n / b ^ m % b) (Nat.mod_lt _ hb)
    unfold rev
    rw [pow_succ]
    have : (rev b π n m + 1) * b ≤ b ^ m * b := Nat.mul_le_mul_right b h1
    rw [Nat.add_mul] at this
    omega

theorem rev_div (b S : Nat) (π : Nat → Nat → Nat) (hb : 0 < b) (hπ : DigitPerms b S π) (n m t : Nat)
    (hm : m + t ≤ S) : rev b π n (m + t) / b ^ t = rev b π n m := by
  induction t with
  | zero => simp
  | succ t ih =>
    have h2 := (hπ (m + t) (by omega)).1 (n / b ^ (m + t) % b) (Nat.mod_lt _ hb)
    rw [show m + (t + 1) = (m + t) + 1 by omega]
    conv_lhs => unfold rev
    rw [pow_succ', ← Nat.div_div_eq_div_mul, Nat.mul_comm (rev b π n (m + t)), Nat.mul_add_div hb,
      Nat.div_eq_of_lt h2, Nat.add_zero]
    exact ih (by omega)

theorem rev_inj (b S : Nat) (π : Nat → Nat → Nat) (hb : 0 < b) (hπ : DigitPerms b S π) (n n' m : Nat)
    (hm : m ≤ S) (h : rev b π n m = rev b π n' m) : n % b ^ m = n' % b ^ m := by
  induction m with
  | zero => simp [Nat.mod_one]
  | succ m ih =>
    unfold rev at h
    obtain ⟨h1, h2⟩ := hπ m (by omega)
    have l1 := h1 (n / b ^ m % b) (Nat.mod_lt _ hb)
    have l2 := h1 (n' / b ^ m % b) (Nat.mod_lt _ hb)
    have e1 : rev b π n m = rev b π n' m := by
      have := congrArg (· / b) h
      simp only [Nat.mul_comm _ b, Nat.mul_add_div hb, Nat.div_eq_of_lt l1, Nat.div_eq_of_lt l2, Nat.add_zero] at this
      exact this
    have e2 : π m (n / b ^ m % b) = π m (n' / b ^ m % b) := by rw [e1] at h; omega
    have e3 := h2 _ _ (Nat.mod_lt _ hb) (Nat.mod_lt _ hb) e2
    rw [pow_succ, Nat.mod_mul, Nat.mod_mul, ih (by omega) e1, e3]

/-- The sum of the weighted digits is the reversed number. -/
theorem digit_sum {K : Type} [Field K] [CharZero K] (b S T : Nat) (hb : 0 < b) (π : Nat → Nat → Nat) (n : Nat)
    (hST : S ≤ T) :
    ((List.range T).map (fun e => ((π e (n / b ^ (if S ≤ e then 0 else e) % b) * (if S ≤ e then 0 else 1) : Nat) : K) /
      (b : K) / ((haltonWeight b S e : Nat) : K))).sum = ((rev b π n S : Nat) : K) / (b : K) ^ S := by
  have hb' : (b : K) ≠ 0 := by exact_mod_cast hb.ne'
  have h1 : ∀ m, m ≤ S → ((List.range m).map (fun e =>
      ((π e (n / b ^ (if S ≤ e then 0 else e) % b) * (if S ≤ e then 0 else 1) : Nat) : K) /
      (b : K) / ((haltonWeight b S e : Nat) : K))).sum = ((rev b π n m : Nat) : K) / (b : K) ^ m := by
    intro m
    induction m with
    | zero => intro _; simp [rev]
    | succ m ih =>
      intro hm
      rw [List.range_succ, List.map_append, List.sum_append, ih (by omega)]
      have hm' : ¬ (S ≤ m) := by omega
      simp only [List.map_cons, List.map_nil, List.sum_cons, List.sum_nil, add_zero, haltonWeight, if_neg hm', rev]
      push_cast
      field_simp
      ring
  have h2 : ∀ t, ((List.range (S + t)).map (fun e =>
      ((π e (n / b ^ (if S ≤ e then 0 else e) % b) * (if S ≤ e then 0 else 1) : Nat) : K) /
      (b : K) / ((haltonWeight b S e : Nat) : K))).sum = ((rev b π n S : Nat) : K) / (b : K) ^ S := by
    intro t
    induction t with
    | zero => exact h1 S (le_refl S)
    | succ t ih =>
      rw [show S + (t + 1) = (S + t) + 1 by omega, List.range_succ, List.map_append, List.sum_append, ih]
      have hm' : S ≤ S + t := by omega
      simp [if_pos hm']
  have := h2 (T - S)
  rw [show S + (T - S) = T by omega] at this
  exact this

theorem foldl_max_le (l : List Nat) (a x : Nat) (h : x ∈ l ∨ x ≤ a) : x ≤ l.foldl max a := by
  induction l generalizing a with
  | nil => simpa using h
  | cons y l ih =>
    rw [List.foldl_cons]
    apply ih
    rcases h with h | h
    · rcases List.mem_cons.1 h with rfl | h
      · right; omega
      · left; exact h
    · right; omega

theorem getD_flatMap_const (n w : Nat) (f : Nat → List Nat) (hf : ∀ i, i < n → (f i).length = w) (i k : Nat) (hi : i < n)
    (hk : k < w) : ((List.range n).flatMap f).getD (k + i * w) 0 = (f i).getD k 0 := by
  induction n with
  | zero => omega
  | succ n ih =>
    have hlen : ∀ n', n' ≤ n + 1 → ((List.range n').flatMap f).length = n' * w := by
      intro n'
      induction n' with
      | zero => intro _; simp
      | succ n' ih' =>
        intro h
        rw [List.range_succ, List.flatMap_append, List.length_append, ih' (by omega)]
        simp [hf n' (by omega), Nat.add_mul]
    rw [List.range_succ, List.flatMap_append]
    rcases Nat.lt_or_ge i n with h | h
    · have hlt : k + i * w < n * w := by
        have : (i + 1) * w ≤ n * w := Nat.mul_le_mul_right w h
        rw [Nat.add_mul] at this; omega
      rw [List.getD_eq_getElem?_getD, List.getElem?_append_left (by rw [hlen n (by omega)]; exact hlt),
        ← List.getD_eq_getElem?_getD]
      exact ih (fun i hi => hf i (by omega)) h
    · have hin : i = n := by omega
      subst hin
      rw [List.getD_eq_getElem?_getD, List.getElem?_append_right (by rw [hlen i (by omega)]; omega), hlen i (by omega),
        show k + i * w - i * w = k by omega]
      simp [List.getD_eq_getElem?_getD]

theorem flatMap_length (radixes : List Nat) (g : Nat → List Nat) (n : Nat) (hn : n ≤ radixes.length)
    (hg : ∀ c, c < radixes.length → (g c).length = radixes.getD c 0) :
    ((List.range n).flatMap g).length = (radixes.take n).sum := by
  induction n with
  | zero => simp
  | succ n ih =>
    rw [List.range_succ, List.flatMap_append, List.length_append, ih (by omega), List.take_add_one, List.sum_append]
    simp [hg n (by omega), List.getD_eq_getElem?_getD, List.getElem?_eq_getElem (show n < radixes.length by omega)]

theorem flatMap_getD (radixes : List Nat) (g : Nat → List Nat) (n c d : Nat) (hn : n ≤ radixes.length)
    (hg : ∀ c, c < radixes.length → (g c).length = radixes.getD c 0) (hc : c < n) (hd : d < radixes.getD c 0) :
    ((List.range n).flatMap g).getD (d + (radixes.take c).sum) 0 = (g c).getD d 0 := by
  induction n with
  | zero => omega
  | succ n ih =>
    have hlen := flatMap_length radixes g n (by omega) hg
    rw [List.range_succ, List.flatMap_append]
    rcases Nat.lt_or_ge c n with h | h
    · have hsum : (radixes.take (c + 1)).sum ≤ (radixes.take n).sum := by
        have : (radixes.take n) = radixes.take (c + 1) ++ (radixes.drop (c + 1)).take (n - (c + 1)) := by
          rw [← List.take_add]; congr 1; omega
        rw [this, List.sum_append]; omega
      have hstep : (radixes.take (c + 1)).sum = (radixes.take c).sum + radixes.getD c 0 := by
        rw [List.take_add_one, List.sum_append]
        simp [List.getD_eq_getElem?_getD, List.getElem?_eq_getElem (show c < radixes.length by omega)]
      rw [List.getD_eq_getElem?_getD, List.getElem?_append_left (by rw [hlen]; omega), ← List.getD_eq_getElem?_getD]
      exact ih (by omega) h
    · have : c = n := by omega
      subst this
      rw [List.getD_eq_getElem?_getD, List.getElem?_append_right (by rw [hlen]; omega), hlen,
        show d + (radixes.take c).sum - (radixes.take c).sum = d by omega]
      simp [List.getD_eq_getElem?_getD]

/-- The gather of `_randomize` picks the entry of the shuffle of that digit and coordinate. -/
theorem haltonPermuted_eq (numCoeffs : Nat) (radixes : List Nat) (shuffle : Nat → Nat → List Nat)
    (hs : ∀ i c, c < radixes.length → (shuffle i c).length = radixes.getD c 0) (c e d : Nat) (hc : c < radixes.length)
    (he : e < numCoeffs) (hd : d < radixes.getD c 0) :
    haltonPermuted (haltonPermutations numCoeffs radixes shuffle) radixes c e d = (shuffle e c).getD d 0 := by
  unfold haltonPermuted haltonPermutations
  simp only []
  have hlen : ∀ i, ((List.range radixes.length).flatMap (fun c => shuffle i c)).length = radixes.sum := by
    intro i
    rw [flatMap_length radixes _ _ (le_refl _) (hs i), List.take_length]
  have hlt : d + (radixes.take c).sum < radixes.sum := by
    have h1 : radixes.sum = (radixes.take (c + 1)).sum + (radixes.drop (c + 1)).sum := by
      rw [← List.sum_append, List.take_append_drop]
    have hstep : (radixes.take (c + 1)).sum = (radixes.take c).sum + radixes.getD c 0 := by
      rw [List.take_add_one, List.sum_append]
      simp [List.getD_eq_getElem?_getD, List.getElem?_eq_getElem hc]
    omega
  rw [← Nat.add_assoc, getD_flatMap_const numCoeffs radixes.sum _ (fun i _ => hlen i) e _ he hlt,
    flatMap_getD radixes _ _ c d (le_refl _) (hs e) hc hd]

section
variable {K : Type} [Field K] [LinearOrder K] [IsStrictOrderedRing K]

/-- Adding less than one unit of the last digit does not change the elementary interval. -/
theorem inCell_add_iff (base D m k p : Nat) (u : K) (hu0 : 0 ≤ u) (hu1 : u < 1) (hb : 0 < base) (hm : m ≤ D) :
    InCell base m k (((p : K) + u) / (base : K) ^ D) ↔ p / base ^ (D - m) = k := by
  have hB : (0 : K) < (base : K) := by exact_mod_cast hb
  rw [div_eq_iff_cell _ _ _ (Nat.pow_pos hb)]
  unfold InCell
  have hD : (base : K) ^ D = (base : K) ^ (D - m) * (base : K) ^ m := by
    rw [← pow_add]; congr 1; omega
  have h1 : (0 : K) < (base : K) ^ m := pow_pos hB m
  have h2 : (0 : K) < (base : K) ^ (D - m) := pow_pos hB (D - m)
  rw [hD]
  have c1 : (k : K) * (base : K) ^ (D - m) ≤ (p : K) + u ↔ k * base ^ (D - m) ≤ p := by
    constructor
    · intro h
      by_contra hc
      have : ((p + 1 : Nat) : K) ≤ ((k * base ^ (D - m) : Nat) : K) := by exact_mod_cast Nat.lt_of_not_le hc
      push_cast at this
      linarith
    · intro h
      have : ((k * base ^ (D - m) : Nat) : K) ≤ (p : K) := by exact_mod_cast h
      push_cast at this
      linarith
  have c2 : (p : K) + u < ((k : K) + 1) * (base : K) ^ (D - m) ↔ p < (k + 1) * base ^ (D - m) := by
    constructor
    · intro h
      have : (p : K) < (((k + 1) * base ^ (D - m) : Nat) : K) := by push_cast; linarith
      exact_mod_cast this
    · intro h
      have : ((p + 1 : Nat) : K) ≤ (((k + 1) * base ^ (D - m) : Nat) : K) := by exact_mod_cast h
      push_cast at this
      linarith
  rw [← c1, ← c2, div_le_div_iff₀ h1 (mul_pos h2 h1), ← mul_assoc, mul_le_mul_iff_left₀ h1,
    div_lt_div_iff₀ (mul_pos h2 h1) h1, ← mul_assoc, mul_lt_mul_iff_left₀ h1]

/-- Reversed digits, with a zero correction, are stratified. -/
theorem rev_stratified (b S hi : Nat) (hb : 1 < b) (π : Nat → Nat → Nat) (hπ : DigitPerms b S π) (u : K) (hu0 : 0 ≤ u)
    (hu1 : u < 1) (hhi : hi ≤ b ^ S) :
    Stratified b 1 hi (fun n => ((rev b π n S : Nat) + u : K) / (b : K) ^ S) := by
  intro m q hlo hhi' k hk
  have hm : m ≤ S := by
    have h1 : b ^ m ≤ b ^ S := by
      calc b ^ m ≤ (q + 1) * b ^ m := Nat.le_mul_of_pos_left _ (by omega)
        _ ≤ hi := hhi'
        _ ≤ b ^ S := hhi
    exact (Nat.pow_le_pow_iff_right hb).1 h1
  have hbm : (q + 1) * b ^ m = q * b ^ m + b ^ m := by ring
  simp only [inCell_add_iff b S m k _ u hu0 hu1 (by omega) hm, hbm]
  have hdiv : ∀ n, rev b π n S / b ^ (S - m) = rev b π n m := by
    intro n
    have := rev_div b S π (by omega) hπ n m (S - m) (by omega)
    rwa [show m + (S - m) = S by omega] at this
  simp only [hdiv]
  apply pigeonhole (q * b ^ m) (b ^ m) (fun n => rev b π n m) _ _ k hk
  · intro n _ _; exact rev_lt b S π (by omega) hπ n m hm
  · intro n n' h1 h2 h3 h4 h5
    have e1 := rev_inj b S π (by omega) hπ n n' m hm h5
    have e2 : n / b ^ m = q := (div_eq_iff_cell n q _ (Nat.pow_pos (by omega))).2 ⟨h1, by omega⟩
    have e3 : n' / b ^ m = q := (div_eq_iff_cell n' q _ (Nat.pow_pos (by omega))).2 ⟨h3, by omega⟩
    rw [← Nat.div_add_mod n (b ^ m), ← Nat.div_add_mod n' (b ^ m), e1, e2, e3]

theorem rev_range (b S : Nat) (hb : 1 < b) (π : Nat → Nat → Nat) (hπ : DigitPerms b S π) (u : K) (hu0 : 0 ≤ u)
    (hu1 : u < 1) (n : Nat) :
    0 ≤ ((rev b π n S : Nat) + u : K) / (b : K) ^ S ∧ ((rev b π n S : Nat) + u : K) / (b : K) ^ S < 1 := by
  have hB : (0 : K) < (b : K) := by exact_mod_cast (by omega : 0 < b)
  refine ⟨by positivity, ?_⟩
  rw [div_lt_one (pow_pos hB S)]
  have : ((rev b π n S + 1 : Nat) : K) ≤ ((b ^ S : Nat) : K) := by
    exact_mod_cast rev_lt b S π (by omega) hπ n S (le_refl S)
  push_cast at this
  linarith

end

end Lemmas
