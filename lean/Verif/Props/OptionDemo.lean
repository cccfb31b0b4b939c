import Verif.Model.OptionDemo
import Mathlib.Tactic.Linarith
import Mathlib.Tactic.NormNum
import Mathlib.Tactic.Ring
import Mathlib.Tactic.Positivity

/-! # C150 The option pricing demo: local files, results and generated trades -/

namespace Props
open Model

theorem removeGs_of_not_infix (p : List Char) (h : ¬ "gs://".toList <:+: p) : removeGs p = p := by
  fun_induction removeGs p with
  | case1 r _ => exact absurd ⟨[], r, rfl⟩ h
  | case2 c r _ ih => rw [ih (fun ⟨a, b, hab⟩ => h ⟨c :: a, b, by rw [← hab]; rfl⟩)]
  | case3 => rfl

theorem localPath_of (p : List Char) (h : ¬ "gs://".toList <:+: p) :
    localPath ("gs://".toList ++ p) = joinPath downloadBase p := by
  show joinPath downloadBase (removeGs p) = _
  rw [removeGs_of_not_infix p h]

/-- C150: the local file of `gs://p` is `p` below the directory of the downloads if `p` does not begin with a slash. Different
files have different local files. -/
theorem C150_local (p q : List Char) (hp : ¬ "gs://".toList <:+: p) (hq : ¬ "gs://".toList <:+: q)
    (hp0 : p.head? ≠ some '/') (hq0 : q.head? ≠ some '/') :
    localPath ("gs://".toList ++ p) = "/var/tmp/downloads/".toList ++ p ∧
    (localPath ("gs://".toList ++ p) = localPath ("gs://".toList ++ q) → p = q) := by
  have key : ∀ r : List Char, r.head? ≠ some '/' → joinPath downloadBase r = "/var/tmp/downloads/".toList ++ r := by
    intro r hr
    have hne : ¬ (downloadBase = [] ∨ downloadBase.getLast? = some '/') := by decide
    unfold joinPath
    rw [if_neg hr, if_neg hne]
    rfl
  rw [localPath_of p hp, localPath_of q hq, key p hp0, key q hq0]
  exact ⟨rfl, fun h => List.append_cancel_left h⟩

/-- C150 (deviation): if `p` begins with a slash the file is written to the path `p` itself, outside of the directory. -/
theorem C150_local_deviates (p : List Char) (h : ¬ "gs://".toList <:+: p) (h0 : p.head? = some '/') :
    localPath ("gs://".toList ++ p) = p := by
  rw [localPath_of p h]
  unfold joinPath
  rw [if_pos h0]

/-- C150: what a request does. An incomplete one changes nothing and gives a message; a complete one for files in the store
leaves both files, fresh from the store if the refresh is forced or one of them was missing, and all other files are as
before. -/
theorem C150_download {α : Type} (r : JobRequest) (store : List Char × List Char → Option α)
    (fs : List Char → Option α) :
    (r.portfolio = [] ∨ r.market = [] → ∃ m, m ≠ [] ∧ r.downloadIfNeeded store fs = .ok (m, fs)) ∧
    (r.portfolio ≠ [] → r.market ≠ [] → r.force = false → (fs (localPath r.market)).isSome → (fs (localPath r.portfolio)).isSome →
      r.downloadIfNeeded store fs = .ok ([], fs)) ∧
    (∀ a b, r.portfolio ≠ [] → r.market ≠ [] → store (gcsBlob r.portfolio) = some a → store (gcsBlob r.market) = some b →
      localPath r.market ≠ localPath r.portfolio →
      (r.force = true ∨ fs (localPath r.market) = none ∨ fs (localPath r.portfolio) = none) →
      ∃ fs', r.downloadIfNeeded store fs = .ok ([], fs') ∧ fs' (localPath r.portfolio) = some a ∧
        fs' (localPath r.market) = some b ∧ ∀ p, p ≠ localPath r.market → p ≠ localPath r.portfolio → fs' p = fs p) := by
  obtain ⟨pf, mk, force⟩ := r
  refine ⟨?_, ?_, ?_⟩
  · intro h
    have hv : (JobRequest.validate ⟨pf, mk, force⟩).1 = false := by
      rcases h with h | h <;> simp only at h <;> subst h <;> simp [JobRequest.validate]
    refine ⟨(JobRequest.validate ⟨pf, mk, force⟩).2, ?_, ?_⟩
    · rcases h with h | h <;> simp only at h <;> subst h <;> simp [JobRequest.validate]
    · unfold JobRequest.downloadIfNeeded
      rw [if_pos hv]
  · intro h1 h2 h3 h4 h5
    have hv : ¬ (JobRequest.validate ⟨pf, mk, force⟩).1 = false := by
      simp only at h1 h2
      simp [JobRequest.validate, h1, h2]
    unfold JobRequest.downloadIfNeeded
    rw [if_neg hv, if_pos ⟨h3, h4, h5⟩]
  · intro a b h1 h2 h3 h4 h5 h6
    have hv : ¬ (JobRequest.validate ⟨pf, mk, force⟩).1 = false := by
      simp only at h1 h2
      simp [JobRequest.validate, h1, h2]
    simp only at h3 h4 h5 h6
    have hn : ¬ (force = false ∧ (fs (localPath mk)).isSome ∧ (fs (localPath pf)).isSome) := by
      rintro ⟨g1, g2, g3⟩
      rcases h6 with h | h | h
      · rw [g1] at h; exact absurd h (by decide)
      · rw [h] at g2; simp at g2
      · rw [h] at g3; simp at g3
    unfold JobRequest.downloadIfNeeded
    rw [if_neg hv, if_neg hn]
    simp only [download, h3, h4, Except.bind, Except.map]
    refine ⟨_, rfl, by simp, by simp [h5], ?_⟩
    intro p g1 g2
    simp [g1, g2]

/-- C150: the results go to a file named after the portfolio; portfolios with different names have different results. -/
theorem C150_results (p q : List Char) : resultsPath p = "/var/tmp/results/results_".toList ++ baseName p ∧
    (resultsPath p = resultsPath q ↔ baseName p = baseName q) := by
  have key : ∀ r : List Char, resultsPath r = "/var/tmp/results/results_".toList ++ baseName r := by
    intro r
    have hne : ¬ (resultsBase = [] ∨ resultsBase.getLast? = some '/') := by decide
    have hh : ¬ ("results_".toList ++ baseName r).head? = some '/' := by
      show ¬ (some 'r' = some '/')
      decide
    unfold resultsPath joinPath
    rw [if_neg hh, if_neg hne]
    rfl
  rw [key p, key q]
  exact ⟨rfl, fun h => List.append_cancel_left h, fun h => by rw [h]⟩

/-- C150 (deviation): two different portfolios whose results overwrite each other. -/
theorem C150_results_deviates : ∃ p q : List Char, localPath p ≠ localPath q ∧
    resultsPath (localPath p) = resultsPath (localPath q) :=
  ⟨"gs://a/portfolio".toList, "gs://b/portfolio".toList, by decide +kernel, by decide +kernel⟩

/-- C150 (deviation): the sizes cannot be set by the environment, every value raises an error. -/
theorem C150_environment_deviates (value : String) (default : Int) :
    (∃ msg, sizeFromEnvironment (some value) default = .error msg) ∧
    sizeFromEnvironment none 1000000 = .ok (some 1000000) := ⟨⟨_, rfl⟩, rfl⟩

/-- C150: the trades of all files are numbered from zero without gap or repetition. -/
theorem C150_trades (numFiles perFile : Nat) : allTradeIds numFiles perFile = List.range (numFiles * perFile) := by
  unfold allTradeIds tradeIds
  induction numFiles with
  | zero => simp
  | succ n ih =>
    rw [List.range_succ, List.flatMap_append, ih, Nat.succ_mul, List.range_add]
    congr 1
    simp only [List.flatMap_cons, List.flatMap_nil, List.append_nil]
    apply List.map_congr_left
    intro k _
    exact Nat.add_comm _ _

/-- C150: generated market data and strikes are in the documented ranges. -/
theorem C150_ranges {K : Type} [Field K] [LinearOrder K] [IsStrictOrderedRing K] (u v w x : K)
    (hu : 0 ≤ u ∧ u < 1) (hv : 0 ≤ v ∧ v < 1) (hw : 0 ≤ w ∧ w < 1) (hx : 0 ≤ x ∧ x < 1) :
    (100 ≤ (marketOf u v w).1 ∧ (marketOf u v w).1 < 1000) ∧
    (3 / 100 ≤ (marketOf u v w).2.1 ∧ (marketOf u v w).2.1 < 60 / 100) ∧
    (0 ≤ (marketOf u v w).2.2 ∧ (marketOf u v w).2.2 < 15 / 100) ∧
    |strikeOf (marketOf u v w).1 x - (marketOf u v w).1| ≤ 40 / 100 * (marketOf u v w).1 := by
  have hs : 100 ≤ (marketOf u v w).1 := by unfold marketOf; simp only; linarith [hu.1]
  refine ⟨⟨hs, ?_⟩, ⟨?_, ?_⟩, ⟨?_, ?_⟩, ?_⟩
  · unfold marketOf; simp only; linarith [hu.2]
  · unfold marketOf; simp only; linarith [hv.1]
  · unfold marketOf; simp only; linarith [hv.2]
  · unfold marketOf; simp only; linarith [hw.1]
  · unfold marketOf; simp only; linarith [hw.2]
  · generalize (marketOf u v w).1 = s at hs ⊢
    unfold strikeOf
    rw [abs_le]
    have h0 : 0 ≤ s := by linarith
    have h1 := mul_nonneg h0 hx.1
    have h2 := mul_nonneg h0 (sub_nonneg.2 hx.2.le)
    constructor <;> linarith

theorem splitSlash_append (p q : List Char) : splitSlash (p ++ '/' :: q) = splitSlash p ++ splitSlash q := by
  induction p with
  | nil => simp [splitSlash]
  | cons c r ih =>
    rw [List.cons_append, splitSlash, splitSlash, ih]
    by_cases hc : c = '/'
    · rw [if_pos hc, if_pos hc, List.cons_append]
    · rw [if_neg hc, if_neg hc]
      have hne : splitSlash r ≠ [] := by
        cases r with
        | nil => simp [splitSlash]
        | cons d r =>
          rw [splitSlash]
          by_cases hd : d = '/'
          · simp [hd]
          · rw [if_neg hd]
            split <;> simp
      obtain ⟨h, t, ht⟩ := List.exists_cons_of_ne_nil hne
      rw [ht]
      rfl

theorem splitSlash_name (q : List Char) (hq : '/' ∉ q) : splitSlash q = [q] := by
  induction q with
  | nil => rfl
  | cons c r ih =>
    rw [List.mem_cons, not_or] at hq
    rw [splitSlash, if_neg (fun h => hq.1 h.symm), ih hq.2]

theorem splitSlash_ne_nil (p : List Char) : splitSlash p ≠ [] := by
  cases p with
  | nil => simp [splitSlash]
  | cons d r =>
    rw [splitSlash]
    by_cases hd : d = '/'
    · simp [hd]
    · rw [if_neg hd]
      split <;> simp

theorem baseName_append (d q : List Char) (hq : '/' ∉ q) : baseName (d ++ '/' :: q) = q := by
  unfold baseName
  rw [List.reverse_append, List.reverse_cons, List.append_assoc, List.takeWhile_append_of_pos]
  · simp
  · intro a ha
    rw [List.mem_reverse] at ha
    simp only [ne_eq, decide_not, Bool.not_eq_eq_eq_not, Bool.not_true, decide_eq_false_iff_not]
    intro h
    exact hq (h ▸ ha)

theorem joinPath_nil_left (q : List Char) : joinPath [] q = q := by
  unfold joinPath
  split <;> simp

theorem joinPath_slash (a q : List Char) : joinPath (joinPath a []) q = joinPath a q := by
  by_cases hq : q.head? = some '/'
  · unfold joinPath
    rw [if_pos hq, if_pos hq]
  · by_cases ha : a = [] ∨ a.getLast? = some '/'
    · have : joinPath a [] = a := by
        unfold joinPath
        rw [if_neg (by simp), if_pos ha, List.append_nil]
      rw [this]
    · have h1 : joinPath a [] = a ++ ['/'] := by
        unfold joinPath
        rw [if_neg (by simp), if_neg ha]
      rw [h1]
      unfold joinPath
      rw [if_neg hq, if_neg hq, if_neg ha, if_pos (Or.inr (by simp)), List.append_assoc]
      rfl

/-- C150: the generator puts a file `name` with the output path `gs://p`, with or without a slash at its end, where the
downloader looks for `gs://p/name`. -/
theorem C150_blob (p dir name : List Char) (h : ¬ "gs://".toList <:+: p ++ '/' :: name) (hn : '/' ∉ name) :
    uploadBlob ("gs://".toList ++ p) (dir ++ '/' :: name) = gcsBlob ("gs://".toList ++ (p ++ '/' :: name)) ∧
    uploadBlob ("gs://".toList ++ (p ++ ['/'])) (dir ++ '/' :: name) = gcsBlob ("gs://".toList ++ (p ++ '/' :: name)) := by
  have hp : ¬ "gs://".toList <:+: p := fun hh => h (hh.trans ⟨[], '/' :: name, by simp⟩)
  have hp1 : ¬ "gs://".toList <:+: p ++ ['/'] := fun hh => h (hh.trans ⟨[], name, by simp⟩)
  have e : ∀ q : List Char, ¬ "gs://".toList <:+: q → removeGs ("gs://".toList ++ q) = q := by
    intro q hq
    show removeGs q = q
    exact removeGs_of_not_infix q hq
  unfold uploadBlob gcsBlob
  rw [e _ h, e _ hp, e _ hp1, baseName_append dir name hn, splitSlash_append, splitSlash_append, splitSlash_name name hn]
  have e0 : splitSlash [] = [[]] := rfl
  rw [e0]
  obtain ⟨b, t, ht⟩ := List.exists_cons_of_ne_nil (splitSlash_ne_nil p)
  rw [ht]
  rcases t with _ | ⟨x, t⟩
  · simp [joinPath_nil_left]
  · simp [joinPath_slash]

/-- A request for two files. -/
example : localPath "gs://bucket/market".toList = "/var/tmp/downloads/bucket/market".toList ∧
    resultsPath "/var/tmp/downloads/bucket/portfolio_1-of-2".toList = "/var/tmp/results/results_portfolio_1-of-2".toList ∧
    localPath "gs:///etc/passwd".toList = "/etc/passwd".toList ∧ allTradeIds 2 3 = [0, 1, 2, 3, 4, 5] ∧
    uploadBlob "gs://bucket/dir/".toList "/tmp/market".toList = ("bucket".toList, "dir/market".toList) := by
  decide +kernel

end Props
