import Verif.Model.ArrayIo
import Mathlib.Data.List.Basic
import Mathlib.Data.List.Forall2
import Mathlib.Data.List.Nodup
import Mathlib.Tactic.Ring
import Mathlib.Tactic.Linarith

/-!
C143: files of dictionaries of arrays are read back as they were written.
-/

namespace Spec

/-- The dictionary `out` has the keys of `d`, each with the value that `after` gives
for the value in `d`; the order of the entries does not matter. -/
def readsAs {V A : Type} (after : V → A) (out : List (List Nat × A))
    (d : List (List Nat × V)) : Prop :=
  out.Perm (d.map fun kv => (kv.1, after kv.2))

/-- The bytes of a file are below 256. -/
def isBytes (bs : List Nat) : Prop := ∀ b ∈ bs, b < 256

end Spec

namespace Lemmas

open Model

theorem readVarint_varint (n : Nat) (rest : List Nat) :
    readVarint (varint n ++ rest) = some (n, rest) := by
  induction n using Nat.strong_induction_on with
  | _ n ih =>
    rw [varint]
    by_cases h : n < 128
    · simp [h, readVarint]
    · rw [if_neg h, List.cons_append, readVarint, if_neg (by omega), ih (n / 128) (by omega)]
      simp only [Option.some.injEq, Prod.mk.injEq, and_true]
      omega

theorem varint_ne_nil (n : Nat) : varint n ≠ [] := by
  rw [varint]
  split <;> simp

theorem protoField_length (k : Nat) (p : List Nat) : 1 ≤ (protoField k p).length := by
  have := List.length_pos_iff.2 (varint_ne_nil (8 * k + 2))
  simp only [protoField, List.length_append]
  omega

theorem protoFieldsAux_fields (fs : List (Nat × List Nat)) (fuel : Nat)
    (h : fs.length ≤ fuel) :
    protoFieldsAux fuel (fs.flatMap fun f => protoField f.1 f.2) = some fs := by
  induction fs generalizing fuel with
  | nil => cases fuel <;> rfl
  | cons f fs ih =>
    obtain ⟨fuel, rfl⟩ : ∃ m, fuel = m + 1 := ⟨fuel - 1, by simp at h; omega⟩
    rw [List.flatMap_cons]
    obtain ⟨b, bs, hb⟩ : ∃ b bs, protoField f.1 f.2 ++
        (fs.flatMap fun f => protoField f.1 f.2) = b :: bs := by
      have := protoField_length f.1 f.2
      cases hq : protoField f.1 f.2 with
      | nil => simp [hq] at this
      | cons b bs => exact ⟨b, _, rfl⟩
    rw [hb, protoFieldsAux, ← hb]
    rw [protoField, List.append_assoc, readVarint_varint]
    simp only
    rw [List.append_assoc, readVarint_varint]
    simp only
    rw [if_pos ⟨by omega, by simp⟩, List.drop_left, List.take_left,
      ih fuel (by simpa using h)]
    simp only [Option.some.injEq, List.cons.injEq, and_true]
    ext1
    · show (8 * f.1 + 2) / 8 = f.1
      omega
    · rfl

theorem flatMap_field_length (fs : List (Nat × List Nat)) :
    fs.length ≤ (fs.flatMap fun f => protoField f.1 f.2).length := by
  induction fs with
  | nil => simp
  | cons f fs ih =>
    have := protoField_length f.1 f.2
    rw [List.flatMap_cons, List.length_append, List.length_cons]
    omega

theorem protoFields_fields (fs : List (Nat × List Nat)) :
    protoFields (fs.flatMap fun f => protoField f.1 f.2) = some fs :=
  protoFieldsAux_fields fs _ (flatMap_field_length fs)

theorem protoFields_one (k : Nat) (p : List Nat) :
    protoFields (protoField k p) = some [(k, p)] := by
  simpa using protoFields_fields [(k, p)]

theorem protoFields_two (k l : Nat) (p q : List Nat) :
    protoFields (protoField k p ++ protoField l q) = some [(k, p), (l, q)] := by
  simpa using protoFields_fields [(k, p), (l, q)]

theorem decodeFeature_make {V A : Type} (toArray : V → A) (enc : A → List Nat)
    {B : Type} (dec : List Nat → Option B) (v : V) (e : Option (A → List Nat)) (b : B)
    (h : dec (enc (toArray v)) = some b) :
    decodeFeature dec (makeFeature toArray enc v e) = .ok b := by
  simp [decodeFeature, makeFeature, protoFields_one, protoMerged, protoRepeated, h]

theorem dictPut_new {V : Type} (d : List (List Nat × V)) (k : List Nat) (v : V)
    (h : k ∉ d.map Prod.fst) : dictPut d k v = d ++ [(k, v)] := by
  rw [dictPut, List.filter_eq_self.2]
  intro kv hkv
  simp only [bne_iff_ne, ne_eq]
  rintro rfl
  exact h (List.mem_map_of_mem hkv)

theorem featureMap_entries {V A : Type} (toArray : V → A) (enc : A → List Nat)
    (e : Option (A → List Nat)) (d : List (List Nat × V)) (acc : List (List Nat × List Nat))
    (h : ((acc.map Prod.fst) ++ (d.map Prod.fst)).Nodup) :
    featureMap (d.map fun kv => (1, protoField 1 kv.1 ++
      protoField 2 (makeFeature toArray enc kv.2 e))) acc
      = some (acc ++ d.map fun kv => (kv.1, makeFeature toArray enc kv.2 e)) := by
  induction d generalizing acc with
  | nil => simp [featureMap]
  | cons kv d ih =>
    rw [List.map_cons, featureMap]
    simp only [if_true, protoFields_two]
    have h1 : protoLast 1 [(1, kv.1), (2, makeFeature toArray enc kv.2 e)] = kv.1 := by
      simp [protoLast]
    have h2 : protoMerged 2 [(1, kv.1), (2, makeFeature toArray enc kv.2 e)]
        = makeFeature toArray enc kv.2 e := by
      simp [protoMerged]
    rw [h1, h2, dictPut_new, ih]
    · simp
    · simpa using h
    · rw [List.map_cons, List.nodup_append] at h
      intro hk
      exact h.2.2 _ hk _ (by simp) rfl

theorem decodeFeatures_make {V A B : Type} (toArray : V → A) (enc : A → List Nat)
    (dec : List Nat → Option B) (e : Option (A → List Nat)) (after : V → B)
    (d : List (List Nat × V))
    (h : ∀ kv ∈ d, dec (enc (toArray kv.2)) = some (after kv.2)) :
    decodeFeatures dec (d.map fun kv => (kv.1, makeFeature toArray enc kv.2 e))
      = .ok (d.map fun kv => (kv.1, after kv.2)) := by
  induction d with
  | nil => rfl
  | cons kv d ih =>
    rw [List.map_cons, decodeFeatures, decodeFeature_make toArray enc dec kv.2 e _
      (h kv (by simp)), ih fun q hq => h q (by simp [hq])]
    rfl

theorem parseExample_make {V A B : Type} (toArray : V → A) (enc : A → List Nat)
    (dec : List Nat → Option B) (e : Option (A → List Nat)) (after : V → B)
    (d : List (List Nat × V)) (hk : (d.map Prod.fst).Nodup)
    (h : ∀ kv ∈ d, dec (enc (toArray kv.2)) = some (after kv.2)) :
    parseExample dec (makeExample toArray enc d e)
      = .ok (d.map fun kv => (kv.1, after kv.2)) := by
  have h1 : protoFields (d.flatMap fun kv =>
      protoField 1 (protoField 1 kv.1 ++ protoField 2 (makeFeature toArray enc kv.2 e)))
      = some (d.map fun kv => (1, protoField 1 kv.1 ++
        protoField 2 (makeFeature toArray enc kv.2 e))) := by
    rw [← protoFields_fields, List.flatMap_map]
  rw [parseExample, makeExample, protoFields_one]
  have h2 : ∀ p : List Nat, protoMerged 1 [(1, p)] = p := by
    intro p
    simp [protoMerged]
  simp only [h2, h1]
  rw [featureMap_entries toArray enc e d [] (by simpa using hk)]
  simp only [List.nil_append]
  exact decodeFeatures_make toArray enc dec e after d h

theorem littleEndian_length (k n : Nat) : (littleEndian k n).length = k := by
  induction k generalizing n with
  | zero => rfl
  | succ k ih => simp [littleEndian, ih]

theorem fromLittleEndian_of (k n : Nat) (h : n < 256 ^ k) :
    fromLittleEndian (littleEndian k n) = n := by
  induction k generalizing n with
  | zero => simp at h; simp [littleEndian, fromLittleEndian, h]
  | succ k ih =>
    rw [littleEndian, fromLittleEndian, ih (n / 256)]
    · omega
    · rw [pow_succ] at h
      exact Nat.div_lt_of_lt_mul (by linarith)

theorem littleEndian_from (bs : List Nat) (h : Spec.isBytes bs) :
    littleEndian bs.length (fromLittleEndian bs) = bs := by
  induction bs with
  | nil => rfl
  | cons b bs ih =>
    have hb : b < 256 := h b (by simp)
    rw [List.length_cons, littleEndian, fromLittleEndian]
    have h1 : (b + 256 * fromLittleEndian bs) % 256 = b := by omega
    have h2 : (b + 256 * fromLittleEndian bs) / 256 = fromLittleEndian bs := by omega
    rw [h1, h2, ih fun c hc => h c (by simp [hc])]

theorem recordFrame_length (crc : List Nat → Nat) (data : List Nat) :
    (recordFrame crc data).length = data.length + 16 := by
  simp only [recordFrame, List.length_append, littleEndian_length]
  omega

/-- A cut of a frame and what follows: the length bytes. -/
theorem readRecord_frame (crc : List Nat → Nat) (data rest : List Nat)
    (h : data.length < 2 ^ 64) :
    readRecord crc (recordFrame crc data ++ rest) = .ok (data, rest) := by
  have h8 : (recordFrame crc data ++ rest).take 8 = littleEndian 8 data.length := by
    rw [recordFrame, List.append_assoc, List.take_left' (littleEndian_length _ _)]
  have hd8 : ((recordFrame crc data ++ rest).drop 8).take 4
      = littleEndian 4 (crc (littleEndian 8 data.length)) := by
    rw [recordFrame, List.append_assoc, List.drop_left' (littleEndian_length _ _),
      List.append_assoc, List.take_left' (littleEndian_length _ _)]
  have hd12 : (recordFrame crc data ++ rest).drop 12
      = data ++ (littleEndian 4 (crc data) ++ rest) := by
    rw [show (12 : Nat) = 8 + 4 from rfl, ← List.drop_drop, recordFrame, List.append_assoc,
      List.drop_left' (littleEndian_length _ _), List.append_assoc,
      List.drop_left' (littleEndian_length _ _), List.append_assoc]
  have hf : fromLittleEndian (littleEndian 8 data.length) = data.length :=
    fromLittleEndian_of 8 _ (by norm_num at h ⊢; exact h)
  have hl := recordFrame_length crc data
  rw [readRecord, if_neg (by rw [List.length_append]; omega), h8, if_neg (by simp [hd8]), hf,
    hd12, if_neg (by simp [littleEndian_length]), List.drop_left,
    List.take_left' (littleEndian_length _ _), List.take_left, if_neg (by simp),
    ← List.drop_drop, List.drop_left, List.drop_left' (littleEndian_length _ _)]

/-- A record that is cut short is an error. -/
theorem readRecord_cut (crc : List Nat → Nat) (data : List Nat) (n : Nat)
    (h : data.length < 2 ^ 64) (hn : n < (recordFrame crc data).length) :
    ∃ e, readRecord crc ((recordFrame crc data).take n) = .error e := by
  rw [recordFrame_length] at hn
  rw [readRecord]
  by_cases h12 : ((recordFrame crc data).take n).length < 12
  · exact ⟨_, if_pos h12⟩
  rw [if_neg h12]
  by_cases hc : (((recordFrame crc data).take n).drop 8).take 4 ≠
      littleEndian 4 (crc (((recordFrame crc data).take n).take 8))
  · exact ⟨_, if_pos hc⟩
  rw [if_neg hc]
  refine ⟨_, if_pos ?_⟩
  have hle : 12 ≤ n := by
    rw [List.length_take] at h12
    omega
  have h8 : ((recordFrame crc data).take n).take 8 = littleEndian 8 data.length := by
    rw [List.take_take, min_eq_left (by omega), recordFrame,
      List.take_left' (littleEndian_length _ _)]
  have hf : fromLittleEndian (littleEndian 8 data.length) = data.length :=
    fromLittleEndian_of 8 _ (by norm_num at h ⊢; exact h)
  rw [h8, hf, List.length_drop, List.length_take, recordFrame_length]
  omega

theorem readArrayDictsAux_frames {A : Type} (crc : List Nat → Nat)
    (dec : List Nat → Option A) (raws : List (List Nat)) (outs : List (List (List Nat × A)))
    (tail : List Nat)
    (hsize : ∀ r ∈ raws, r.length < 2 ^ 64)
    (hparse : List.Forall₂ (fun r o => parseExample dec r = .ok o) raws outs)
    (fuel : Nat) (hfuel : raws.length ≤ fuel) :
    readArrayDictsAux crc dec fuel (raws.flatMap (recordFrame crc) ++ tail)
      = (outs ++ (readArrayDictsAux crc dec (fuel - raws.length) tail).1,
        (readArrayDictsAux crc dec (fuel - raws.length) tail).2) := by
  induction hparse generalizing fuel with
  | nil => simp
  | @cons r o rs os ho _ ih =>
    obtain ⟨fuel, rfl⟩ : ∃ m, fuel = m + 1 := ⟨fuel - 1, by simp at hfuel; omega⟩
    rw [List.flatMap_cons, List.append_assoc]
    obtain ⟨b, bs, hb⟩ : ∃ b bs, recordFrame crc r ++
        (rs.flatMap (recordFrame crc) ++ tail) = b :: bs := by
      have := recordFrame_length crc r
      cases hq : recordFrame crc r with
      | nil => simp [hq] at this
      | cons b bs => exact ⟨b, _, rfl⟩
    rw [hb, readArrayDictsAux, ← hb, readRecord_frame crc r _ (hsize r (by simp))]
    simp only [ho]
    rw [ih (fun q hq => hsize q (by simp [hq])) fuel (by simpa using hfuel)]
    simp

theorem frames_length (crc : List Nat → Nat) (raws : List (List Nat)) :
    raws.length ≤ (raws.flatMap (recordFrame crc)).length := by
  induction raws with
  | nil => simp
  | cons r rs ih =>
    have := recordFrame_length crc r
    rw [List.flatMap_cons, List.length_append, List.length_cons]
    omega

theorem writeArrayDicts_frames {V A : Type} (crc : List Nat → Nat)
    (order : List (List Nat × V) → List (List Nat × V)) (toArray : V → A)
    (enc : A → List Nat) (ds : List (List (List Nat × V))) :
    writeArrayDicts crc order toArray enc ds
      = (ds.map fun d => makeExample toArray enc (order d) none).flatMap (recordFrame crc) := by
  rw [writeArrayDicts, List.flatMap_map]

theorem parse_written {V A B : Type}
    (order : List (List Nat × V) → List (List Nat × V)) (toArray : V → A)
    (enc : A → List Nat) (dec : List Nat → Option B) (after : V → B)
    (ds : List (List (List Nat × V)))
    (hord : ∀ d, (order d).Perm d)
    (hkeys : ∀ d ∈ ds, (d.map Prod.fst).Nodup)
    (hdec : ∀ d ∈ ds, ∀ kv ∈ d, dec (enc (toArray kv.2)) = some (after kv.2)) :
    List.Forall₂ (fun r o => parseExample dec r = .ok o)
      (ds.map fun d => makeExample toArray enc (order d) none)
      (ds.map fun d => (order d).map fun kv => (kv.1, after kv.2)) := by
  rw [List.forall₂_map_left_iff, List.forall₂_map_right_iff, List.forall₂_same]
  intro d hd
  refine parseExample_make toArray enc dec none after (order d) ?_ ?_
  · exact ((hord d).map Prod.fst).nodup_iff.2 (hkeys d hd)
  · intro kv hkv
    exact hdec d hd kv ((hord d).mem_iff.1 hkv)

theorem reads_written {V B : Type}
    (order : List (List Nat × V) → List (List Nat × V)) (after : V → B)
    (ds : List (List (List Nat × V))) (hord : ∀ d, (order d).Perm d) :
    List.Forall₂ (Spec.readsAs after)
      (ds.map fun d => (order d).map fun kv => (kv.1, after kv.2)) ds := by
  rw [List.forall₂_map_left_iff, List.forall₂_same]
  exact fun d _ => (hord d).map _

/-- The records that are complete within the first `n` bytes. -/
theorem frames_cut (crc : List Nat → Nat) (raws : List (List Nat)) (n : Nat)
    (hn : n ≤ (raws.flatMap (recordFrame crc)).length) :
    ∃ j ≤ raws.length, ((raws.take j).flatMap (recordFrame crc)).length ≤ n ∧
      (n = ((raws.take j).flatMap (recordFrame crc)).length ∧
        (raws.flatMap (recordFrame crc)).take n = (raws.take j).flatMap (recordFrame crc) ∨
      ∃ r ∈ raws, ∃ m, 0 < m ∧ m < (recordFrame crc r).length ∧
        n = ((raws.take j).flatMap (recordFrame crc)).length + m ∧
        n < ((raws.take (j + 1)).flatMap (recordFrame crc)).length ∧
        (raws.flatMap (recordFrame crc)).take n
          = (raws.take j).flatMap (recordFrame crc) ++ (recordFrame crc r).take m) := by
  induction raws generalizing n with
  | nil => exact ⟨0, le_rfl, by simp, Or.inl ⟨by simpa using hn, by simp⟩⟩
  | cons r rs ih =>
    rw [List.flatMap_cons] at hn ⊢
    by_cases h : n < (recordFrame crc r).length
    · refine ⟨0, Nat.zero_le _, by simp, ?_⟩
      rcases Nat.eq_zero_or_pos n with rfl | hpos
      · exact Or.inl (by simp)
      · exact Or.inr ⟨r, by simp, n, hpos, h, by simp, by simpa using h,
          by simp [List.take_append_of_le_length h.le]⟩
    · obtain ⟨j, hj, hle, hcase⟩ := ih (n - (recordFrame crc r).length)
        (by rw [List.length_append] at hn; omega)
      have hge : (recordFrame crc r).length ≤ n := by omega
      have htake : (recordFrame crc r ++ rs.flatMap (recordFrame crc)).take n
          = recordFrame crc r ++ (rs.flatMap (recordFrame crc)).take
            (n - (recordFrame crc r).length) := by
        rw [List.take_append, List.take_of_length_le hge]
      refine ⟨j + 1, by simpa using hj, ?_, ?_⟩
      · rw [List.take_succ_cons, List.flatMap_cons, List.length_append]
        omega
      · rw [htake]
        simp only [List.take_succ_cons, List.flatMap_cons, List.length_append,
          List.append_assoc]
        rcases hcase with ⟨h1, h2⟩ | ⟨q, hq, m, hm0, hm, h1, h2, h3⟩
        · exact Or.inl ⟨by omega, by rw [h2]⟩
        · exact Or.inr ⟨q, by simp [hq], m, hm0, hm, by omega, by omega, by rw [h3]⟩

end Lemmas

namespace Props

open Model Lemmas

/-- C143: what is written is read back: every dictionary with its keys and, under
each key, the array that decoding gives for its encoding; then the file ends. -/
theorem C143_roundtrip {V A B : Type} (crc : List Nat → Nat)
    (order : List (List Nat × V) → List (List Nat × V)) (toArray : V → A)
    (enc : A → List Nat) (dec : List Nat → Option B) (after : V → B)
    (ds : List (List (List Nat × V)))
    (hord : ∀ d, (order d).Perm d)
    (hkeys : ∀ d ∈ ds, (d.map Prod.fst).Nodup)
    (hdec : ∀ d ∈ ds, ∀ kv ∈ d, dec (enc (toArray kv.2)) = some (after kv.2))
    (hsize : ∀ d ∈ ds, (makeExample toArray enc (order d) none).length < 2 ^ 64) :
    List.Forall₂ (Spec.readsAs after)
        (readArrayDicts crc dec (writeArrayDicts crc order toArray enc ds)).1 ds ∧
      (readArrayDicts crc dec (writeArrayDicts crc order toArray enc ds)).2 = none := by
  have hs : ∀ r ∈ ds.map fun d => makeExample toArray enc (order d) none,
      r.length < 2 ^ 64 := by
    intro r hr
    obtain ⟨d, hd, rfl⟩ := List.mem_map.1 hr
    exact hsize d hd
  have h := readArrayDictsAux_frames crc dec _ _ [] hs
    (parse_written order toArray enc dec after ds hord hkeys hdec) _
    (frames_length crc _)
  rw [List.append_nil, ← writeArrayDicts_frames] at h
  have hnil : ∀ fuel, readArrayDictsAux crc dec fuel [] = ([], none) := by
    intro fuel
    cases fuel <;> rfl
  rw [readArrayDicts, h, hnil]
  exact ⟨by rw [List.append_nil]; exact reads_written order after ds hord, rfl⟩

/-- C143: of a file that is cut off after any number of bytes the complete records
are read, and the reading ends without an error only if the cut is at the end of a
record. -/
theorem C143_cut {V A B : Type} (crc : List Nat → Nat)
    (order : List (List Nat × V) → List (List Nat × V)) (toArray : V → A)
    (enc : A → List Nat) (dec : List Nat → Option B) (after : V → B)
    (ds : List (List (List Nat × V)))
    (hord : ∀ d, (order d).Perm d)
    (hkeys : ∀ d ∈ ds, (d.map Prod.fst).Nodup)
    (hdec : ∀ d ∈ ds, ∀ kv ∈ d, dec (enc (toArray kv.2)) = some (after kv.2))
    (hsize : ∀ d ∈ ds, (makeExample toArray enc (order d) none).length < 2 ^ 64)
    (n : Nat) (hn : n ≤ (writeArrayDicts crc order toArray enc ds).length) :
    ∃ j ≤ ds.length,
      (writeArrayDicts crc order toArray enc (ds.take j)).length ≤ n ∧
      (n ≠ (writeArrayDicts crc order toArray enc (ds.take j)).length →
        n < (writeArrayDicts crc order toArray enc (ds.take (j + 1))).length) ∧
      List.Forall₂ (Spec.readsAs after)
        (readArrayDicts crc dec ((writeArrayDicts crc order toArray enc ds).take n)).1
        (ds.take j) ∧
      ((readArrayDicts crc dec ((writeArrayDicts crc order toArray enc ds).take n)).2 = none ↔
        n = (writeArrayDicts crc order toArray enc (ds.take j)).length) := by
  rw [writeArrayDicts_frames] at hn
  obtain ⟨j, hj, hle, hcase⟩ := frames_cut crc _ n hn
  rw [List.length_map] at hj
  have hs : ∀ d ∈ ds, ∀ r, r = makeExample toArray enc (order d) none →
      r.length < 2 ^ 64 := by
    rintro d hd r rfl
    exact hsize d hd
  have hmem : ∀ d ∈ ds.take j, d ∈ ds := fun d hd => List.mem_of_mem_take hd
  rw [← List.map_take, ← writeArrayDicts_frames] at hle hcase
  rw [← List.map_take, ← writeArrayDicts_frames, ← writeArrayDicts_frames] at hcase
  refine ⟨j, hj, hle, ?_, ?_⟩
  · rintro hne
    rcases hcase with ⟨h1, -⟩ | ⟨_, _, _, _, _, _, h2, _⟩
    · exact absurd h1 hne
    · exact h2
  · rcases hcase with ⟨h1, h2⟩ | ⟨r, hr, m, hm0, hm, h1, h2, h3⟩
    · rw [h2]
      have h := C143_roundtrip crc order toArray enc dec after (ds.take j) hord
        (fun d hd => hkeys d (hmem d hd)) (fun d hd => hdec d (hmem d hd))
        (fun d hd => hsize d (hmem d hd))
      exact ⟨h.1, by simp [h.2, h1]⟩
    · rw [h3]
      have hraws : ∀ r ∈ (ds.take j).map fun d => makeExample toArray enc (order d) none,
          r.length < 2 ^ 64 := by
        intro r hr
        obtain ⟨d, hd, rfl⟩ := List.mem_map.1 hr
        exact hsize d (hmem d hd)
      have hlen : ((ds.take j).map fun d => makeExample toArray enc (order d) none).length
          + 1 ≤ (writeArrayDicts crc order toArray enc (ds.take j)
            ++ (recordFrame crc r).take m).length := by
        have := frames_length crc
          ((ds.take j).map fun d => makeExample toArray enc (order d) none)
        rw [← writeArrayDicts_frames] at this
        rw [List.length_append, List.length_take]
        omega
      have h := readArrayDictsAux_frames crc dec _ _ ((recordFrame crc r).take m) hraws
        (parse_written order toArray enc dec after (ds.take j) hord
          (fun d hd => hkeys d (hmem d hd)) (fun d hd => hdec d (hmem d hd)))
        _ (le_trans (Nat.le_succ _) hlen)
      rw [← writeArrayDicts_frames] at h
      obtain ⟨d, hd, hrd⟩ := List.mem_map.1 hr
      obtain ⟨e, he⟩ := readRecord_cut crc r m (hs d hd r hrd.symm) hm
      obtain ⟨fuel, hfuel⟩ : ∃ fuel, (writeArrayDicts crc order toArray enc (ds.take j)
            ++ (recordFrame crc r).take m).length -
          ((ds.take j).map fun d => makeExample toArray enc (order d) none).length
          = fuel + 1 := ⟨_, (Nat.succ_pred_eq_of_pos (by omega)).symm⟩
      have htail : readArrayDictsAux crc dec (fuel + 1) ((recordFrame crc r).take m)
          = ([], some e) := by
        cases hq : (recordFrame crc r).take m with
        | nil =>
          have := congrArg List.length hq
          rw [List.length_take, List.length_nil] at this
          omega
        | cons b bs =>
          rw [hq] at he
          rw [readArrayDictsAux, he]
      rw [hfuel, htail] at h
      rw [readArrayDicts, h]
      refine ⟨?_, ?_⟩
      · rw [List.append_nil]
        exact reads_written order after (ds.take j) hord
      · simp only [reduceCtorEq, false_iff]
        omega

/-- C143: the reader takes a record only from bytes that the writer writes for its
data. -/
theorem C143_accepts (crc : List Nat → Nat) (bs data rest : List Nat)
    (hb : Spec.isBytes bs) (h : readRecord crc bs = .ok (data, rest)) :
    bs = recordFrame crc data ++ rest := by
  rw [readRecord] at h
  split_ifs at h with h1 h2 h3 h4
  rw [not_not] at h2 h4
  simp only [Except.ok.injEq, Prod.mk.injEq] at h
  obtain ⟨hd, hr⟩ := h
  rw [not_lt] at h1 h3
  have hl8 : (bs.take 8).length = 8 := by rw [List.length_take]; omega
  have hlen : data.length = fromLittleEndian (bs.take 8) := by
    rw [← hd, List.length_take]
    omega
  have hle : littleEndian 8 data.length = bs.take 8 := by
    rw [hlen]
    have := littleEndian_from (bs.take 8) fun b hb' => hb b (List.mem_of_mem_take hb')
    rwa [hl8] at this
  rw [hd] at h4
  rw [recordFrame, hle, ← h2, ← h4, ← hr, ← hlen, ← List.drop_drop]
  rw [List.append_assoc, List.append_assoc, List.append_assoc, List.take_append_drop]
  have hdata : data ++ (bs.drop 12).drop data.length = bs.drop 12 := by
    nth_rewrite 1 [← hd]
    rw [hlen, List.take_append_drop]
  rw [hdata, show (12 : Nat) = 8 + 4 from rfl, ← List.drop_drop, List.take_append_drop,
    List.take_append_drop]

/-- C143: the encoder given to the function that makes a record has no effect. -/
theorem C143_encoder_ignored {V A : Type} (toArray : V → A) (enc : A → List Nat)
    (d : List (List Nat × V)) (f : A → List Nat) :
    makeExample toArray enc d (some f) = makeExample toArray enc d none := by
  rfl

/-- C143: so the bytes of a record can differ from those the given encoder makes. -/
theorem C143_encoder_deviates :
    ∃ (enc f : Nat → List Nat) (d : List (List Nat × Nat)),
      makeExample id enc d (some f) ≠ makeExample id f d none :=
  ⟨fun n => [n], fun n => [n, n], [([97], 5)], by decide +kernel⟩

/-- Two records, the second with two keys, written in reverse order; a value is its
own array, encoded by one byte. -/
example : readArrayDicts (fun bs => bs.sum) (fun bs => bs.head?)
    (writeArrayDicts (fun bs => bs.sum) List.reverse id (fun n : Nat => [n])
      [[([97], 5)], [([97], 6), ([98, 99], 7)]])
    = ([[([97], 5)], [([98, 99], 7), ([97], 6)]], none) := by
  decide +kernel

/-- The same file without its last byte: the first record, then an error. -/
example : readArrayDicts (fun bs => bs.sum) (fun bs => bs.head?)
    ((writeArrayDicts (fun bs => bs.sum) List.reverse id (fun n : Nat => [n])
      [[([97], 5)], [([97], 6), ([98, 99], 7)]]).dropLast)
    = ([[([97], 5)]], some "DataLossError: truncated record") := by
  decide +kernel

/-- The bytes of a small record: keys and values of an example as protocol buffers
put them on the wire. -/
example : makeExample id (fun n : Nat => [n]) [([97], 5)] none
    = [10, 12, 10, 10, 10, 1, 97, 18, 5, 10, 3, 10, 1, 5] := by
  decide +kernel

/-- A varint of two bytes. -/
example : varint 300 = [172, 2] := by
  decide +kernel

end Props
