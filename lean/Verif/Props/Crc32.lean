import Verif.Lemmas.Crc32
import Verif.Model.Minhash
import Verif.Props.Ppjoin
import Mathlib.Data.Char
import Mathlib.Data.List.Lex
import Mathlib.Tactic.IntervalCases

/-!
# C136: which tokens `crc32` tells apart
-/

namespace Fog.Props

open LshUtils

/-- The values are 32 bits integers. -/
theorem crc32_lt (x : List Char) : crc32 x < 2 ^ 32 := by
  unfold crc32
  have := Nat.and_lt_two_pow (binasciiCrc32 (encode x)) (show 0xFFFFFFFF < 2 ^ 32 by norm_num)
  exact this

theorem crc32_eq (x : List Char) : crc32 x = binasciiCrc32 (encode x) := by
  unfold crc32
  rw [show 0xFFFFFFFF = 2 ^ 32 - 1 by norm_num, Nat.and_two_pow_sub_one_eq_mod]
  apply Nat.mod_eq_of_lt
  unfold binasciiCrc32
  exact BitVec.isLt _

theorem encodeChar_injective {c d : Char} (h : String.utf8EncodeChar c = String.utf8EncodeChar d) : c = d := by
  have h1 := ByteArray.utf8DecodeChar?_utf8EncodeChar_append (b := .empty) (c := c)
  rw [h, ByteArray.utf8DecodeChar?_utf8EncodeChar_append] at h1
  exact (Option.some.inj h1).symm

/-- Tokens which differ in one character only, taking as many bytes in both, have different values. -/
theorem crc32_substitution {u v : List Char} {c d : Char} (hw : c.utf8Size = d.utf8Size) (h : crc32 (u ++ c :: v) = crc32 (u ++ d :: v)) : c = d := by
  rw [crc32_eq, crc32_eq] at h
  have e : ∀ c : Char, encode (u ++ c :: v) = encode u ++ String.utf8EncodeChar c ++ encode v := by
    intro c
    simp [encode, List.flatMap_append]
  rw [e, e] at h
  apply encodeChar_injective
  apply binasciiCrc32_burst _ _ h
  · rw [String.length_utf8EncodeChar, String.length_utf8EncodeChar, hw]
  · rw [String.length_utf8EncodeChar]
    exact Char.utf8Size_le_four c

theorem encode_ascii {x : List Char} (hx : ∀ c ∈ x, c.toNat < 128) : encode x = x.map fun c => c.val.toUInt8 := by
  induction x with
  | nil => rfl
  | cons c x ih =>
      have h1 : c.utf8Size = 1 := by
        rw [Char.utf8Size_eq_one_iff]
        have := hx c (by simp)
        rw [UInt32.le_iff_toNat_le]
        simp only [Char.toNat] at this
        have h2 : (127 : UInt32).toNat = 127 := by decide
        omega
      have h2 : encode (c :: x) = String.utf8EncodeChar c ++ encode x := by simp [encode]
      rw [h2, ih fun c hc => hx c (by simp [hc]), String.utf8EncodeChar_eq_singleton h1]
      rfl

theorem ascii_injective {x y : List Char} (hx : ∀ c ∈ x, c.toNat < 128) (hy : ∀ c ∈ y, c.toNat < 128) (h : encode x = encode y) : x = y := by
  rw [encode_ascii hx, encode_ascii hy] at h
  induction x generalizing y with
  | nil =>
      cases y with
      | nil => rfl
      | cons d y => simp at h
  | cons c x ih =>
      cases y with
      | nil => simp at h
      | cons d y =>
          simp only [List.map_cons, List.cons.injEq] at h
          rw [ih (fun c hc => hx c (by simp [hc])) (fun c hc => hy c (by simp [hc])) h.2]
          have h1 := hx c (by simp)
          have h2 := hy d (by simp)
          have h3 := congrArg UInt8.toNat h.1
          simp only [UInt32.toNat_toUInt8] at h3
          have h4 : c.toNat = d.toNat := by
            simp only [Char.toNat] at h1 h2 ⊢
            omega
          rw [Char.toNat_inj.mp h4]

/-- ASCII tokens which differ in at most four consecutive characters have different values: they may be of any length. -/
theorem crc32_ascii {u x y v : List Char} (hx : ∀ c ∈ x, c.toNat < 128) (hy : ∀ c ∈ y, c.toNat < 128) (hl : x.length = y.length) (h4 : x.length ≤ 4)
    (h : crc32 (u ++ x ++ v) = crc32 (u ++ y ++ v)) : x = y := by
  rw [crc32_eq, crc32_eq] at h
  have e : ∀ x : List Char, encode (u ++ x ++ v) = encode u ++ encode x ++ encode v := by
    intro x
    simp [encode, List.flatMap_append]
  rw [e, e] at h
  apply ascii_injective hx hy
  have lx : (encode x).length = x.length := by rw [encode_ascii hx, List.length_map]
  have ly : (encode y).length = y.length := by rw [encode_ascii hy, List.length_map]
  exact binasciiCrc32_burst (by omega) (by omega) h

/-- So `ppjoin` with the `crc32` ordering is right on ASCII n-grams of at most four characters. -/
theorem crc32_ngrams {n : Nat} (hn : n ≤ 4) {records : List (List (List Char))}
    (h : ∀ r ∈ records, ∀ w ∈ r, w.length = n ∧ ∀ c ∈ w, c.toNat < 128) : NoCollision records (.crc32 crc32) := by
  intro r hr a ha r' hr' b hb hab
  obtain ⟨h1, h2⟩ := h r hr a ha
  obtain ⟨h3, h4⟩ := h r' hr' b hb
  exact crc32_ascii (u := []) (v := []) h2 h4 (h1.trans h3.symm) (h1.trans_le hn) (by simpa using hab)

/-- But words may collide. -/
theorem crc32_collision : crc32 "plumless".toList = crc32 "buckeroo".toList := by decide +kernel

/-- Then `all_pairs` with the `crc32` ordering yields records which have nothing in common. -/
theorem all_pairs_crc32_collision : ∃ out,
    Ppjoin.ppjoinRecords (Ppjoin.jaccardHelper (1 / 2 : ℚ)) ⟨true, false⟩ false [["plumless".toList], ["buckeroo".toList]] (.crc32 crc32) = .ok out ∧
    ((0, 1) ∈ out ∨ (1, 0) ∈ out) ∧
    Spec.jaccard (Spec.tokenSet [["plumless".toList], ["buckeroo".toList]] 0) (Spec.tokenSet [["plumless".toList], ["buckeroo".toList]] 1) = 0 := by
  have hp : Ppjoin.preprocessCrc crc32 [["plumless".toList], ["buckeroo".toList]] =
      Ppjoin.preprocessNone [[crc32 "plumless".toList], [crc32 "plumless".toList]] := by
    simp only [Ppjoin.preprocessCrc, Ppjoin.preprocessNone, Ppjoin.sortedUniq, dedup, List.map_cons, List.map_nil, List.foldl_cons, List.foldl_nil,
      List.not_mem_nil, if_false, List.nil_append, List.mergeSort_singleton, crc32_collision]
  obtain ⟨out, hout, hcomp⟩ := all_pairs_jaccard_complete_partial (t := 1 / 2) (by norm_num) (by norm_num) (tokenizer := false)
    (records := [[crc32 "plumless".toList], [crc32 "plumless".toList]]) (ordering := .none) trivial trivial (by simp)
  refine ⟨out, ?_, hcomp 0 1 (by simp) (by simp) (by simp) ?_, ?_⟩
  · rw [← hout]
    simp only [Ppjoin.ppjoinRecords, hp]
  · generalize crc32 "plumless".toList = n
    simp [Spec.jaccard, Spec.tokenSet]
    norm_num
  · have : Spec.tokenSet [["plumless".toList], ["buckeroo".toList]] 0 ∩ Spec.tokenSet [["plumless".toList], ["buckeroo".toList]] 1 = ∅ := by
      decide +kernel
    rw [Spec.jaccard, this]
    simp

/-- And whatever the coefficients the signatures of two such sequences are the same. -/
theorem minhash_crc32_collision (ord : List Nat → List Nat) (params : List (Nat × Nat)) :
    Minhash.createSignature ord crc32 params ["plumless".toList] = Minhash.createSignature ord crc32 params ["buckeroo".toList] := by
  simp only [Minhash.createSignature, Minhash.tokenSet, List.map_cons, List.map_nil, crc32_collision]

-- The check value of CRC-32, and the empty string.
example : crc32 "123456789".toList = 0xCBF43926 := by decide +kernel
example : crc32 [] = 0 := by decide +kernel

-- Two words which differ in two consecutive letters, and two which differ in an accent.
example : crc32 "clustering".toList ≠ crc32 "clumsering".toList := fun h =>
  absurd (crc32_ascii (u := "clu".toList) (x := "st".toList) (y := "ms".toList) (v := "ering".toList) (by decide) (by decide) rfl (by decide) h) (by decide)
example : crc32 "p\u00eache".toList ≠ crc32 "p\u00e9che".toList := fun h =>
  absurd (crc32_substitution (u := ['p']) (v := "che".toList) (c := '\u00ea') (d := '\u00e9') (by decide) h) (by decide)

-- Bigrams.
example : NoCollision [["ab".toList, "bc".toList], ["ba".toList]] (.crc32 crc32) := crc32_ngrams (n := 2) (by norm_num) (by decide)

end Fog.Props
