import Verif.Props.Fingerprint
import Verif.Spec.PlainText

/-!
# C50: fingerprints of ASCII texts
-/

namespace Fog.Props

open Fingerprint Spec

/-- The Unicode tables on ASCII. -/
structure AsciiTables (u : Unicode) : Prop where
  lower : ∀ s : List Char, (∀ c ∈ s, c.toNat < 128) → u.lower s = s.map Char.toLower
  unidecode : ∀ s : List Char, (∀ c ∈ s, c.toNat < 128) → u.unidecode s = s
  digit : ∀ c : Char, c.toNat < 128 → u.isDigit c = c.isDigit
  space : ∀ c : Char, c.toNat < 128 → u.isSpace c = asciiSpace c

/-- What the code does of a character. -/
def codeChar (keepDigits : Bool) (c : Char) : Option Char :=
  if !keepDigits && c.isDigit then none
  else if decide (('a' ≤ c.toLower ∧ c.toLower ≤ 'z') ∨ ('0' ≤ c.toLower ∧ c.toLower ≤ '9')) || asciiSpace c.toLower then some c.toLower else none

theorem ascii_of {P : Char → Prop} (h : ∀ n : Fin 128, P (Char.ofNat n.val)) {c : Char} (hc : c.toNat < 128) : P c := by
  have := h ⟨c.toNat, hc⟩
  simpa [Char.ofNat_toNat] using this

theorem codeChar_eq (keepDigits : Bool) {c : Char} (hc : c.toNat < 128) : codeChar keepDigits c = plainChar keepDigits [] c := by
  refine ascii_of (P := fun c => codeChar keepDigits c = plainChar keepDigits [] c) ?_ hc
  cases keepDigits <;> decide +kernel

theorem lower_ascii {c : Char} (hc : c.toNat < 128) : c.toLower.toNat < 128 := by
  refine ascii_of (P := fun c => c.toLower.toNat < 128) ?_ hc
  decide +kernel

theorem plain_ascii (keepDigits : Bool) {c d : Char} (hc : c.toNat < 128) (h : plainChar keepDigits [] c = some d) : d.toNat < 128 := by
  rw [← codeChar_eq keepDigits hc] at h
  unfold codeChar at h
  split at h
  · cases h
  · split at h
    · cases h; exact lower_ascii hc
    · cases h

theorem filterMap_code {u : Unicode} (hu : AsciiTables u) (keepDigits : Bool) (s : List Char) (hs : ∀ c ∈ s, c.toNat < 128) :
    ((if keepDigits then s else s.filter fun c => !u.isDigit c).map Char.toLower).filter (allowed u) = s.filterMap (plainChar keepDigits []) := by
  induction s with
  | nil => cases keepDigits <;> rfl
  | cons c s ih =>
      have hc := hs c (by simp)
      have ih := ih fun d hd => hs d (by simp [hd])
      rw [List.filterMap_cons, ← codeChar_eq keepDigits hc, ← ih]
      have hall : allowed u c.toLower = (decide (('a' ≤ c.toLower ∧ c.toLower ≤ 'z') ∨ ('0' ≤ c.toLower ∧ c.toLower ≤ '9')) || asciiSpace c.toLower) := by
        unfold allowed
        rw [hu.space _ (lower_ascii hc)]
      unfold codeChar
      rw [← hall]
      cases keepDigits with
      | true =>
          simp only [if_true, Bool.not_true, Bool.false_and, Bool.false_eq_true, if_false, List.map_cons, List.filter_cons]
          cases allowed u c.toLower <;> simp
      | false =>
          simp only [Bool.false_eq_true, if_false, Bool.not_false, Bool.true_and, List.filter_cons, hu.digit c hc]
          cases c.isDigit with
          | true => simp
          | false =>
              simp only [Bool.not_false, if_true, Bool.false_eq_true, if_false, List.map_cons, List.filter_cons]
              cases allowed u c.toLower <;> simp

theorem clean_ascii {u : Unicode} (hu : AsciiTables u) (o : Options) (hstop : o.stopwords = none) (hm : o.min_token_size ≤ 1)
    {s : List Char} (hs : ∀ c ∈ s, c.toNat < 128) : clean u o s = plainText o.keep_digits (o.split.getD []) s := by
  have key : ∀ t : List Char, (∀ c ∈ t, c.toNat < 128) →
      (u.unidecode (u.lower (if o.keep_digits then t else t.filter fun c => !u.isDigit c))).filter (allowed u) =
        t.filterMap (plainChar o.keep_digits []) := by
    intro t ht
    have h1 : ∀ c ∈ (if o.keep_digits then t else t.filter fun c => !u.isDigit c), c.toNat < 128 := by
      intro c hc
      split at hc
      · exact ht c hc
      · exact ht c (List.mem_filter.mp hc).1
    rw [hu.lower _ h1, hu.unidecode, filterMap_code hu _ t ht]
    intro c hc
    obtain ⟨d, hd, rfl⟩ := List.mem_map.mp hc
    exact lower_ascii (h1 d hd)
  unfold clean plainText
  cases hsp : o.split with
  | none =>
      simp only [hstop, show ¬ o.min_token_size > 1 by omega, if_false, Option.getD_none]
      exact key s hs
  | some chars =>
      simp only [hstop, show ¬ o.min_token_size > 1 by omega, if_false, Option.getD_some]
      rw [key, List.filterMap_map]
      · congr 1
        funext c
        simp only [Function.comp, plainChar]
        by_cases h : c ∈ chars
        · simp only [h, if_true]; cases o.keep_digits <;> rfl
        · simp [h]
      · intro c hc
        obtain ⟨d, hd, rfl⟩ := List.mem_map.mp hc
        split
        · decide
        · exact hs d hd

theorem words_congr {p q : Char → Bool} {s : List Char} (h : ∀ c ∈ s, p c = q c) : words p s = words q s := by
  have : pieces p s = pieces q s := by
    induction s with
    | nil => rfl
    | cons c s ih =>
        rw [pieces, pieces, h c (by simp), ih fun d hd => h d (by simp [hd])]
  unfold words
  rw [this]

/-- The words of the fingerprint of an ASCII text. -/
def plainWords (o : Options) (s : List Char) : List (List Char) :=
  (words asciiSpace (plainText o.keep_digits (o.split.getD []) s)).map fun w => if o.squeeze then Utils.squeeze w false else w

theorem cleanWords_ascii {u : Unicode} (hu : AsciiTables u) (o : Options) (hstop : o.stopwords = none) (hm : o.min_token_size ≤ 1)
    {s : List Char} (hs : ∀ c ∈ s, c.toNat < 128) : cleanWords u o s = plainWords o s := by
  unfold cleanWords plainWords
  rw [clean_ascii hu o hstop hm hs]
  refine congrArg _ (words_congr fun d hd => hu.space d ?_)
  unfold plainText at hd
  obtain ⟨c, hc, h⟩ := List.mem_filterMap.mp hd
  by_cases hin : c ∈ o.split.getD []
  · simp only [plainChar, hin, if_true, Option.some.injEq] at h
    subst h; decide
  · refine plain_ascii o.keep_digits (hs c hc) (d := d) ?_
    simp only [plainChar, hin, if_false] at h
    simpa [plainChar] using h

/-- **C50**: on ASCII texts, the tokens are in increasing order the distinct words of the plain text, where letters are lower case and
punctuation is dropped; if there are none, the empty string. -/
theorem fingerprint_ascii {u : Unicode} (hu : AsciiTables u) (o : Options) (hstop : o.stopwords = none) (hm : o.min_token_size ≤ 1)
    {s : List Char} (hs : ∀ c ∈ s, c.toNat < 128) :
    (tokenize u o s).Pairwise (· < ·) ∧
    (∀ t, t ∈ tokenize u o s ↔ t ∈ plainWords o s ∨ (plainWords o s = [] ∧ t = [])) ∧
    key u o s = [' '].intercalate (tokenize u o s) := by
  have := fingerprint_tokens u o s
  rw [cleanWords_ascii hu o hstop hm hs] at this
  exact ⟨this.1, this.2, rfl⟩

/-- **C50**: likewise, the n-gram fingerprint has in increasing order the distinct n-grams of the plain text without white space. -/
theorem ngrams_fingerprint_ascii {u : Unicode} (hu : AsciiTables u) (o : Options) (hstop : o.stopwords = none) (hm : o.min_token_size ≤ 1)
    (n : Nat) {s : List Char} (hs : ∀ c ∈ s, c.toNat < 128) :
    (ngramsTokenize u o n s).Pairwise (· < ·) ∧
    (∀ t, t ∈ ngramsTokenize u o n s ↔
      ((plainWords o s).flatten.length < n ∧ t = (plainWords o s).flatten) ∨
      ∃ i, i + n ≤ (plainWords o s).flatten.length ∧ t = ((plainWords o s).flatten.drop i).take n) ∧
    ngramsKey u o n s = (ngramsTokenize u o n s).flatten := by
  have := ngrams_fingerprint_tokens u o n s
  simp only [cleanWords_ascii hu o hstop hm hs] at this
  exact ⟨this.1, this.2, rfl⟩

/-- **C50**: hence case and punctuation do not matter. -/
theorem fingerprint_case_punctuation {u : Unicode} (hu : AsciiTables u) (o : Options) (hstop : o.stopwords = none) (hm : o.min_token_size ≤ 1)
    {s t : List Char} (hs : ∀ c ∈ s, c.toNat < 128) (ht : ∀ c ∈ t, c.toNat < 128)
    (h : (s.map Char.toLower).filter (fun c => c.isAlphanum || asciiSpace c || decide (c ∈ o.split.getD [])) =
      (t.map Char.toLower).filter (fun c => c.isAlphanum || asciiSpace c || decide (c ∈ o.split.getD [])))
    (hsep : ∀ c ∈ o.split.getD [], c.isAlpha = false) : tokenize u o s = tokenize u o t ∧ key u o s = key u o t := by
  have hplain : ∀ s : List Char, (∀ c ∈ s, c.toNat < 128) → plainText o.keep_digits (o.split.getD []) s =
      plainText o.keep_digits (o.split.getD []) ((s.map Char.toLower).filter (fun c => c.isAlphanum || asciiSpace c || decide (c ∈ o.split.getD []))) := by
    intro s hs
    unfold plainText
    rw [List.filterMap_filter, List.filterMap_map]
    apply List.filterMap_congr
    intro c hc
    simp only [Function.comp]
    have hc := hs c hc
    by_cases hin : c ∈ o.split.getD []
    · have hl : c.toLower = c := by
        have h1 := hsep c hin
        have : c.isAlpha = false → c.toLower = c := by
          refine ascii_of (P := fun c => c.isAlpha = false → c.toLower = c) ?_ hc
          decide +kernel
        exact this h1
      rw [hl]
      simp [hin]
    · have hin' : c.toLower ∉ o.split.getD [] := by
        intro h1
        have h2 := hsep _ h1
        have : c.toLower.isAlpha = false → c.toLower = c := by
          refine ascii_of (P := fun c => c.toLower.isAlpha = false → c.toLower = c) ?_ hc
          decide +kernel
        rw [this h2] at h1
        exact hin h1
      simp only [hin', decide_false, Bool.or_false]
      have e1 : plainChar o.keep_digits (o.split.getD []) c = plainChar o.keep_digits [] c := by simp [plainChar, hin]
      have e2 : plainChar o.keep_digits (o.split.getD []) c.toLower = plainChar o.keep_digits [] c.toLower := by simp [plainChar, hin']
      rw [e1, e2]
      generalize o.keep_digits = k
      refine ascii_of (P := fun c => plainChar k [] c = if (c.toLower.isAlphanum || asciiSpace c.toLower) = true then plainChar k [] c.toLower else none) ?_ hc
      cases k <;> decide +kernel
  have hw : plainWords o s = plainWords o t := by
    unfold plainWords
    rw [hplain s hs, hplain t ht, h]
  apply fingerprint_same
  rw [cleanWords_ascii hu o hstop hm hs, cleanWords_ascii hu o hstop hm ht, hw]
  simp

/-- Tables for which ASCII is as it should be. -/
def asciiTables : Unicode := { ascii with isSpace := asciiSpace }

theorem asciiTables_lawful : AsciiTables asciiTables := by
  refine ⟨fun s _ => rfl, fun s hs => ?_, fun c _ => rfl, fun c _ => rfl⟩
  change (s.map fun c => if c = '²' then '2' else c) = s
  conv_rhs => rw [← List.map_id s]
  apply List.map_congr_left
  intro c hc
  rw [if_neg]
  · rfl
  · rintro rfl
    have := hs _ hc
    revert this
    decide

example : key asciiTables { split := some ['-'] } "University-OF  ...North_Carolina!".toList =
    key asciiTables { split := some ['-'] } "university-of  NorthCarolina".toList :=
  (fingerprint_case_punctuation asciiTables_lawful _ rfl (by decide) (by decide) (by decide) (by decide +kernel) (by decide)).2

example : plainWords {} "It's 5 o'clock, SOMEWHERE!".toList = ["its", "5", "oclock", "somewhere"].map String.toList := by decide +kernel

end Fog.Props
