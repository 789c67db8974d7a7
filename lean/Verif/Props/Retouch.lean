import Verif.Props.Fingerprint
import Verif.Spec.Retouch

/-!
# C50, C125: the texts which have the same fingerprint
-/

namespace Fog.Props

open Fog.Spec Fog.Fingerprint

variable (u : Unicode)

/-- The words of a fingerprint are the cleaned words of the text. -/
theorem words_key (hs : u.isSpace ' ' = true) (o : Options) (s : List Char) (w : List Char) :
    w ∈ words u.isSpace (key u o s) ↔ w ∈ cleanWords u o s := by
  have hw : ∀ w ∈ cleanWords u o s, w ≠ [] ∧ ∀ c ∈ w, u.isSpace c = false := by
    intro w hw
    obtain ⟨x, hx, rfl⟩ := List.mem_map.mp hw
    obtain ⟨h1, h2⟩ := mem_words hx
    unfold squeezed
    split
    · exact ⟨subRuns_ne_nil _ h1, fun c hc => (h2 c (subRuns_mem _ _ c hc)).1⟩
    · exact ⟨h1, fun c hc => (h2 c hc).1⟩
  obtain ⟨-, h2⟩ := fingerprint_tokens u o s
  unfold key
  rw [words_intercalate u.isSpace hs]
  · rw [List.mem_filter, h2, decide_eq_true_eq]
    constructor
    · rintro ⟨h | h, h'⟩
      · exact h
      · exact absurd h.2 h'
    · exact fun h => ⟨.inl h, (hw w h).1⟩
  · intro w hm
    rcases (h2 w).mp hm with h | h
    · exact (hw w h).2
    · rw [h.2]; simp

/-- **C50**: two strings have the same fingerprint exactly when they have the same set of cleaned words. -/
theorem fingerprint_same_iff (hs : u.isSpace ' ' = true) (o : Options) (s t : List Char) :
    key u o s = key u o t ↔ ∀ w, w ∈ cleanWords u o s ↔ w ∈ cleanWords u o t := by
  constructor
  · intro h w
    rw [← words_key u hs o s, h, words_key u hs o t]
  · exact fun h => (fingerprint_same u o h).2

/-- Tables which work character by character: `plain c` is what is kept of the transliteration of `c` in lower case. What is kept would be kept
as it is. (`str.lower` looks around a capital sigma, but both small ones are transliterated to the same letter.) -/
structure ByCharacter (plain : Char → List Char) : Prop where
  space : u.isSpace ' ' = true
  whole : ∀ s, (u.unidecode (u.lower s)).filter (fun c => decide (('a' ≤ c ∧ c ≤ 'z') ∨ ('0' ≤ c ∧ c ≤ '9')) || u.isSpace c) = s.flatMap plain
  stable : ∀ c, ∀ d ∈ plain c, plain d = [d]
  blank : plain ' ' = [' ']

variable {u}

theorem clean_plain {plain : Char → List Char} (hu : ByCharacter u plain) (s : List Char) : clean u {} s = s.flatMap plain := by
  rw [← hu.whole]
  rfl

theorem cleanWords_plain {plain : Char → List Char} (hu : ByCharacter u plain) (s : List Char) :
    cleanWords u {} s = words u.isSpace (s.flatMap plain) := by
  unfold cleanWords
  rw [clean_plain hu]
  conv_rhs => rw [← List.map_id (words u.isSpace (s.flatMap plain))]
  rfl

theorem flatMap_plain {plain : Char → List Char} (hu : ByCharacter u plain) (c : Char) : (plain c).flatMap plain = plain c := by
  have : ∀ l : List Char, (∀ d ∈ l, plain d = [d]) → l.flatMap plain = l := by
    intro l
    induction l with
    | nil => simp
    | cons d l ih =>
        intro h
        rw [List.flatMap_cons, h d (by simp), ih (fun x hx => h x (by simp [hx]))]
        rfl
  exact this _ (hu.stable c)

theorem words_plain_intercalate {plain : Char → List Char} (hu : ByCharacter u plain) (ws : List (List Char)) :
    words u.isSpace (([' '].intercalate ws).flatMap plain) = ws.flatMap fun w => words u.isSpace (w.flatMap plain) := by
  induction ws with
  | nil => simp [words_nil]
  | cons w ws ih =>
      cases ws with
      | nil => simp
      | cons w' ws =>
          rw [show [' '].intercalate (w :: w' :: ws) = w ++ ' ' :: [' '].intercalate (w' :: ws) by simp [List.intercalate_cons_cons],
            List.flatMap_append, List.flatMap_cons, hu.blank, List.singleton_append, words_append _ _ _ hu.space, ih]
          simp only [List.flatMap_cons]

/-- A change keeps the set of cleaned words. -/
theorem retouch_words {plain : Char → List Char} (hu : ByCharacter u plain) {s t : List Char} (h : Retouch plain u.isSpace s t) (w : List Char) :
    w ∈ cleanWords u {} s ↔ w ∈ cleanWords u {} t := by
  rw [cleanWords_plain hu, cleanWords_plain hu]
  cases h with
  | character s t c =>
      rw [List.flatMap_append, List.flatMap_cons, List.flatMap_append, List.flatMap_append, flatMap_plain hu, List.append_assoc]
  | white s t hc hp =>
      rw [List.flatMap_append, List.flatMap_cons, hp, List.flatMap_append, List.flatMap_cons, hu.blank, List.singleton_append,
        List.singleton_append, words_append _ _ _ hc, words_append _ _ _ hu.space]
  | order h =>
      rw [words_plain_intercalate hu, words_plain_intercalate hu]
      simp only [List.mem_flatMap, h.mem_iff]
  | @again v ws h =>
      rw [words_plain_intercalate hu, words_plain_intercalate hu]
      simp only [List.mem_flatMap, List.mem_cons]
      constructor
      · rintro ⟨x, rfl | hx, hw⟩
        · exact ⟨x, h, hw⟩
        · exact ⟨x, hx, hw⟩
      · rintro ⟨x, hx, hw⟩
        exact ⟨x, .inr hx, hw⟩
  | blank ws =>
      rw [words_plain_intercalate hu, words_plain_intercalate hu]
      simp [words_nil]

theorem alike_words {plain : Char → List Char} (hu : ByCharacter u plain) {s t : List Char} (h : Alike plain u.isSpace s t) (w : List Char) :
    w ∈ cleanWords u {} s ↔ w ∈ cleanWords u {} t := by
  induction h with
  | refl s => rfl
  | step h => exact retouch_words hu h w
  | symm _ ih => exact ih.symm
  | trans _ _ ih ih' => exact ih.trans ih'

theorem alike_plain {plain : Char → List Char} {space : Char → Bool} : ∀ s r : List Char, Alike plain space (r ++ s) (r ++ s.flatMap plain)
  | [], r => by simpa using Alike.refl r
  | c :: s, r => by
      have h1 := Alike.step (Retouch.character (plain := plain) (space := space) r s c)
      have h2 := alike_plain (plain := plain) (space := space) s (r ++ plain c)
      rw [List.flatMap_cons, ← List.append_assoc]
      exact h1.trans h2

theorem alike_white {plain : Char → List Char} {space : Char → Bool} : ∀ s r : List Char, (∀ c ∈ s, plain c = [c]) →
    Alike plain space (r ++ s) (r ++ s.map fun c => if space c then ' ' else c)
  | [], r, _ => by simpa using Alike.refl r
  | c :: s, r, h => by
      have h2 := alike_white (plain := plain) (space := space) s (r ++ [if space c then ' ' else c]) (fun x hx => h x (by simp [hx]))
      simp only [List.append_assoc, List.singleton_append] at h2
      rw [List.map_cons]
      refine Alike.trans ?_ h2
      split
      · next hc => exact .step (.white r s hc (h c (by simp)))
      · exact .refl _

theorem intercalate_pieces (space : Char → Bool) (s : List Char) :
    [' '].intercalate (pieces space s) = s.map fun c => if space c then ' ' else c := by
  induction s with
  | nil => simp [pieces]
  | cons c s ih =>
      rw [List.map_cons, ← ih, pieces]
      cases hp : pieces space s with
      | nil => exact absurd hp (pieces_ne_nil space s)
      | cons p ps =>
          by_cases hc : space c = true
          · simp [hc, List.intercalate_cons_cons]
          · simp only [hc, if_false]
            cases ps with
            | nil => simp
            | cons p' ps => simp [List.intercalate_cons_cons]

theorem alike_drop_blanks {plain : Char → List Char} {space : Char → Bool} (ws : List (List Char)) : ∀ n : Nat,
    Alike plain space ([' '].intercalate (List.replicate n [] ++ ws)) ([' '].intercalate ws)
  | 0 => .refl _
  | n + 1 => by
      rw [List.replicate_succ, List.cons_append]
      exact (Alike.step (.blank _)).trans (alike_drop_blanks ws n)

theorem alike_drop_again {plain : Char → List Char} {space : Char → Bool} (ws : List (List Char)) : ∀ l : List (List Char), (∀ w ∈ l, w ∈ ws) →
    Alike plain space ([' '].intercalate (l ++ ws)) ([' '].intercalate ws)
  | [], _ => .refl _
  | w :: l, h => (Alike.step (.again (by simp [h w (by simp)]))).trans (alike_drop_again ws l fun x hx => h x (by simp [hx]))

/-- Words may be permuted and repeated. -/
theorem alike_same_set {plain : Char → List Char} {space : Char → Bool} {l l' : List (List Char)} (h : ∀ w, w ∈ l ↔ w ∈ l') :
    Alike plain space ([' '].intercalate l) ([' '].intercalate l') := by
  have h1 := alike_drop_again (plain := plain) (space := space) l l' fun w hw => (h w).mpr hw
  have h2 := alike_drop_again (plain := plain) (space := space) l' l fun w hw => (h w).mp hw
  exact (h1.symm.trans (.step (.order List.perm_append_comm))).trans h2

/-- A text is turned into its cleaned words, joined. -/
theorem alike_cleanWords {plain : Char → List Char} (hu : ByCharacter u plain) (s : List Char) :
    Alike plain u.isSpace s ([' '].intercalate (cleanWords u {} s)) := by
  have h1 := alike_plain (plain := plain) (space := u.isSpace) s []
  have h2 := alike_white (plain := plain) (space := u.isSpace) (s.flatMap plain) [] (by
    intro c hc
    obtain ⟨d, -, hd⟩ := List.mem_flatMap.mp hc
    exact hu.stable d c hd)
  simp only [List.nil_append] at h1 h2
  rw [← intercalate_pieces] at h2
  refine (h1.trans h2).trans ?_
  rw [cleanWords_plain hu]
  unfold words
  generalize pieces u.isSpace (s.flatMap plain) = ps
  have hp : ps.Perm (List.replicate (ps.filter fun w => !decide (w ≠ [])).length [] ++ ps.filter fun w => decide (w ≠ [])) := by
    rw [show List.replicate (ps.filter fun w => !decide (w ≠ [])).length [] = ps.filter fun w => !decide (w ≠ []) from
      (List.eq_replicate_iff.mpr ⟨rfl, by intro w hw; simpa using (List.mem_filter.mp hw).2⟩).symm]
    exact ((List.filter_append_perm (fun w => decide (w ≠ [])) ps).symm).trans List.perm_append_comm
  exact (Alike.step (.order hp)).trans (alike_drop_blanks _ _)

/-- **C50**: two strings have the same fingerprint exactly when one is turned into the other by changes of case, accents, punctuation, white
space, order of the words and repetitions of words. -/
theorem fingerprint_alike_iff {plain : Char → List Char} (hu : ByCharacter u plain) (s t : List Char) :
    key u {} s = key u {} t ↔ Alike plain u.isSpace s t := by
  rw [fingerprint_same_iff u hu.space]
  constructor
  · intro h
    exact ((alike_cleanWords hu s).trans (alike_same_set h)).trans (alike_cleanWords hu t).symm
  · exact fun h => alike_words hu h

/-- **C50**: the fingerprint is empty exactly when no character stands for a letter or a digit. -/
theorem fingerprint_empty_iff {plain : Char → List Char} (hu : ByCharacter u plain) (s : List Char) :
    key u {} s = [] ↔ ∀ c ∈ s, ∀ d ∈ plain c, u.isSpace d = true := by
  have h0 : key u {} s = [] ↔ words u.isSpace (s.flatMap plain) = [] := by
    rw [← cleanWords_plain hu]
    constructor
    · intro h
      rw [List.eq_nil_iff_forall_not_mem]
      intro w hw
      rw [← words_key u hu.space, h, words_nil] at hw
      exact absurd hw (by simp)
    · exact fun h => key_of_none u _ h
  rw [h0]
  constructor
  · intro h c hc d hd
    by_contra hn
    have hmem : d ∈ s.flatMap plain := List.mem_flatMap.mpr ⟨c, hc, hd⟩
    have hnil : ∀ p ∈ pieces u.isSpace (s.flatMap plain), p = [] := by
      intro p hp
      by_contra hne
      have : p ∈ words u.isSpace (s.flatMap plain) := List.mem_filter.mpr ⟨hp, by simpa using hne⟩
      rw [h] at this
      exact absurd this (by simp)
    have hj := intercalate_pieces u.isSpace (s.flatMap plain)
    have hsp : ∀ (ps : List (List Char)), (∀ p ∈ ps, p = []) → ∀ x ∈ [' '].intercalate ps, x = ' ' := by
      intro ps
      induction ps with
      | nil => simp
      | cons p ps ih =>
          intro hps x hx
          cases ps with
          | nil => rw [hps p (by simp)] at hx; simp at hx
          | cons p' ps =>
              rw [List.intercalate_cons_cons, hps p (by simp)] at hx
              simp only [List.nil_append, List.singleton_append, List.mem_cons] at hx
              rcases hx with hx | hx
              · exact hx
              · exact ih (fun q hq => hps q (by simp [hq])) x hx
    have hd' : d ∈ [' '].intercalate (pieces u.isSpace (s.flatMap plain)) := by
      rw [hj, List.mem_map]
      exact ⟨d, hmem, by simp [hn]⟩
    have := hsp _ hnil d hd'
    rw [this] at hn
    exact hn hu.space
  · intro h
    have := words_all_space u.isSpace (s := s.flatMap plain) (by
      intro d hd
      obtain ⟨c, hc, hd⟩ := List.mem_flatMap.mp hd
      exact h c hc d hd) []
    simpa [words_nil] using this

/-- What is kept of an ASCII character, or of a superscript two. -/
def asciiPlain (c : Char) : List Char := [if c.toLower = '²' then '2' else c.toLower].filter (allowed ascii)

theorem white_table : ∀ c : Char, c.isWhitespace = true → c.toLower = c ∧ c ≠ '²' := by
  intro c h
  have key : ∀ n : Fin 128, (Char.ofNat n.val).isWhitespace = true → (Char.ofNat n.val).toLower = Char.ofNat n.val ∧ Char.ofNat n.val ≠ '²' := by
    decide +kernel
  have hlt : c.toNat < 128 := by
    simp only [Char.isWhitespace, Bool.or_eq_true, beq_iff_eq, decide_eq_true_eq] at h
    rcases h with ((h | h) | h) | h <;> subst h <;> decide
  have := key ⟨c.toNat, hlt⟩ (by simpa [Char.ofNat_toNat] using h)
  simpa [Char.ofNat_toNat] using this

theorem ascii_byCharacter : ByCharacter ascii asciiPlain := by
  refine ⟨rfl, ?_, ?_, by decide⟩
  · intro s
    change ((s.map Char.toLower).map fun c => if c = '²' then '2' else c).filter (allowed ascii) = _
    induction s with
    | nil => rfl
    | cons c s ih =>
        rw [List.map_cons, List.map_cons, List.flatMap_cons, ← ih, asciiPlain, ← List.filter_append]
        rfl
  · intro c d hd
    have h := (List.mem_filter.mp hd).2
    unfold allowed at h
    rw [Bool.or_eq_true, decide_eq_true_eq] at h
    have h' : d.toLower = d ∧ d ≠ '²' := by
      rcases h with h | h
      · exact (simple_table d h).2.2
      · exact white_table d h
    unfold asciiPlain
    rw [h'.1, if_neg h'.2, List.filter_cons, if_pos]
    · rfl
    · exact (List.mem_filter.mp hd).2

example : Alike asciiPlain ascii.isSpace "Doe,  JOHN john".toList "John Doe".toList := by
  refine (fingerprint_alike_iff ascii_byCharacter _ _).mp ?_
  refine (fingerprint_same_iff ascii rfl _ _ _).mpr ?_
  have h1 : cleanWords ascii {} "Doe,  JOHN john".toList = ["doe".toList, "john".toList, "john".toList] := by decide +kernel
  have h2 : cleanWords ascii {} "John Doe".toList = ["john".toList, "doe".toList] := by decide +kernel
  intro w
  rw [h1, h2]
  simp [or_comm]

example : ¬ Alike asciiPlain ascii.isSpace "John Doe".toList "John Do".toList := by
  intro h
  have h := alike_words ascii_byCharacter h "doe".toList
  revert h
  decide +kernel

example : key ascii {} "?! ".toList = [] := by
  refine (fingerprint_empty_iff ascii_byCharacter _).mpr ?_
  decide +kernel

/-- ASCII with a Chinese character, transliterated as `unidecode` does: with a capital letter and a space. -/
def chinese : Unicode := { ascii with unidecode := fun s => s.flatMap fun c => if c = '北' then "Bei ".toList else [c] }

/-- **C50**: the case is normalised before the transliteration, so that a capital letter made by the latter is dropped as punctuation: the
fingerprint of a text may differ from the one of its transliteration. -/
theorem fingerprint_capital_dropped : chinese.unidecode "北".toList = "Bei ".toList ∧ key chinese {} "北".toList = "ei".toList ∧
    key chinese {} "Bei ".toList = "bei".toList :=
  ⟨by decide +kernel, key_of_one chinese _ (by decide +kernel), key_of_one chinese _ (by decide +kernel)⟩

end Fog.Props
