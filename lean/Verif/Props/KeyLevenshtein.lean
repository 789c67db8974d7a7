import Verif.Lemmas.KeyLevenshtein
import Verif.Lemmas.Blocks
import Verif.Props.Levenshtein

/-!
# C05-C10: Levenshtein keys and blocks
-/

namespace Fog.Props

open Fog.Spec Fog.KeyLevenshtein

variable {α : Type _} [DecidableEq α]

/-! ### C05 -/

/-- C05. Two strings sharing a key are at distance at most one. -/
theorem levenshtein_1d_keys_sound (flag : α) (A B : List α) (hA : flag ∉ A) (hB : flag ∉ B) (k : List α)
    (h1 : k ∈ levenshtein1dKeys false flag A) (h2 : k ∈ levenshtein1dKeys false flag B) : WithinEdits 1 A B := by
  unfold WithinEdits
  rw [Levenshtein.chain_one_iff]
  have := (share_iff false flag A B hA hB).mp ⟨k, h1, h2⟩
  rcases this with h | ⟨u, c, d, v, rfl, rfl⟩ | ⟨u, c, v, rfl, rfl, _⟩ | ⟨u, c, v, rfl, rfl, _⟩ | ⟨h, _⟩
  · exact Or.inl h
  · exact Or.inr (.subst u v c d)
  · exact Or.inr (.insert u v c)
  · exact Or.inr (.delete u v c)
  · cases h

/-- The hypotheses are met by "abc" and "abbc" with the flag 0. -/
example : 0 ∉ cps "abc" ∧ 0 ∉ cps "abdc" ∧ cps "ab\x00c" ∈ levenshtein1dKeys false 0 (cps "abc") ∧
    cps "ab\x00c" ∈ levenshtein1dKeys false 0 (cps "abdc") := by decide

/-! ### C06 -/

/-- C06 is false of the code: "aa" and "aba" are one edit apart and share no key. -/
theorem levenshtein_1d_keys_is_not_complete :
    ¬ ∀ (flag : Nat) (A B : List Nat), WithinEdits 1 A B →
      ∃ k, k ∈ levenshtein1dKeys false flag A ∧ k ∈ levenshtein1dKeys false flag B := by
  intro h
  have h1 := h 0 (cps "aa") (cps "aba") ⟨1, Nat.le_refl 1, .cons (.insert (cps "a") (cps "a") 98) (.nil _)⟩
  revert h1
  have : (levenshtein1dKeys false 0 (cps "aa")).all (fun k => ! (levenshtein1dKeys false 0 (cps "aba")).contains k) := by
    decide
  rintro ⟨k, h2, h3⟩
  have h4 := List.all_eq_true.mp this k h2
  simp at h4
  exact h4 h3

/-- C06, what holds: the collisions are exactly the equal strings, the replacements of a letter, and the additions of
a letter except those between two equal letters. The additions between two equal letters are what is missing. -/
theorem levenshtein_1d_keys_complete_partial (flag : α) (A B : List α) (hA : flag ∉ A) (hB : flag ∉ B) :
    (∃ k, k ∈ levenshtein1dKeys false flag A ∧ k ∈ levenshtein1dKeys false flag B) ↔
      A = B ∨ ReplacesLetter A B ∨ AddsLetter A B ∨ AddsLetter B A := by
  rw [share_iff false flag A B hA hB]
  simp

/-- C06, for words without doubled letters: no pair at distance at most one is missed. -/
theorem levenshtein_1d_keys_complete_undoubled_partial (flag : α) (A B : List α) (hA : flag ∉ A) (hB : flag ∉ B)
    (dA : ∀ u v, A = u ++ v → ¬ Doubled u v) (dB : ∀ u v, B = u ++ v → ¬ Doubled u v) (h : WithinEdits 1 A B) :
    ∃ k, k ∈ levenshtein1dKeys false flag A ∧ k ∈ levenshtein1dKeys false flag B := by
  rw [levenshtein_1d_keys_complete_partial flag A B hA hB]
  unfold WithinEdits at h
  rw [Levenshtein.chain_one_iff] at h
  rcases h with rfl | h
  · exact Or.inl rfl
  · cases h with
    | insert u v c => exact Or.inr (Or.inr (Or.inl ⟨u, c, v, rfl, rfl, dA u v rfl⟩))
    | delete u v c => exact Or.inr (Or.inr (Or.inr ⟨u, c, v, rfl, rfl, dB u v rfl⟩))
    | subst u v c d => exact Or.inr (Or.inl ⟨u, c, d, v, rfl, rfl⟩)

/-- A word without doubled letters. -/
example : ∀ u v, cps "abc" = u ++ v → ¬ Doubled u v := by
  rintro u v h ⟨x, h1, h2⟩
  rcases u with _ | ⟨a, _ | ⟨b, _ | ⟨c, _ | ⟨d, u⟩⟩⟩⟩ <;> simp [cps] at h h1
  · obtain ⟨rfl, rfl⟩ := h; simp at h2; omega
  · obtain ⟨rfl, rfl, rfl⟩ := h; simp at h2; omega
  · obtain ⟨rfl, rfl, rfl, rfl⟩ := h; simp at h2

/-! ### C07 -/

/-- C07 is false of the code: "bacd" and "abdc" are both one swap away from "abcd", so they share a key, but two swaps
are needed to go from one to the other. -/
theorem damerau_levenshtein_1d_keys_is_not_sound :
    ¬ ∀ (flag : Nat) (A B k : List Nat), flag ∉ A → flag ∉ B → k ∈ levenshtein1dKeys true flag A →
      k ∈ levenshtein1dKeys true flag B → WithinDEdits 1 A B := by
  intro h
  have h1 := h 0 (cps "bacd") (cps "abdc") (cps "abcd") (by decide) (by decide) (by decide) (by decide)
  rw [← damerau_levenshtein_distance_lte1_iff false _ _ (by simp) (by simp [cps])] at h1
  revert h1
  simp [cps, Levenshtein.damerauLevenshteinDistanceLte1, Levenshtein.lte1Ordered, Levenshtein.additionLoop,
    Levenshtein.transpositionLoop, Levenshtein.prefixLoop, Levenshtein.suffixLoop]

/-- C07 is false of the code in the other direction too: the addition between two equal letters is missed. -/
theorem damerau_levenshtein_1d_keys_is_not_complete :
    ¬ ∀ (flag : Nat) (A B : List Nat), flag ∉ A → flag ∉ B → WithinDEdits 1 A B →
      ∃ k, k ∈ levenshtein1dKeys true flag A ∧ k ∈ levenshtein1dKeys true flag B := by
  intro h
  have h1 := h 0 (cps "aa") (cps "aba") (by decide) (by decide)
    ⟨1, Nat.le_refl 1, .cons (.edit (.insert (cps "a") (cps "a") 98)) (.nil _)⟩
  have : (levenshtein1dKeys true 0 (cps "aa")).all (fun k => ! (levenshtein1dKeys true 0 (cps "aba")).contains k) := by
    decide
  obtain ⟨k, h2, h3⟩ := h1
  have h4 := List.all_eq_true.mp this k h2
  simp at h4
  exact h4 h3

/-- C07, what holds: the exact set of colliding pairs. Beyond C06 they are the swaps, and the pairs which are both one
swap away from a third string. -/
theorem damerau_levenshtein_1d_keys_collide_partial (flag : α) (A B : List α) (hA : flag ∉ A) (hB : flag ∉ B) :
    (∃ k, k ∈ levenshtein1dKeys true flag A ∧ k ∈ levenshtein1dKeys true flag B) ↔
      A = B ∨ ReplacesLetter A B ∨ AddsLetter A B ∨ AddsLetter B A ∨ SwapsLetters A B ∨
        ∃ C, SwapsLetters A C ∧ SwapsLetters B C := by
  rw [share_iff true flag A B hA hB]
  simp

/-- C07, what holds of soundness: two strings sharing a key are at most two Damerau edits apart. -/
theorem damerau_levenshtein_1d_keys_sound_partial (flag : α) (A B : List α) (hA : flag ∉ A) (hB : flag ∉ B)
    (k : List α) (h1 : k ∈ levenshtein1dKeys true flag A) (h2 : k ∈ levenshtein1dKeys true flag B) :
    WithinDEdits 2 A B := by
  have := (share_iff true flag A B hA hB).mp ⟨k, h1, h2⟩
  rcases this with rfl | ⟨u, c, d, v, rfl, rfl⟩ | ⟨u, c, v, rfl, rfl, _⟩ | ⟨u, c, v, rfl, rfl, _⟩ |
    ⟨_, ⟨u, c, d, v, _, rfl, rfl⟩ | ⟨k, ⟨u, c, d, v, _, rfl, rfl⟩, ⟨u', c', d', v', _, rfl, h⟩⟩⟩
  · exact ⟨0, by omega, .nil _⟩
  · exact ⟨1, by omega, .cons (.edit (.subst u v c d)) (.nil _)⟩
  · exact ⟨1, by omega, .cons (.edit (.insert u v c)) (.nil _)⟩
  · exact ⟨1, by omega, .cons (.edit (.delete u v c)) (.nil _)⟩
  · exact ⟨1, by omega, .cons (.swap u v c d) (.nil _)⟩
  · refine ⟨2, by omega, .cons (.swap u v c d) ?_⟩
    rw [h]
    exact .cons (.swap u' v' d' c') (.nil _)

example : 0 ∉ cps "abc" ∧ 0 ∉ cps "acb" ∧ cps "abc" ∈ levenshtein1dKeys true 0 (cps "abc") ∧
    cps "abc" ∈ levenshtein1dKeys true 0 (cps "acb") := by decide

/-! ### C08 -/

omit [DecidableEq α] in
/-- C08. Strings at distance at most one share a block, whatever the flag. -/
theorem levenshtein_1d_blocks_complete (flag : α) (A B : List α) (h : WithinEdits 1 A B) :
    ∃ k, k ∈ levenshtein1dBlocks false flag A ∧ k ∈ levenshtein1dBlocks false flag B := by
  unfold WithinEdits at h
  rw [Levenshtein.chain_one_iff] at h
  rcases h with rfl | h
  · exact share_self false flag A
  · exact share_edit false flag h

example : WithinEdits 1 (cps "abcde") (cps "abxcde") :=
  ⟨1, Nat.le_refl 1, .cons (.insert (cps "ab") (cps "cde") 120) (.nil _)⟩

/-! ### C09 -/

omit [DecidableEq α] in
/-- C09. Strings at Damerau distance at most one share a block, whatever the flag. -/
theorem damerau_levenshtein_1d_blocks_complete (flag : α) (A B : List α) (h : WithinDEdits 1 A B) :
    ∃ k, k ∈ levenshtein1dBlocks true flag A ∧ k ∈ levenshtein1dBlocks true flag B := by
  unfold WithinDEdits at h
  rw [Levenshtein.chain_one_iff] at h
  rcases h with rfl | h
  · exact share_self true flag A
  · cases h with
    | edit h => exact share_edit true flag h
    | swap u v c d => exact share_swap flag u v c d

example : WithinDEdits 1 (cps "abcd") (cps "acbd") :=
  ⟨1, Nat.le_refl 1, .cons (.swap (cps "a") (cps "d") 98 99) (.nil _)⟩

/-! ### C10 -/

/-- C10 is false of the code: "abcdef" and "xabcde" are two edits apart and share no block. -/
theorem levenshtein_2d_blocks_is_not_complete :
    ¬ ∀ (A B : List Nat) (x y : List (List Nat)), WithinEdits 2 A B → levenshtein2dBlocks false 0 1 2 A = .ok x →
      levenshtein2dBlocks false 0 1 2 B = .ok y → ∃ k, k ∈ x ∧ k ∈ y := by
  intro h
  have h1 := h (cps "abcdef") (cps "xabcde") _ _
    ⟨2, Nat.le_refl 2, .cons (.insert [] (cps "abcdef") 120) (.cons (.delete (cps "xabcde") [] 102) (.nil _))⟩ rfl rfl
  revert h1
  decide

/-- C10 is false of the code: `damerau_levenshtein_2d_blocks("")` raises an `IndexError`. -/
theorem damerau_levenshtein_2d_blocks_raises : levenshtein2dBlocks true 0 1 2 ([] : List Nat) = .error .indexError := by
  rfl

/-- C10, Damerau variant: two swaps are missed ("abcd", "badc"). -/
theorem damerau_levenshtein_2d_blocks_is_not_complete :
    ¬ ∀ (A B : List Nat) (x y : List (List Nat)), WithinDEdits 2 A B → levenshtein2dBlocks true 0 1 2 A = .ok x →
      levenshtein2dBlocks true 0 1 2 B = .ok y → ∃ k, k ∈ x ∧ k ∈ y := by
  intro h
  have h1 := h (cps "abcd") (cps "badc") _ _
    ⟨2, Nat.le_refl 2, .cons (.swap [] (cps "cd") 97 98) (.cons (.swap (cps "ba") [] 99 100) (.nil _))⟩ rfl rfl
  revert h1
  decide

omit [DecidableEq α] in
/-- C10, what holds: a block is shared by all strings within two edits, except possibly two strings of the same length
when this length is a multiple of three. Holds with and without transpositions. -/
theorem levenshtein_2d_blocks_complete_partial (t : Bool) (f1 f2 f3 : α) (A B : List α) (x y : List (List α))
    (h : WithinEdits 2 A B) (hex : A.length ≠ B.length ∨ A.length % 3 ≠ 0)
    (hx : levenshtein2dBlocks t f1 f2 f3 A = .ok x) (hy : levenshtein2dBlocks t f1 f2 f3 B = .ok y) :
    ∃ k, k ∈ x ∧ k ∈ y := by
  obtain ⟨m, hm, h⟩ := withinEdits_iff.mp h
  rcases Nat.le_total A.length B.length with hl | hl
  · obtain ⟨f, E, p⟩ := h.path
    exact (common_of_path p hm hl hex).share hx hy
  · obtain ⟨f, E, p⟩ := h.symm.path
    exact (common_of_path p hm hl (by omega)).symm.share hx hy

omit [DecidableEq α] in
/-- C10, what holds of the lengths left out above: two strings of any same length which differ in at most two places
share a block. -/
theorem levenshtein_2d_blocks_substitutions_partial (t : Bool) (f1 f2 f3 : α) (A B : List α) (x y : List (List α))
    (h : Differ 2 A B) (hx : levenshtein2dBlocks t f1 f2 f3 A = .ok x)
    (hy : levenshtein2dBlocks t f1 f2 f3 B = .ok y) : ∃ k, k ∈ x ∧ k ∈ y :=
  (common_of_differ h).share hx hy

omit [DecidableEq α] in
/-- C10, what holds of exceptions: only the empty string with transpositions raises. -/
theorem levenshtein_2d_blocks_returns_partial (t : Bool) (f1 f2 f3 : α) (A : List α) (h : t = false ∨ A ≠ []) :
    ∃ x, levenshtein2dBlocks t f1 f2 f3 A = .ok x := by
  unfold levenshtein2dBlocks
  have h3 : A.length % 3 = 0 ∨ A.length % 3 = 1 ∨ A.length % 3 = 2 := by omega
  rcases h3 with h0 | h0 | h0
  · rcases h with rfl | h
    · simp [h0]
    · have hl : A.length ≠ 0 := by simpa using h
      cases t
      · simp [h0]
      · simp only [h0, if_true]
        rw [List.getElem?_eq_getElem (show A.length / 3 < A.length by omega),
          List.getElem?_eq_getElem (show A.length / 3 - 1 < A.length by omega),
          List.getElem?_eq_getElem (show A.length / 3 * 2 - 1 < A.length by omega)]
        exact ⟨_, rfl⟩
  · simp [h0]
  · simp [h0]

/-- "abcd" and "xabce" meet the hypotheses of the partial theorem: an insertion and a substitution. -/
example : WithinEdits 2 (cps "abcd") (cps "xabce") ∧
    ((cps "abcd").length ≠ (cps "xabce").length ∨ (cps "abcd").length % 3 ≠ 0) :=
  ⟨⟨2, Nat.le_refl 2, .cons (.insert [] (cps "abcd") 120) (.cons (.subst (cps "xabc") [] 100 101) (.nil _))⟩,
    by decide⟩

end Fog.Props
