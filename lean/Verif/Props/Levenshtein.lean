import Verif.Lemmas.LimitedLevenshtein
import Verif.Lemmas.Lte1

/-!
# Properties C01 to C04: edit distances of `cfog/metrics/levenshtein.pyx`
-/

namespace Fog.Props
open Fog Spec Levenshtein

/-- The code points of a Lean string, to write examples. -/
def cps (s : String) : List Nat := s.toList.map Char.toNat

/-! ## C01 -/

/-- **C01 is false**: `levenshtein_distance("aa", "ab")` is 0. -/
theorem levenshtein_distance_is_not_edit_distance :
    ¬ ∀ A B : List Nat, IsEditDistance A B (levenshteinDistance A B) := by
  intro h
  have h1 := (isEditDistance_iff.mp (h (cps "aa") (cps "ab")))
  revert h1
  simp [cps, levenshteinDistance, levenshteinOrdered, suffixLoop, prefixLoop, lev_cons_cons]

/-- **C01 is false** in a second way: characters are compared modulo 65536, so two different strings without a common
character can be at distance 0. -/
theorem levenshtein_distance_collides_beyond_16_bits :
    ∃ A B : List Nat, A ≠ B ∧ (∀ c ∈ A, c ≤ 0x10FFFF) ∧ (∀ c ∈ B, c ≤ 0x10FFFF) ∧ levenshteinDistance A B = 0 := by
  refine ⟨[0x1F600, 0x1F601], [0xF600, 0xF601], by decide, by decide, by decide, ?_⟩
  simp [levenshteinDistance, levenshteinOrdered, suffixLoop, prefixLoop, outerLoop, rowLoop, cell, ushort,
    List.range_succ]

theorem lev_single (c : Nat) (b : List Nat) (hb : b ≠ []) :
    lev [c] b = if c ∈ b then b.length - 1 else b.length := by
  induction b with
  | nil => exact absurd rfl hb
  | cons y b ih =>
      by_cases hcy : c = y
      · subst hcy
        rw [lev_cons_same]; simp
      · rw [lev_cons_ne hcy]
        cases b with
        | nil => simp [hcy]
        | cons z b =>
            have := ih (by simp)
            rw [this]
            by_cases hm : c ∈ z :: b
            · have hm' : c ∈ y :: z :: b := List.mem_cons_of_mem _ hm
              simp only [hm, hm', if_true, lev_nil_left, List.length_cons]; omega
            · have hm' : c ∉ y :: z :: b := by
                intro h; cases h with
                | head => exact hcy rfl
                | tail _ h => exact hm h
              simp only [hm, hm', if_false, lev_nil_left, List.length_cons]; omega

/-- `B` is `A` where one character `c`, which also occurs elsewhere in `A`, was replaced by a text without `c`. -/
def ReplacesRepeated (A B : List Nat) : Prop :=
  ∃ p s x c, A = p ++ [c] ++ s ∧ B = p ++ x ++ s ∧ c ∈ p ++ s ∧ c ∉ x

theorem levenshteinOrdered_exact (A B : List Nat) (hle : A.length ≤ B.length)
    (hA : ∀ c ∈ A, c < 65536) (hB : ∀ c ∈ B, c < 65536) (hne : A ≠ B) :
    (¬ ReplacesRepeated A B → levenshteinOrdered A B = lev A B) ∧
      levenshteinOrdered A B ≤ lev A B ∧ lev A B ≤ levenshteinOrdered A B + 1 := by
  obtain ⟨p, a, b, s, rfl, rfl, hh, hl⟩ := exists_trim A B
  have hle' : a.length ≤ b.length := by simp at hle; omega
  rw [levenshteinOrdered_trim p a b s hle' hh hl, lev_append_right, lev_append_left,
    map_ushort_of_lt fun c hc => hA c (by simp [hc]), map_ushort_of_lt fun c hc => hB c (by simp [hc])]
  by_cases h1 : a.length = 1
  · obtain ⟨c, rfl⟩ := List.length_eq_one_iff.mp h1
    have hb : b ≠ [] := by rintro rfl; simp at hle'
    have hbl : 0 < b.length := List.length_pos_iff.mpr hb
    rw [lev_single c b hb]
    simp only [List.length_singleton, if_true, List.any_cons, List.any_nil, Bool.or_false, List.contains_iff_mem]
    constructor
    · intro hr
      by_cases hc : c ∈ b
      · simp [hc]
      · by_cases hc' : c ∈ p ++ s
        · exact absurd ⟨p, s, b, c, rfl, rfl, hc', hc⟩ hr
        · have : c ∉ p ++ b ++ s := by
            simp only [List.mem_append] at hc' ⊢
            rintro ((h | h) | h)
            · exact hc' (.inl h)
            · exact hc h
            · exact hc' (.inr h)
          simp only [hc, this, if_false]
    · by_cases hc : c ∈ b
      · have : c ∈ p ++ b ++ s := by simp [hc]
        simp only [hc, this, if_true]; omega
      · simp only [hc, if_false]
        split <;> omega
  · simp only [h1, if_false]
    exact ⟨fun _ => trivial, by omega, by omega⟩

/-- **C01, partial**: on characters below 65536, `levenshtein_distance` is the edit distance, unless one string is the
other where one character that also occurs elsewhere was replaced by a text without it. -/
theorem levenshtein_distance_exact_partial (A B : List Nat) (hA : ∀ c ∈ A, c < 65536) (hB : ∀ c ∈ B, c < 65536)
    (h1 : ¬ ReplacesRepeated A B) (h2 : ¬ ReplacesRepeated B A) :
    IsEditDistance A B (levenshteinDistance A B) := by
  rw [isEditDistance_iff]
  unfold levenshteinDistance
  by_cases he : A = B
  · subst he; simp [lev_self]
  · simp only [he, if_false]
    split
    · rw [(levenshteinOrdered_exact B A (by omega) hB hA (fun h => he h.symm)).1 h2, lev_comm]
    · rw [(levenshteinOrdered_exact A B (by omega) hA hB he).1 h1]

/-- **C01, partial**: on characters below 65536, `levenshtein_distance` is never above the edit distance and at most one
below it. -/
theorem levenshtein_distance_within_one_partial (A B : List Nat) (hA : ∀ c ∈ A, c < 65536)
    (hB : ∀ c ∈ B, c < 65536) :
    ∃ d, IsEditDistance A B d ∧ levenshteinDistance A B ≤ d ∧ d ≤ levenshteinDistance A B + 1 := by
  refine ⟨lev A B, isEditDistance_lev A B, ?_⟩
  unfold levenshteinDistance
  by_cases he : A = B
  · subst he; simp [lev_self]
  · simp only [he, if_false]
    split
    · rw [lev_comm]
      exact (levenshteinOrdered_exact B A (by omega) hB hA (fun h => he h.symm)).2
    · exact (levenshteinOrdered_exact A B (by omega) hA hB he).2

theorem replacesRepeated_trim {p s x : List Nat} {c : Nat} (hx : c ∉ x) :
    NoCommonHead [c] x ∧ (x ≠ [] → NoCommonLast (p ++ [c]) (p ++ x)) := by
  refine ⟨fun y hy h => ?_, fun hne y hy h => ?_⟩
  · obtain rfl : c = y := by simpa using hy
    exact hx (List.mem_of_mem_head? h)
  · obtain rfl : c = y := by simpa using hy
    rw [List.getLast?_append] at h
    cases hg : x.getLast? with
    | none => exact hne (List.getLast?_eq_none_iff.mp hg)
    | some z =>
        rw [hg] at h
        obtain rfl : z = c := by simpa using h
        exact hx (List.mem_of_getLast? hg)

theorem levenshteinOrdered_error (A B : List Nat) (hle : A.length ≤ B.length)
    (hA : ∀ c ∈ A, c < 65536) (hB : ∀ c ∈ B, c < 65536) (hne : A ≠ B) (h : ReplacesRepeated A B) :
    lev A B = levenshteinOrdered A B + 1 := by
  obtain ⟨p, s, x, c, rfl, rfl, hc, hx⟩ := h
  have hxne : x ≠ [] := by
    rintro rfl
    simp at hle
    omega
  have hpos : 0 < x.length := List.length_pos_iff.mpr hxne
  obtain ⟨h1, h2⟩ := replacesRepeated_trim (p := p) (s := s) hx
  rw [levenshteinOrdered_trim p [c] x s hpos h1 (h2 hxne), lev_append_right, lev_append_left, lev_single c x hxne,
    if_neg hx, if_pos (List.length_singleton), if_pos]
  · omega
  · simp only [List.mem_append] at hc
    simp only [List.any_cons, List.any_nil, Bool.or_false, List.contains_iff_mem, List.mem_append]
    exact hc.elim (fun h => Or.inl (Or.inl h)) Or.inr

open Classical in
/-- **C01, partial**: on characters below 65536, `levenshtein_distance` is exactly the edit distance, less one when the shorter string (the
first one, when the lengths are equal) becomes the other one by replacing a character, which also occurs elsewhere in it, by a text without
it. -/
theorem levenshtein_distance_error_partial (A B : List Nat) (hA : ∀ c ∈ A, c < 65536) (hB : ∀ c ∈ B, c < 65536) :
    IsEditDistance A B (levenshteinDistance A B +
      if (A.length ≤ B.length ∧ ReplacesRepeated A B) ∨ (B.length < A.length ∧ ReplacesRepeated B A) then 1 else 0) := by
  rw [isEditDistance_iff]
  unfold levenshteinDistance
  by_cases he : A = B
  · subst he
    have : ¬ ReplacesRepeated A A := by
      rintro ⟨p, s, x, c, h1, h2, _, h4⟩
      rw [h2] at h1
      have h1 : x ++ s = [c] ++ s := by simpa using h1
      exact h4 (by simp [List.append_cancel_right h1])
    simp [lev_self, this]
  · simp only [he, if_false]
    split
    · next hlt =>
        by_cases hr : ReplacesRepeated B A
        · rw [if_pos (Or.inr ⟨hlt, hr⟩), lev_comm, levenshteinOrdered_error B A (by omega) hB hA (fun h => he h.symm) hr]
        · rw [if_neg (by rintro (⟨h, _⟩ | ⟨_, h⟩); omega; exact hr h), Nat.add_zero,
            (levenshteinOrdered_exact B A (by omega) hB hA (fun h => he h.symm)).1 hr, lev_comm]
    · next hlt =>
        by_cases hr : ReplacesRepeated A B
        · rw [if_pos (Or.inl ⟨by omega, hr⟩), levenshteinOrdered_error A B (by omega) hA hB he hr]
        · rw [if_neg (by rintro (⟨_, h⟩ | ⟨h, _⟩); exact hr h; omega), Nat.add_zero,
            (levenshteinOrdered_exact A B (by omega) hA hB he).1 hr]

/-- **C01, partial**: on any strings, once their common suffix and prefix are removed, unless one of them is then a single character, the
distance is the one of the strings with their characters taken modulo 65536. -/
theorem levenshtein_distance_truncated_partial (p a b s : List Nat) (ha : a.length ≠ 1) (hb : b.length ≠ 1)
    (hh : ∀ x, a.head? = some x → b.head? ≠ some x) (hl : ∀ x, (p ++ a).getLast? = some x → (p ++ b).getLast? ≠ some x) :
    IsEditDistance (a.map (· % 65536)) (b.map (· % 65536)) (levenshteinDistance (p ++ a ++ s) (p ++ b ++ s)) := by
  rw [isEditDistance_iff]
  unfold levenshteinDistance
  by_cases he : a = b
  · subst he
    simp [lev_self]
  rw [if_neg (by simpa using he)]
  split
  · next h =>
      rw [levenshteinOrdered_trim p b a s (by simp at h; omega) (fun x h1 h2 => hh x h2 h1) (fun x h1 h2 => hl x h2 h1), if_neg hb,
        lev_comm]
      rfl
  · next h =>
      rw [levenshteinOrdered_trim p a b s (by simp at h; omega) hh hl, if_neg ha]
      rfl

-- A string where the shortcut is wrong, and two strings of other characters.
example : ReplacesRepeated (cps "aa") (cps "ab") ∧ lev ((cps "😀a").map (· % 65536)) ((cps "bc").map (· % 65536)) = 2 := by
  refine ⟨⟨cps "a", [], cps "b", 97, by decide, by decide, by decide, by decide⟩, by simp [cps, lev_cons_cons]⟩

/-- Non-trivial strings meet the hypotheses of the partial theorems. -/
example : (∀ c ∈ cps "kitten", c < 65536) ∧ (∀ c ∈ cps "sitting", c < 65536) ∧
    ¬ ReplacesRepeated (cps "ab") (cps "cd") ∧ levenshteinDistance (cps "kitten") (cps "sitting") = 3 := by
  refine ⟨by decide, by decide, ?_, by
    simp [cps, levenshteinDistance, levenshteinOrdered, suffixLoop, prefixLoop, outerLoop, rowLoop, cell, ushort,
      List.range_succ]⟩
  rintro ⟨p, s, x, c, h1, h2, h3, h4⟩
  have hl := congrArg List.length h1
  simp [cps] at hl
  have hps : (p.length = 1 ∧ s.length = 0) ∨ (p.length = 0 ∧ s.length = 1) := by omega
  rcases hps with ⟨hp, hs⟩ | ⟨hp, hs⟩
  · obtain ⟨d, rfl⟩ := List.length_eq_one_iff.mp hp
    obtain rfl := List.length_eq_zero_iff.mp hs
    simp [cps] at h1 h2
    omega
  · obtain ⟨d, rfl⟩ := List.length_eq_one_iff.mp hs
    obtain rfl := List.length_eq_zero_iff.mp hp
    simp [cps] at h1 h2 h3
    omega

/-! ## C02 -/

/-- **C02 is false** beyond 16 bits: a character above 65535 is not found equal to itself. -/
theorem limited_levenshtein_distance_is_not_exact :
    ¬ ∀ (max : Nat) (A B : List Nat) (d : Nat), IsEditDistance A B d → d ≤ max →
      limitedLevenshteinDistance max A B = d := by
  intro h
  have h1 := h 2 (cps "a😀b") (cps "c😀d") 2 (isEditDistance_iff.mpr (by simp [cps, lev_cons_cons])) (by omega)
  revert h1
  simp [cps, limitedLevenshteinDistance, limitedOrdered, suffixLoop, prefixLoop, limitedLoop, bandLoop, cell, ushort,
    List.range_succ]

/-- **C02, partial**: when the characters of the longer string (of the second one, when the lengths are equal) are below 65536, on strings
shorter than 2^32, `limited_levenshtein_distance` returns the edit distance when it is at most `max`, and `max + 1` otherwise. -/
theorem limited_levenshtein_distance_partial (max : Nat) (A B : List Nat) (hmax : max + 1 < 2 ^ 32)
    (hA : B.length < A.length → ∀ c ∈ A, c < 65536) (hB : A.length ≤ B.length → ∀ c ∈ B, c < 65536)
    (hAl : A.length < 2 ^ 32) (hBl : B.length < 2 ^ 32) (d : Nat) (hd : IsEditDistance A B d) :
    limitedLevenshteinDistance max A B = if d ≤ max then d else max + 1 := by
  rw [isEditDistance_iff] at hd
  subst hd
  have hub : (max + 1) % 2 ^ 32 = max + 1 := Nat.mod_eq_of_lt hmax
  unfold limitedLevenshteinDistance
  by_cases he : A = B
  · subst he; simp [lev_self]
  · simp only [he, if_false]
    split
    · next h => rw [limitedOrdered_spec max B A (by omega) (hA h) hAl, lev_comm, hub]
    · next h => rw [limitedOrdered_spec max A B (by omega) (hB (by omega)) hBl, hub]

/-- **C02, partial**: on any strings, once their common suffix and prefix are removed, the distance is the one to the longer string with its
characters taken modulo 65536, when its first character is then still another one. -/
theorem limited_levenshtein_distance_truncated_partial (max : Nat) (p a b s : List Nat) (hmax : max + 1 < 2 ^ 32)
    (hle : a.length ≤ b.length) (hne : a ≠ b) (hh : ∀ x, a.head? = some x → b.head? ≠ some x)
    (hl : ∀ x, (p ++ a).getLast? = some x → (p ++ b).getLast? ≠ some x)
    (hu : ∀ x, a.head? = some x → (b.map (· % 65536)).head? ≠ some x) (hblen : b.length < 2 ^ 32)
    (d : Nat) (hd : IsEditDistance a (b.map (· % 65536)) d) :
    limitedLevenshteinDistance max (p ++ a ++ s) (p ++ b ++ s) = if d ≤ max then d else max + 1 := by
  rw [isEditDistance_iff] at hd
  subst hd
  unfold limitedLevenshteinDistance
  rw [if_neg (by simpa using hne), if_neg (by simp; omega), limitedOrdered_trim max p a b s hle hh hl hu hblen,
    Nat.mod_eq_of_lt hmax]
  rfl

-- An emoji, in the longer string only: it is read as another character, which is not in the shorter string either.
example : (limitedLevenshteinDistance 3 (cps "ab") (cps "c😀d")) = 3 ∧ lev (cps "ab") ((cps "c😀d").map (· % 65536)) = 3 := by
  simp [cps, limitedLevenshteinDistance, limitedOrdered, suffixLoop, prefixLoop, limitedLoop, bandLoop, cell, ushort,
    List.range_succ, lev_cons_cons]

example : ∃ (max : Nat) (A B : List Nat) (d : Nat), max + 1 < 2 ^ 32 ∧ (∀ c ∈ A, c < 65536) ∧ (∀ c ∈ B, c < 65536) ∧
    A.length < 2 ^ 32 ∧ B.length < 2 ^ 32 ∧ IsEditDistance A B d ∧ max < d ∧
    limitedLevenshteinDistance max A B = max + 1 := by
  refine ⟨2, cps "kitten", cps "sitting", 3, by decide, by decide, by decide, by decide, by decide,
    isEditDistance_iff.mpr (by simp [cps, lev_cons_cons]), by decide, ?_⟩
  simp [cps, limitedLevenshteinDistance, limitedOrdered, suffixLoop, prefixLoop, limitedLoop, bandLoop, cell, ushort,
    List.range_succ]

/-! ## C03 and C04 -/

section
variable {α : Type _} [DecidableEq α]

/-- **C03**: `levenshtein_distance_lte1` decides distance at most one.  `identical` is the outcome of `A is B`: identical
strings are equal, and there is a single empty string object in CPython. -/
theorem levenshtein_distance_lte1_iff (identical : Bool) (A B : List α) (h1 : identical = true → A = B)
    (h2 : A = [] → B = [] → identical = true) :
    levenshteinDistanceLte1 identical A B = true ↔ WithinEdits 1 A B := by
  unfold WithinEdits
  rw [chain_one_iff]
  unfold levenshteinDistanceLte1
  cases identical with
  | true => simp only [if_true, true_iff]; exact .inl (h1 rfl)
  | false =>
      simp only [Bool.false_eq_true, if_false]
      have hloop : ∀ a b : List α, a.length = b.length → (substitutionLoop a b false = true ↔ a = b ∨ Edit a b) := by
        intro a b hab
        rw [substitutionLoop_false a b hab, edit_cases]
        constructor
        · rintro (h | h)
          · exact .inl h
          · exact .inr (.inr (.inr h))
        · rintro (h | ⟨u, v, c, rfl, rfl⟩ | ⟨u, v, c, rfl, rfl⟩ | h)
          · exact .inl h
          · simp at hab
          · simp at hab
          · exact .inr h
      split
      · rw [lte1Ordered_iff substitutionLoop Edit (fun _ _ h => .inl h) (fun _ _ h _ => h) hloop B A (by omega)
          (fun h => Bool.false_ne_true (h2 h.2 h.1))]
        exact ⟨fun h => h.imp Eq.symm Edit.symm, fun h => h.imp Eq.symm Edit.symm⟩
      · exact lte1Ordered_iff substitutionLoop Edit (fun _ _ h => .inl h) (fun _ _ h _ => h) hloop A B (by omega)
          (fun h => Bool.false_ne_true (h2 h.1 h.2))

/-- **C04**: `damerau_levenshtein_distance_lte1` decides whether at most one edit or adjacent swap is needed. -/
theorem damerau_levenshtein_distance_lte1_iff (identical : Bool) (A B : List α) (h1 : identical = true → A = B)
    (h2 : A = [] → B = [] → identical = true) :
    damerauLevenshteinDistanceLte1 identical A B = true ↔ WithinDEdits 1 A B := by
  unfold WithinDEdits
  rw [chain_one_iff]
  unfold damerauLevenshteinDistanceLte1
  cases identical with
  | true => simp only [if_true, true_iff]; exact .inl (h1 rfl)
  | false =>
      simp only [Bool.false_eq_true, if_false]
      have hR : ∀ a b : List α, DEdit a b → Edit a b ∨ a.length = b.length := by
        rintro a b (h | ⟨u, v, c, d⟩)
        · exact .inl h
        · exact .inr (by simp)
      have hloop : ∀ a b : List α, a.length = b.length → (transpositionLoop a b false = true ↔ a = b ∨ DEdit a b) := by
        intro a b hab
        rw [transpositionLoop_false a b hab, dedit_cases, edit_cases]
        constructor
        · rintro (h | h | h)
          · exact .inl h
          · exact .inr (.inl (.inr (.inr h)))
          · exact .inr (.inr h)
        · rintro (h | (⟨u, v, c, rfl, rfl⟩ | ⟨u, v, c, rfl, rfl⟩ | h) | h)
          · exact .inl h
          · simp at hab
          · simp at hab
          · exact .inr (.inl h)
          · exact .inr (.inr h)
      split
      · rw [lte1Ordered_iff transpositionLoop DEdit hR (fun _ _ h _ => .edit h) hloop B A (by omega)
          (fun h => Bool.false_ne_true (h2 h.2 h.1))]
        exact ⟨fun h => h.imp Eq.symm DEdit.symm, fun h => h.imp Eq.symm DEdit.symm⟩
      · exact lte1Ordered_iff transpositionLoop DEdit hR (fun _ _ h _ => .edit h) hloop A B (by omega)
          (fun h => Bool.false_ne_true (h2 h.1 h.2))

end

/-- Both outcomes occur under the hypotheses of C03. -/
example : levenshteinDistanceLte1 false (cps "book") (cps "bok") = true ∧
    levenshteinDistanceLte1 false (cps "book") (cps "back") = false := by
  constructor <;> simp [cps, levenshteinDistanceLte1, lte1Ordered, additionLoop, substitutionLoop]

/-- Both outcomes occur under the hypotheses of C04. -/
example : damerauLevenshteinDistanceLte1 false (cps "abcd") (cps "acbd") = true ∧
    damerauLevenshteinDistanceLte1 false (cps "abcd") (cps "badc") = false := by
  constructor <;> simp [cps, damerauLevenshteinDistanceLte1, lte1Ordered, transpositionLoop]

end Fog.Props
