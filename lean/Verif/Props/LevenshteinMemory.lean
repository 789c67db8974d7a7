import Verif.Lemmas.LevenshteinMemory
import Verif.Spec.Memory
import Verif.Props.Levenshtein

/-!
# The memory and the numbers of the compiled distances

`LevenshteinMemory` follows the code with the numbers and the arrays of C, where every access may be a fault; `Levenshtein` has natural
numbers and lists.
-/

namespace Fog.Props

open Fog.Spec Fog.LevenshteinMemory

theorem held_freed {α : Type _} (h : List (Option α)) : held (h ++ [none, none]) = held h := by simp [held]

theorem held_kept {α : Type _} (h : List (Option α)) (x y : α) : held (h ++ [some x, some y]) = held h ++ [x, y] := by simp [held]

theorem len_toNat_le (A : List Nat) : (len A).toNat ≤ A.length := by
  rw [len, UInt32.toNat_ofNat']
  exact Nat.mod_le _ _

theorem len_toNat {A : List Nat} (h : A.length < 2 ^ 32) : (len A).toNat = A.length := by
  rw [len, UInt32.toNat_ofNat']
  exact Nat.mod_eq_of_lt h

/-! ## C104 -/

/-- **C104**: on any two strings, `levenshtein_distance` reads and writes inside of its strings and arrays only, reads no cell before it was
written, uses no array after it was given back, gives both arrays back, and its `unsigned int` hold the numbers meant: the value is the one
computed without a bound. -/
theorem levenshtein_distance_memory (A B : List Nat) (h : Heap) :
    ∃ h' v, LevenshteinMemory.levenshteinDistance A B h = .ok (h', v) ∧ h' <+: h ++ [none, none] ∧ held h' = held h ∧
      (A.length < 2 ^ 32 → B.length < 2 ^ 32 → v.toNat = Levenshtein.levenshteinDistance A B) := by
  unfold LevenshteinMemory.levenshteinDistance Levenshtein.levenshteinDistance
  by_cases he : A = B
  · rw [if_pos he, if_pos he]
    exact ⟨h, 0, rfl, List.prefix_append _ _, rfl, fun _ _ => rfl⟩
  rw [if_neg he, if_neg he]
  have close : ∀ h' : Heap, h' = h ∨ h' = h ++ [none, none] → h' <+: h ++ [none, none] ∧ held h' = held h := by
    rintro h' (rfl | rfl)
    · exact ⟨List.prefix_append _ _, rfl⟩
    · exact ⟨List.prefix_rfl, held_freed _⟩
  by_cases hl : len A > len B
  · rw [if_pos hl]
    have hl' := UInt32.lt_iff_toNat_lt.mp hl
    obtain ⟨h', v, e1, e2, e3⟩ := levenshteinOrdered_ok B A (len B) (len A) (len_toNat_le B) (len_toNat_le A) (by omega) h
    refine ⟨h', v, e1, (close h' e2).1, (close h' e2).2, ?_⟩
    intro hA hB
    have := len_toNat hA
    have := len_toNat hB
    rw [if_pos (by omega)]
    exact e3 (by omega) (by omega)
  · rw [if_neg hl]
    have hl' : ¬ (len B).toNat < (len A).toNat := fun hh => hl (UInt32.lt_iff_toNat_lt.mpr hh)
    obtain ⟨h', v, e1, e2, e3⟩ := levenshteinOrdered_ok A B (len A) (len B) (len_toNat_le A) (len_toNat_le B) (by omega) h
    refine ⟨h', v, e1, (close h' e2).1, (close h' e2).2, ?_⟩
    intro hA hB
    have := len_toNat hA
    have := len_toNat hB
    rw [if_neg (by omega)]
    exact e3 (by omega) (by omega)

/-- What both orders of the strings give. -/
theorem limited_memory_aux (max : UInt32) (A B : List Nat) (h : Heap) :
    ∃ h' v, LevenshteinMemory.limitedLevenshteinDistance max A B h = .ok (h', v) ∧
      (A.length < 2 ^ 32 → B.length < 2 ^ 32 → (∀ c ∈ A, c < 2 ^ 32) → (∀ c ∈ B, c < 2 ^ 32) →
        v.toNat = Levenshtein.limitedLevenshteinDistance max.toNat A B) ∧
      (((h' = h ∨ h' = h ++ [none, none]) ∧ (A.length < 2 ^ 32 → B.length < 2 ^ 32 →
          v ≤ max ∨ max.toNat < A.length - B.length ∨ max.toNat < B.length - A.length)) ∨
        ∃ cs vs : List (Option UInt32), h' = h ++ [some cs, some vs] ∧ (A.length < 2 ^ 32 → B.length < 2 ^ 32 →
          max < v ∧ A.length - B.length ≤ max.toNat ∧ B.length - A.length ≤ max.toNat ∧
          ∀ p a b s, A = p ++ a ++ s → B = p ++ b ++ s → Levenshtein.NoCommonHead a b → Levenshtein.NoCommonLast (p ++ a) (p ++ b) →
            cs.length = Nat.max a.length b.length ∧ vs.length = Nat.max a.length b.length)) := by
  have trimmed : ∀ p a b s : List Nat, a.length ≤ b.length → Levenshtein.NoCommonHead a b → Levenshtein.NoCommonLast (p ++ a) (p ++ b) →
      (Levenshtein.suffixLoop (p ++ a ++ s) (p ++ b ++ s) (p ++ a ++ s).length (p ++ b ++ s).length).2 -
        Levenshtein.prefixLoop (p ++ a ++ s) (p ++ b ++ s)
          (Levenshtein.suffixLoop (p ++ a ++ s) (p ++ b ++ s) (p ++ a ++ s).length (p ++ b ++ s).length).1 0 = b.length := by
    intro p a b s hle hh hl
    have h1 := Levenshtein.suffixLoop_append (p ++ a) (p ++ b) (by simp; omega) hl s []
    have h2 := Levenshtein.prefixLoop_append a b hh p s s hle []
    simp only [List.append_nil, List.nil_append, List.length_nil] at h1 h2
    rw [h1]
    simp only [h2]
    simp
  unfold LevenshteinMemory.limitedLevenshteinDistance Levenshtein.limitedLevenshteinDistance
  by_cases he : A = B
  · rw [if_pos he, if_pos he]
    exact ⟨h, 0, rfl, fun _ _ _ _ => rfl, Or.inl ⟨Or.inl rfl, fun _ _ => Or.inl (by rw [UInt32.le_iff_toNat_le]; simp)⟩⟩
  rw [if_neg he, if_neg he]
  by_cases hl : len A > len B
  · rw [if_pos hl]
    have hl' := UInt32.lt_iff_toNat_lt.mp hl
    obtain ⟨h', v, e1, e2, e3⟩ := limitedOrdered_ok max B A (len B) (len A) (len_toNat_le B) (len_toNat_le A) (by omega) h
    refine ⟨h', v, e1, ?_, ?_⟩
    · intro hA hB _ hB2
      have := len_toNat hA
      have := len_toNat hB
      rw [if_pos (by omega)]
      exact e2 (by omega) (by omega) hB2
    · rcases e3 with ⟨e3, e4⟩ | ⟨cs, vs, e3, e4, e5, e6, e7⟩
      · refine Or.inl ⟨e3, ?_⟩
        intro hA hB
        rw [len_toNat hA, len_toNat hB] at e4
        exact e4.imp id Or.inl
      · refine Or.inr ⟨cs, vs, e3, ?_⟩
        intro hA hB
        rw [len_toNat hA, len_toNat hB] at e5 e7 hl'
        refine ⟨e4, by omega, by omega, ?_⟩
        rintro p a b s rfl rfl hh hlast
        have hba : b.length ≤ a.length := by simp at hl'; omega
        have := trimmed p b a s hba (fun x hx hy => hh x hy hx) (fun x hx hy => hlast x hy hx)
        have e8 := e7 rfl rfl
        rw [this] at e8
        have : Nat.max a.length b.length = a.length := Nat.max_eq_left hba
        omega
  · rw [if_neg hl]
    have hl' : ¬ (len B).toNat < (len A).toNat := fun hh => hl (UInt32.lt_iff_toNat_lt.mpr hh)
    obtain ⟨h', v, e1, e2, e3⟩ := limitedOrdered_ok max A B (len A) (len B) (len_toNat_le A) (len_toNat_le B) (by omega) h
    refine ⟨h', v, e1, ?_, ?_⟩
    · intro hA hB hA2 _
      have := len_toNat hA
      have := len_toNat hB
      rw [if_neg (by omega)]
      exact e2 (by omega) (by omega) hA2
    · rcases e3 with ⟨e3, e4⟩ | ⟨cs, vs, e3, e4, e5, e6, e7⟩
      · refine Or.inl ⟨e3, ?_⟩
        intro hA hB
        rw [len_toNat hA, len_toNat hB] at e4
        exact e4.imp id Or.inr
      · refine Or.inr ⟨cs, vs, e3, ?_⟩
        intro hA hB
        rw [len_toNat hA, len_toNat hB] at e5 e7 hl'
        refine ⟨e4, by omega, by omega, ?_⟩
        rintro p a b s rfl rfl hh hlast
        have hba : a.length ≤ b.length := by simp at hl'; omega
        have := trimmed p a b s hba hh hlast
        have e8 := e7 rfl rfl
        rw [this] at e8
        have : Nat.max a.length b.length = b.length := Nat.max_eq_right hba
        omega

/-- **C104**: on any limit and any two strings, `limited_levenshtein_distance` reads and writes inside of its strings and arrays only, reads
no cell before it was written and uses no array after it was given back, and its `unsigned int` hold the numbers meant: the value is the one
computed without a bound. The arrays of others are left as they were. -/
theorem limited_levenshtein_distance_memory (max : UInt32) (A B : List Nat) (h : Heap) :
    ∃ h' v, LevenshteinMemory.limitedLevenshteinDistance max A B h = .ok (h', v) ∧ h <+: h' ∧
      (A.length < 2 ^ 32 → B.length < 2 ^ 32 → (∀ c ∈ A, c < 2 ^ 32) → (∀ c ∈ B, c < 2 ^ 32) →
        v.toNat = Levenshtein.limitedLevenshteinDistance max.toNat A B) := by
  obtain ⟨h', v, e1, e2, e3⟩ := limited_memory_aux max A B h
  refine ⟨h', v, e1, ?_, e2⟩
  rcases e3 with ⟨rfl | rfl, -⟩ | ⟨cs, vs, rfl, -⟩
  · exact List.prefix_rfl
  · exact List.prefix_append _ _
  · exact List.prefix_append _ _

-- `kitten` and `sitting`, when another array is held: the distance.
example : ∃ h' v, LevenshteinMemory.levenshteinDistance (cps "kitten") (cps "sitting") [some [some 7]] = .ok (h', v) ∧
    held h' = [[some 7]] ∧ v.toNat = 3 := by
  obtain ⟨h', v, e1, -, e2, e3⟩ := levenshtein_distance_memory (cps "kitten") (cps "sitting") [some [some 7]]
  refine ⟨h', v, e1, e2, ?_⟩
  rw [e3 (by simp [cps]) (by simp [cps])]
  simp [cps, Levenshtein.levenshteinDistance, Levenshtein.levenshteinOrdered, Levenshtein.suffixLoop, Levenshtein.prefixLoop,
    Levenshtein.outerLoop, Levenshtein.rowLoop, Levenshtein.cell, Levenshtein.ushort, List.range_succ]

-- The same strings with a limit of 5, and the limit above any distance.
example : ∃ h' v, LevenshteinMemory.limitedLevenshteinDistance 5 (cps "kitten") (cps "sitting") [] = .ok (h', v) ∧ v.toNat = 3 := by
  obtain ⟨h', v, e1, -, e3⟩ := limited_levenshtein_distance_memory 5 (cps "kitten") (cps "sitting") []
  refine ⟨h', v, e1, ?_⟩
  rw [e3 (by simp [cps]) (by simp [cps]) (by simp [cps]) (by simp [cps])]
  simp [cps, Levenshtein.limitedLevenshteinDistance, Levenshtein.limitedOrdered, Levenshtein.suffixLoop, Levenshtein.prefixLoop,
    Levenshtein.limitedLoop, Levenshtein.bandLoop, Levenshtein.cell, Levenshtein.ushort, List.range_succ]

/-- **C104**: the two predicates on a distance of one never read past the end of a string, and their `unsigned int` hold the numbers
meant: they give what the loops over the rest of the strings give. -/
theorem lte1_memory (identical : Bool) (A B : List Nat) (hA : A.length < 2 ^ 32) (hB : B.length < 2 ^ 32) :
    LevenshteinMemory.levenshteinDistanceLte1 identical A B = .ok (Levenshtein.levenshteinDistanceLte1 identical A B) ∧
      LevenshteinMemory.damerauLevenshteinDistanceLte1 identical A B =
        .ok (Levenshtein.damerauLevenshteinDistanceLte1 identical A B) := by
  have eA := len_toNat hA
  have eB := len_toNat hB
  have hgt : len A > len B ↔ A.length > B.length := by rw [gt_iff_lt, UInt32.lt_iff_toNat_lt, eA, eB]
  unfold LevenshteinMemory.levenshteinDistanceLte1 Levenshtein.levenshteinDistanceLte1
    LevenshteinMemory.damerauLevenshteinDistanceLte1 Levenshtein.damerauLevenshteinDistanceLte1
  simp only [hgt]
  have sub : ∀ X Y : List Nat, X.length < 2 ^ 32 → X.length = Y.length →
      substitutionLoop X Y (len X) 0 false = .ok (Levenshtein.substitutionLoop X Y false) := by
    intro X Y hX hXY
    have := len_toNat hX
    simpa using substitutionLoop_ok X Y (len X) this (by omega) _ 0 false rfl
  have tra : ∀ X Y : List Nat, X.length < 2 ^ 32 → X.length = Y.length →
      transpositionLoop X Y (len X) 0 false = .ok (Levenshtein.transpositionLoop X Y false) := by
    intro X Y hX hXY
    have := len_toNat hX
    simpa using transpositionLoop_ok X Y (len X) this (by omega) _ 0 false rfl
  cases identical
  · simp only [Bool.false_eq_true, if_false]
    split
    · exact ⟨lte1Ordered_ok _ _ B A _ _ eB eA (by omega) (sub B A hB), lte1Ordered_ok _ _ B A _ _ eB eA (by omega) (tra B A hB)⟩
    · exact ⟨lte1Ordered_ok _ _ A B _ _ eA eB (by omega) (sub A B hA), lte1Ordered_ok _ _ A B _ _ eA eB (by omega) (tra A B hA)⟩
  · exact ⟨rfl, rfl⟩

-- Two letters swapped at the very end, and a letter added there: the last reads are of the last letters.
example : LevenshteinMemory.damerauLevenshteinDistanceLte1 false (cps "abcd") (cps "abdc") = .ok true ∧
    LevenshteinMemory.levenshteinDistanceLte1 false (cps "abcd") (cps "abdc") = .ok false ∧
    LevenshteinMemory.levenshteinDistanceLte1 false (cps "abcde") (cps "abcd") = .ok true := by
  refine ⟨?_, ?_, ?_⟩
  · rw [(lte1_memory false _ _ (by simp [cps]) (by simp [cps])).2]
    simp [cps, Levenshtein.damerauLevenshteinDistanceLte1, Levenshtein.lte1Ordered, Levenshtein.transpositionLoop]
  · rw [(lte1_memory false _ _ (by simp [cps]) (by simp [cps])).1]
    simp [cps, Levenshtein.levenshteinDistanceLte1, Levenshtein.lte1Ordered, Levenshtein.substitutionLoop]
  · rw [(lte1_memory false _ _ (by simp [cps]) (by simp [cps])).1]
    simp [cps, Levenshtein.levenshteinDistanceLte1, Levenshtein.lte1Ordered, Levenshtein.additionLoop]

/-! ## C105 -/

/-- **C105, partial**: the two arrays of `limited_levenshtein_distance`, each as long as the longer string without the common ends, are kept
for ever when the value is more than the limit though the lengths differ by at most the limit; in every other case nothing is kept. -/
theorem limited_levenshtein_distance_keeps_partial (max : UInt32) (p a b s : List Nat) (h : Heap)
    (hA : (p ++ a ++ s).length < 2 ^ 32) (hB : (p ++ b ++ s).length < 2 ^ 32)
    (hh : ∀ x, a.head? = some x → b.head? ≠ some x)
    (hl : ∀ x, (p ++ a).getLast? = some x → (p ++ b).getLast? ≠ some x) :
    ∃ h' v, LevenshteinMemory.limitedLevenshteinDistance max (p ++ a ++ s) (p ++ b ++ s) h = .ok (h', v) ∧
      if max < v ∧ a.length ≤ b.length + max.toNat ∧ b.length ≤ a.length + max.toNat then
        ∃ codes vector, held h' = held h ++ [codes, vector] ∧ codes.length = Nat.max a.length b.length ∧
          vector.length = Nat.max a.length b.length
      else held h' = held h := by
  obtain ⟨h', v, e1, -, e3⟩ := limited_memory_aux max (p ++ a ++ s) (p ++ b ++ s) h
  refine ⟨h', v, e1, ?_⟩
  simp only [List.length_append] at e3 hA hB
  rcases e3 with ⟨e3, e4⟩ | ⟨cs, vs, e3, e4⟩
  · have e4 := e4 hA hB
    rw [if_neg (by
      rintro ⟨q1, q2, q3⟩
      rcases e4 with e4 | e4 | e4
      · rw [UInt32.lt_iff_toNat_lt] at q1; rw [UInt32.le_iff_toNat_le] at e4; omega
      · omega
      · omega)]
    rcases e3 with rfl | rfl
    · rfl
    · exact held_freed h
  · obtain ⟨q1, q2, q3, q4⟩ := e4 hA hB
    rw [if_pos ⟨q1, by omega, by omega⟩]
    obtain ⟨q5, q6⟩ := q4 p a b s rfl rfl hh hl
    exact ⟨cs, vs, by rw [e3, held_kept], q5, q6⟩

/-- **C105, partial**: in terms of the edit distance, when the characters of the longer string (of the second one, when the lengths are equal)
are below 65536: memory is kept for ever exactly when the distance is above the limit and the difference of the lengths is not. -/
theorem limited_levenshtein_distance_keeps_distance_partial (max : UInt32) (A B : List Nat) (h : Heap)
    (hA : B.length < A.length → ∀ c ∈ A, c < 65536) (hB : A.length ≤ B.length → ∀ c ∈ B, c < 65536)
    (hA2 : ∀ c ∈ A, c < 2 ^ 32) (hB2 : ∀ c ∈ B, c < 2 ^ 32)
    (hAl : A.length < 2 ^ 32) (hBl : B.length < 2 ^ 32) (d : Nat) (hd : IsEditDistance A B d) :
    ∃ h' v, LevenshteinMemory.limitedLevenshteinDistance max A B h = .ok (h', v) ∧
      (held h' = held h ↔ d ≤ max.toNat ∨ B.length + max.toNat < A.length ∨ A.length + max.toNat < B.length) ∧
      (max.toNat + 1 < 2 ^ 32 → v.toNat = if d ≤ max.toNat then d else max.toNat + 1) := by
  obtain ⟨h', v, e1, e2, e3⟩ := limited_memory_aux max A B h
  have e2 := e2 hAl hBl hA2 hB2
  have hval : max.toNat + 1 < 2 ^ 32 → v.toNat = if d ≤ max.toNat then d else max.toNat + 1 := fun hm => by
    rw [e2, limited_levenshtein_distance_partial max.toNat A B hm hA hB hAl hBl d hd]
  have hdle : d < 2 ^ 32 := by
    have := lev_le_max A B
    rw [isEditDistance_iff] at hd
    omega
  refine ⟨h', v, e1, ?_, hval⟩
  have hm := max.toNat_lt
  have hv := v.toNat_lt
  rcases e3 with ⟨e3, e4⟩ | ⟨cs, vs, e3, e4⟩
  · have e5 : held h' = held h := by
      rcases e3 with rfl | rfl
      · rfl
      · exact held_freed h
    refine ⟨fun _ => ?_, fun _ => e5⟩
    rcases e4 hAl hBl with e4 | e4 | e4
    · rw [UInt32.le_iff_toNat_le] at e4
      by_cases hmx : max.toNat + 1 < 2 ^ 32
      · have := hval hmx
        split at this <;> omega
      · omega
    · omega
    · omega
  · obtain ⟨q1, q2, q3, -⟩ := e4 hAl hBl
    rw [UInt32.lt_iff_toNat_lt] at q1
    have := hval (by omega)
    refine ⟨fun hh => ?_, fun hh => ?_⟩
    · rw [e3, held_kept] at hh
      simp at hh
    · exfalso
      split at this <;> omega

-- `kitten` and `sitting` are three edits apart: with a limit of 2 the two arrays of 7 cells are never given back.
example : ∃ h' v codes vector, LevenshteinMemory.limitedLevenshteinDistance 2 (cps "kitten") (cps "sitting") [some [some 7]] = .ok (h', v) ∧
    held h' = [[some 7], codes, vector] ∧ codes.length = 7 ∧ vector.length = 7 := by
  obtain ⟨h', v, e1, e2⟩ := limited_levenshtein_distance_keeps_partial 2 [] (cps "kitten") (cps "sitting") [] [some [some 7]]
    (by simp [cps]) (by simp [cps]) (by simp [cps]) (by simp [cps])
  obtain ⟨h'', v', f1, -, f2⟩ := limited_levenshtein_distance_keeps_distance_partial 2 (cps "kitten") (cps "sitting") [some [some 7]]
    (by simp [cps]) (by simp [cps]) (by simp [cps]) (by simp [cps]) (by simp [cps]) (by simp [cps]) 3
    (isEditDistance_iff.mpr (by simp [cps, lev_cons_cons]))
  simp only [List.nil_append, List.append_nil] at e1 e2
  rw [e1] at f1
  cases f1
  have f2 := f2 (by decide)
  rw [if_neg (by decide)] at f2
  have hlt : (2 : UInt32) < v := by rw [UInt32.lt_iff_toNat_lt, f2]; decide
  rw [if_pos ⟨hlt, by simp [cps], by simp [cps]⟩] at e2
  obtain ⟨codes, vector, q1, q2, q3⟩ := e2
  exact ⟨h', v, codes, vector, e1, q1, by rw [q2]; simp [cps], by rw [q3]; simp [cps]⟩

/-- **C105 is false** of `limited_levenshtein_distance`: `kitten` and `sitting`, with a limit of 2. -/
theorem limited_levenshtein_distance_leaks :
    ¬ ∀ (max : UInt32) (A B : List Nat) (h h' : Heap) (v : UInt32),
      LevenshteinMemory.limitedLevenshteinDistance max A B h = .ok (h', v) → held h' = held h := by
  intro hall
  obtain ⟨h', v, f1, f2, -⟩ := limited_levenshtein_distance_keeps_distance_partial 2 (cps "kitten") (cps "sitting") []
    (by simp [cps]) (by simp [cps]) (by simp [cps]) (by simp [cps]) (by simp [cps]) (by simp [cps]) 3
    (isEditDistance_iff.mpr (by simp [cps, lev_cons_cons]))
  have := f2.mp (hall _ _ _ _ _ _ f1)
  revert this
  simp [cps]

end Fog.Props
