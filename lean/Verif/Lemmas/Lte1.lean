import Verif.Model.Levenshtein
import Verif.Lemmas.EditDistance

/-! # Helper lemmas about the predicates "distance at most one" -/

namespace Fog.Levenshtein
open Fog Spec

variable {α : Type _} [DecidableEq α]

omit [DecidableEq α] in
theorem chain_one_iff {R : List α → List α → Prop} {a b : List α} :
    (∃ m, m ≤ 1 ∧ Chain R m a b) ↔ a = b ∨ R a b := by
  constructor
  · rintro ⟨m, hm, h⟩
    cases h with
    | nil => exact .inl rfl
    | cons h1 h2 =>
        cases h2 with
        | nil => exact .inr h1
        | cons => omega
  · rintro (rfl | h)
    · exact ⟨0, by omega, .nil _⟩
    · exact ⟨1, by omega, .cons h (.nil _)⟩

theorem additionLoop_true : ∀ (A B : List α), A.length = B.length → (additionLoop A B true = true ↔ A = B)
  | [], [], _ => by simp [additionLoop]
  | a :: A, b :: B, h => by
      have := additionLoop_true A B (by simpa using h)
      rw [additionLoop]
      by_cases e : a = b
      · simp [e, this]
      · simp [e]

theorem additionLoop_false : ∀ (A B : List α), A.length + 1 = B.length →
    (additionLoop A B false = true ↔ ∃ u v c, A = u ++ v ∧ B = u ++ c :: v)
  | [], [b], _ => by
      simp only [additionLoop, true_iff]
      exact ⟨[], [], b, rfl, rfl⟩
  | a :: A, b :: B, h => by
      have ih := additionLoop_false A B (by simpa using h)
      have h2 := additionLoop_true (a :: A) B (by simpa using h)
      rw [additionLoop]
      by_cases e : a = b
      · subst e
        simp only [if_true, ih]
        constructor
        · rintro ⟨u, v, c, rfl, rfl⟩
          exact ⟨a :: u, v, c, rfl, rfl⟩
        · rintro ⟨u, v, c, h3, h4⟩
          cases u with
          | nil =>
              simp only [List.nil_append, List.cons.injEq] at h3 h4
              obtain ⟨rfl, rfl⟩ := h4
              exact ⟨[], A, a, rfl, by simp [h3]⟩
          | cons x u =>
              simp only [List.cons_append, List.cons.injEq] at h3 h4
              exact ⟨u, v, c, h3.2, h4.2⟩
      · simp only [e, if_false, Bool.false_eq_true, h2]
        constructor
        · rintro rfl
          exact ⟨[], a :: A, b, rfl, rfl⟩
        · rintro ⟨u, v, c, h3, h4⟩
          cases u with
          | nil =>
              simp only [List.nil_append, List.cons.injEq] at h3 h4
              rw [h3, h4.2]
          | cons x u =>
              simp only [List.cons_append, List.cons.injEq] at h3 h4
              exact absurd (h3.1.trans h4.1.symm) e

theorem substitutionLoop_true : ∀ (A B : List α), A.length = B.length →
    (substitutionLoop A B true = true ↔ A = B)
  | [], [], _ => by simp [substitutionLoop]
  | a :: A, b :: B, h => by
      have := substitutionLoop_true A B (by simpa using h)
      rw [substitutionLoop]
      by_cases e : a = b
      · simp [e, this]
      · simp [e]

theorem substitutionLoop_false : ∀ (A B : List α), A.length = B.length →
    (substitutionLoop A B false = true ↔ A = B ∨ ∃ u v c d, A = u ++ c :: v ∧ B = u ++ d :: v)
  | [], [], _ => by simp [substitutionLoop]
  | a :: A, b :: B, h => by
      have ih := substitutionLoop_false A B (by simpa using h)
      have h2 := substitutionLoop_true A B (by simpa using h)
      rw [substitutionLoop]
      by_cases e : a = b
      · subst e
        simp only [ne_eq, not_true_eq_false, if_false, ih, List.cons.injEq, true_and]
        constructor
        · rintro (rfl | ⟨u, v, c, d, rfl, rfl⟩)
          · exact .inl rfl
          · exact .inr ⟨a :: u, v, c, d, rfl, rfl⟩
        · rintro (rfl | ⟨u, v, c, d, h3, h4⟩)
          · exact .inl rfl
          · cases u with
            | nil =>
                simp only [List.nil_append, List.cons.injEq] at h3 h4
                exact .inl (by rw [h3.2, h4.2])
            | cons x u =>
                simp only [List.cons_append, List.cons.injEq] at h3 h4
                exact .inr ⟨u, v, c, d, h3.2, h4.2⟩
      · simp only [ne_eq, e, not_false_eq_true, if_true, Bool.false_eq_true, if_false, h2, List.cons.injEq, false_and,
          false_or]
        constructor
        · rintro rfl
          exact ⟨[], A, a, b, rfl, rfl⟩
        · rintro ⟨u, v, c, d, h3, h4⟩
          cases u with
          | nil =>
              simp only [List.nil_append, List.cons.injEq] at h3 h4
              rw [h3.2, h4.2]
          | cons x u =>
              simp only [List.cons_append, List.cons.injEq] at h3 h4
              exact absurd (h3.1.trans h4.1.symm) e

theorem transpositionLoop_true : ∀ (A B : List α), A.length = B.length →
    (transpositionLoop A B true = true ↔ A = B)
  | [], [], _ => by simp [transpositionLoop]
  | [a], [b], _ => by simp [transpositionLoop]
  | a :: a' :: A, b :: b' :: B, h => by
      have := transpositionLoop_true (a' :: A) (b' :: B) (by simpa using h)
      rw [transpositionLoop]
      by_cases e : a = b
      · simp only [e, ne_eq, not_true_eq_false, if_false, this]; simp
      · simp [e]

theorem transpositionLoop_false : ∀ (A B : List α), A.length = B.length →
    (transpositionLoop A B false = true ↔ A = B ∨ (∃ u v c d, A = u ++ c :: v ∧ B = u ++ d :: v) ∨
      (∃ u v c d, A = u ++ c :: d :: v ∧ B = u ++ d :: c :: v))
  | [], [], _ => by simp [transpositionLoop]
  | [a], [b], _ => by
      simp only [transpositionLoop, Bool.not_false, ite_self, true_iff]
      exact .inr (.inl ⟨[], [], a, b, rfl, rfl⟩)
  | a :: a' :: A, b :: b' :: B, h => by
      have ih := transpositionLoop_false (a' :: A) (b' :: B) (by simpa using h)
      have h2 := transpositionLoop_true (a' :: A) (b' :: B) (by simpa using h)
      have h3 := transpositionLoop_true A B (by simpa using h)
      rw [transpositionLoop]
      by_cases e : a = b
      · subst e
        simp only [ne_eq, not_true_eq_false, if_false]
        rw [ih]
        constructor
        · rintro (h | ⟨u, v, c, d, h4, h5⟩ | ⟨u, v, c, d, h4, h5⟩)
          · exact .inl (by rw [h])
          · exact .inr (.inl ⟨a :: u, v, c, d, by rw [h4]; rfl, by rw [h5]; rfl⟩)
          · exact .inr (.inr ⟨a :: u, v, c, d, by rw [h4]; rfl, by rw [h5]; rfl⟩)
        · rintro (h | ⟨u, v, c, d, h4, h5⟩ | ⟨u, v, c, d, h4, h5⟩)
          · exact .inl (List.cons.inj h).2
          · cases u with
            | nil =>
                simp only [List.nil_append, List.cons.injEq] at h4 h5
                exact .inl (by rw [h4.2, h5.2])
            | cons x u =>
                simp only [List.cons_append, List.cons.injEq] at h4 h5
                exact .inr (.inl ⟨u, v, c, d, h4.2, h5.2⟩)
          · cases u with
            | nil =>
                simp only [List.nil_append, List.cons.injEq] at h4 h5
                obtain ⟨rfl, rfl, rfl⟩ := h4
                obtain ⟨rfl, rfl, rfl⟩ := h5
                exact .inl rfl
            | cons x u =>
                simp only [List.cons_append, List.cons.injEq] at h4 h5
                exact .inr (.inr ⟨u, v, c, d, h4.2, h5.2⟩)
      · simp only [ne_eq, e, not_false_eq_true, if_true, Bool.false_eq_true, if_false, List.cons.injEq, false_and,
          false_or]
        by_cases hs : a' = b ∧ b' = a
        · simp only [hs, and_self, if_true]
          obtain ⟨rfl, rfl⟩ := hs
          rw [h3]
          constructor
          · rintro rfl
            exact .inr ⟨[], A, b', a', rfl, rfl⟩
          · rintro (⟨u, v, c, d, h4, h5⟩ | ⟨u, v, c, d, h4, h5⟩)
            · cases u with
              | nil =>
                  simp only [List.nil_append, List.cons.injEq] at h4 h5
                  have h6 := h4.2.trans h5.2.symm
                  simp only [List.cons.injEq] at h6
                  exact h6.2
              | cons x u =>
                  simp only [List.cons_append, List.cons.injEq] at h4 h5
                  exact absurd (h4.1.trans h5.1.symm) e
            · cases u with
              | nil =>
                  simp only [List.nil_append, List.cons.injEq] at h4 h5
                  rw [h4.2.2, h5.2.2]
              | cons x u =>
                  simp only [List.cons_append, List.cons.injEq] at h4 h5
                  exact absurd (h4.1.trans h5.1.symm) e
        · simp only [hs, if_false]
          rw [h2]
          constructor
          · intro h
            exact .inl ⟨[], a' :: A, a, b, rfl, by rw [h]; rfl⟩
          · rintro (⟨u, v, c, d, h4, h5⟩ | ⟨u, v, c, d, h4, h5⟩)
            · cases u with
              | nil =>
                  simp only [List.nil_append, List.cons.injEq] at h4 h5
                  rw [h4.2, h5.2]
              | cons x u =>
                  simp only [List.cons_append, List.cons.injEq] at h4 h5
                  exact absurd (h4.1.trans h5.1.symm) e
            · cases u with
              | nil =>
                  simp only [List.nil_append, List.cons.injEq] at h4 h5
                  exact absurd ⟨h4.2.1.trans h5.1.symm, h5.2.1.trans h4.1.symm⟩ hs
              | cons x u =>
                  simp only [List.cons_append, List.cons.injEq] at h4 h5
                  exact absurd (h4.1.trans h5.1.symm) e
termination_by A => A.length

omit [DecidableEq α] in
theorem edit_cases {a b : List α} : Edit a b ↔
    (∃ u v c, a = u ++ v ∧ b = u ++ c :: v) ∨ (∃ u v c, a = u ++ c :: v ∧ b = u ++ v) ∨
      (∃ u v c d, a = u ++ c :: v ∧ b = u ++ d :: v) := by
  constructor
  · rintro (⟨u, v, c⟩ | ⟨u, v, c⟩ | ⟨u, v, c, d⟩)
    · exact .inl ⟨u, v, c, rfl, rfl⟩
    · exact .inr (.inl ⟨u, v, c, rfl, rfl⟩)
    · exact .inr (.inr ⟨u, v, c, d, rfl, rfl⟩)
  · rintro (⟨u, v, c, rfl, rfl⟩ | ⟨u, v, c, rfl, rfl⟩ | ⟨u, v, c, d, rfl, rfl⟩)
    · exact .insert u v c
    · exact .delete u v c
    · exact .subst u v c d

omit [DecidableEq α] in
theorem dedit_cases {a b : List α} : DEdit a b ↔
    Edit a b ∨ (∃ u v c d, a = u ++ c :: d :: v ∧ b = u ++ d :: c :: v) := by
  constructor
  · rintro (h | ⟨u, v, c, d⟩)
    · exact .inl h
    · exact .inr ⟨u, v, c, d, rfl, rfl⟩
  · rintro (h | ⟨u, v, c, d, rfl, rfl⟩)
    · exact .edit h
    · exact .swap u v c d

omit [DecidableEq α] in
/-- Edits between an empty string and another. -/
theorem edit_nil_left {b : List α} : Edit [] b ↔ b.length = 1 := by
  rw [edit_cases]
  constructor
  · rintro (⟨u, v, c, h, rfl⟩ | ⟨u, v, c, h, rfl⟩ | ⟨u, v, c, d, h, rfl⟩)
    · simp at h; simp [h]
    · simp at h
    · simp at h
  · intro h
    obtain ⟨c, rfl⟩ := List.length_eq_one_iff.mp h
    exact .inl ⟨[], [], c, rfl, rfl⟩

/-- The common shape of both predicates decides "equal or one edit". -/
theorem lte1Ordered_iff (loop : List α → List α → Bool → Bool) (R : List α → List α → Prop)
    (hR : ∀ a b, R a b → Edit a b ∨ a.length = b.length)
    (hE : ∀ a b, Edit a b → a.length ≠ b.length → R a b)
    (hloop : ∀ a b, a.length = b.length → (loop a b false = true ↔ a = b ∨ R a b))
    (A B : List α) (hle : A.length ≤ B.length) (hne : ¬ (A = [] ∧ B = [])) :
    lte1Ordered loop A B = true ↔ A = B ∨ R A B := by
  unfold lte1Ordered
  by_cases h0 : A.length = 0
  · have hA := List.length_eq_zero_iff.mp h0
    subst hA
    have hB : B ≠ [] := fun h => hne ⟨rfl, h⟩
    simp only [List.length_nil, if_true, decide_eq_true_eq]
    constructor
    · intro h
      exact .inr (hE _ _ (edit_nil_left.mpr h) (by simp [h]))
    · rintro (h | h)
      · exact absurd h.symm hB
      · rcases hR _ _ h with h | h
        · exact edit_nil_left.mp h
        · simp only [List.length_nil] at h
          exact absurd (List.length_eq_zero_iff.mp h.symm) hB
  · rw [if_neg h0]
    have hlen : ∀ a b : List α, Edit a b → b.length ≤ a.length + 1 := by
      rintro a b (⟨u, v, c⟩ | ⟨u, v, c⟩ | ⟨u, v, c, d⟩) <;> simp <;> omega
    by_cases h1 : B.length - A.length > 1
    · simp only [h1, if_true, Bool.false_eq_true, false_iff]
      rintro (rfl | h)
      · omega
      · rcases hR _ _ h with h | h
        · have := hlen _ _ h; omega
        · omega
    · rw [if_neg h1]
      by_cases h2 : B.length - A.length = 1
      · rw [if_pos h2, additionLoop_false A B (by omega)]
        constructor
        · rintro ⟨u, v, c, rfl, rfl⟩
          exact .inr (hE _ _ (.insert u v c) (by simp))
        · rintro (rfl | h)
          · omega
          · rcases hR _ _ h with h | h
            · rcases edit_cases.mp h with h | ⟨u, v, c, rfl, rfl⟩ | ⟨u, v, c, d, rfl, rfl⟩
              · exact h
              · simp at h2
              · simp at h2
            · omega
      · rw [if_neg h2]
        exact hloop A B (by omega)

end Fog.Levenshtein
