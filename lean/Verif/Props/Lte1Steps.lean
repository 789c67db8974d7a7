import Verif.Model.Lte1Steps

/-!
# The predicates on distances: how many steps they make (C161)
-/

namespace Fog.Props

open Fog.Levenshtein

variable {α : Type _} [DecidableEq α]

theorem additionSteps_fst (A B : List α) (c : Bool) : (additionSteps A B c).1 = additionLoop A B c := by
  fun_induction additionLoop A B c <;> unfold additionSteps <;> simp_all [turn]

theorem substitutionSteps_fst (A B : List α) (c : Bool) : (substitutionSteps A B c).1 = substitutionLoop A B c := by
  fun_induction substitutionLoop A B c <;> unfold substitutionSteps <;> simp_all [turn]

theorem transpositionSteps_fst (A B : List α) (c : Bool) : (transpositionSteps A B c).1 = transpositionLoop A B c := by
  fun_induction transpositionLoop A B c <;> unfold transpositionSteps <;> simp_all [turn]
  rw [if_neg (fun hh => by simp_all)]

theorem additionSteps_le (A B : List α) (c : Bool) : (additionSteps A B c).2 ≤ A.length + (if c then 0 else 1) := by
  fun_induction additionSteps A B c <;> simp_all [turn] <;> omega

theorem substitutionSteps_le (A B : List α) (c : Bool) : (substitutionSteps A B c).2 ≤ A.length := by
  fun_induction substitutionSteps A B c <;> simp_all [turn] <;> omega

theorem transpositionSteps_le (A B : List α) (c : Bool) : (transpositionSteps A B c).2 ≤ A.length := by
  fun_induction transpositionSteps A B c <;> simp_all [turn] <;> omega

theorem additionSteps_ge (A B : List α) (c : Bool) (h : (additionSteps A B c).1 = true) : A.length ≤ (additionSteps A B c).2 := by
  fun_induction additionSteps A B c with
  | case1 => exact Nat.zero_le _
  | case2 => exact absurd h Bool.false_ne_true
  | case3 as b bs cost1 ih => exact Nat.succ_le_succ (ih h)
  | case4 => exact absurd h Bool.false_ne_true
  | case5 a as b bs cost1 hne hc ih => exact Nat.le_succ_of_le (ih h)

theorem substitutionSteps_ge (A B : List α) (c : Bool) (hl : A.length = B.length) (h : (substitutionSteps A B c).1 = true) :
    A.length ≤ (substitutionSteps A B c).2 := by
  fun_induction substitutionSteps A B c with
  | case1 => exact absurd h Bool.false_ne_true
  | case2 a as b bs cost1 hne hc ih => exact Nat.succ_le_succ (ih (Nat.succ.inj hl) h)
  | case3 a as b bs cost1 hne ih => exact Nat.succ_le_succ (ih (Nat.succ.inj hl) h)
  | case4 A B c hx =>
      cases A with
      | nil => exact Nat.zero_le _
      | cons a A =>
          cases B with
          | nil => exact absurd hl (Nat.succ_ne_zero _)
          | cons b B => exact (hx a A b B rfl rfl).elim

theorem transpositionSteps_ge (A B : List α) (c : Bool) (hl : A.length = B.length) (h : (transpositionSteps A B c).1 = true) :
    A.length ≤ (transpositionSteps A B c).2 + (if c then 0 else 1) := by
  fun_induction transpositionSteps A B c with
  | case1 => exact absurd h Bool.false_ne_true
  | case2 a a' as b b' bs cost1 hne hc ht ih =>
      have := ih (Nat.succ.inj (Nat.succ.inj hl)) h
      rw [if_neg hc]
      simp only [turn, List.length_cons, if_true] at this ⊢
      omega
  | case3 a a' as b b' bs cost1 hne hc ht ih =>
      have := ih (Nat.succ.inj hl) h
      rw [if_neg hc]
      simp only [turn, List.length_cons, if_true] at this ⊢
      omega
  | case4 a a' as b b' bs cost1 hne ih =>
      have := ih (Nat.succ.inj hl) h
      simp only [turn, List.length_cons] at this ⊢
      omega
  | case5 => exact Nat.le_add_right _ _
  | case6 A B c h1 h2 =>
      cases A with
      | nil => exact Nat.zero_le _
      | cons a A =>
          cases B with
          | nil => exact absurd hl (Nat.succ_ne_zero _)
          | cons b B =>
              cases A with
              | nil => exact (h2 a b B rfl rfl).elim
              | cons a' A =>
                  cases B with
                  | nil => exact absurd (Nat.succ.inj hl) (Nat.succ_ne_zero _)
                  | cons b' B => exact (h1 a a' A b b' B rfl rfl).elim

/-- C161. The answers are those of the functions. -/
theorem lte1_steps_same (identical : Bool) (A B : List α) :
    (levenshteinLte1Steps identical A B).1 = levenshteinDistanceLte1 identical A B ∧
    (damerauLte1Steps identical A B).1 = damerauLevenshteinDistanceLte1 identical A B := by
  unfold levenshteinLte1Steps levenshteinDistanceLte1 damerauLte1Steps damerauLevenshteinDistanceLte1 lte1OrderedSteps lte1Ordered
  constructor <;> (repeat' split) <;>
    first | rfl | exact additionSteps_fst _ _ _ | exact substitutionSteps_fst _ _ _ | exact transpositionSteps_fst _ _ _

theorem lte1OrderedSteps_le (f : List α → List α → Bool → Bool × Nat) (hf : ∀ A B, (f A B false).2 ≤ A.length) (A B : List α) :
    (lte1OrderedSteps f A B).2 ≤ A.length + (B.length - A.length) := by
  unfold lte1OrderedSteps
  split
  · exact Nat.zero_le _
  · split
    · exact Nat.zero_le _
    · split
      · rename_i h
        rw [h]
        exact additionSteps_le A B false
      · exact Nat.le_trans (hf A B) (Nat.le_add_right _ _)

theorem lte1OrderedSteps_one (f : List α → List α → Bool → Bool × Nat) (hf : ∀ A B, (f A B false).2 ≤ A.length) (A B : List α) :
    (lte1OrderedSteps f A B).2 ≤ A.length + 1 := by
  unfold lte1OrderedSteps
  split
  · exact Nat.zero_le _
  · split
    · exact Nat.zero_le _
    · split
      · exact additionSteps_le A B false
      · exact Nat.le_trans (hf A B) (Nat.le_add_right _ _)

/-- C161. As documented, the steps are linear in the length of the shortest string: at most this length plus one, and at most the length
of the longest string. -/
theorem lte1_steps_bound (identical : Bool) (A B : List α) :
    (levenshteinLte1Steps identical A B).2 ≤ min (min A.length B.length + 1) (max A.length B.length) ∧
    (damerauLte1Steps identical A B).2 ≤ min (min A.length B.length + 1) (max A.length B.length) := by
  unfold levenshteinLte1Steps damerauLte1Steps
  have h1 := lte1OrderedSteps_one (α := α) substitutionSteps (fun A B => substitutionSteps_le A B false)
  have h2 := lte1OrderedSteps_le (α := α) substitutionSteps (fun A B => substitutionSteps_le A B false)
  have h3 := lte1OrderedSteps_one (α := α) transpositionSteps (fun A B => transpositionSteps_le A B false)
  have h4 := lte1OrderedSteps_le (α := α) transpositionSteps (fun A B => transpositionSteps_le A B false)
  have := h1 A B; have := h2 A B; have := h3 A B; have := h4 A B
  have := h1 B A; have := h2 B A; have := h3 B A; have := h4 B A
  constructor <;> (repeat' split) <;> (try dsimp only) <;> omega

theorem lte1OrderedSteps_ge (f : List α → List α → Bool → Bool × Nat) (n : Nat)
    (hf : ∀ A B, A.length = B.length → (f A B false).1 = true → A.length ≤ (f A B false).2 + n) (A B : List α) (hl : A.length ≤ B.length)
    (h : (lte1OrderedSteps f A B).1 = true) : A.length ≤ (lte1OrderedSteps f A B).2 + n := by
  unfold lte1OrderedSteps at h ⊢
  split at h
  · rename_i h0
    rw [h0]
    exact Nat.zero_le _
  · rename_i h0
    rw [if_neg h0]
    split at h
    · exact absurd h Bool.false_ne_true
    · rename_i h1
      rw [if_neg h1]
      split at h
      · rename_i h2
        rw [if_pos h2]
        exact Nat.le_trans (additionSteps_ge A B false h) (Nat.le_add_right _ _)
      · rename_i h2
        rw [if_neg h2]
        exact hf A B (by omega) h

/-- C161. The bound is met: to answer `True` for strings which are not the same object, the whole of the shortest string is read, one
character at each step; two characters are read by at most one step, which finds a transposition. -/
theorem lte1_steps_true (A B : List α) :
    ((levenshteinLte1Steps false A B).1 = true → min A.length B.length ≤ (levenshteinLte1Steps false A B).2) ∧
    ((damerauLte1Steps false A B).1 = true → min A.length B.length ≤ (damerauLte1Steps false A B).2 + 1) := by
  have h1 := lte1OrderedSteps_ge (α := α) substitutionSteps 0 (fun A B hl h => substitutionSteps_ge A B false hl h)
  have h2 := lte1OrderedSteps_ge (α := α) transpositionSteps 1 (fun A B hl h => transpositionSteps_ge A B false hl h)
  unfold levenshteinLte1Steps damerauLte1Steps
  simp only [Bool.false_eq_true, if_false]
  constructor
  · split
    · intro h
      exact Nat.le_trans (Nat.min_le_right _ _) (h1 B A (by omega) h)
    · intro h
      exact Nat.le_trans (Nat.min_le_left _ _) (h1 A B (by omega) h)
  · split
    · intro h
      exact Nat.le_trans (Nat.min_le_right _ _) (h2 B A (by omega) h)
    · intro h
      exact Nat.le_trans (Nat.min_le_left _ _) (h2 A B (by omega) h)

/-- An addition: five steps for a shortest string of four characters. -/
example : levenshteinLte1Steps false "ooks".toList "books".toList = (true, 5) := by decide +kernel

/-- A transposition: four steps for strings of five characters. -/
example : damerauLte1Steps false "books".toList "oboks".toList = (true, 4) := by
  simp [damerauLte1Steps, lte1OrderedSteps, transpositionSteps, turn]

/-- The second difference ends the loop. -/
example : damerauLte1Steps false "books".toList "cooky".toList = (false, 5) ∧ levenshteinLte1Steps false "books".toList "cakes".toList = (false, 2) := by
  constructor
  · simp [damerauLte1Steps, lte1OrderedSteps, transpositionSteps, turn]
  · decide +kernel

end Fog.Props
