import Verif.Model.LevenshteinCells

/-!
# `levenshtein_distance`: how many cells it computes (C162)
-/

namespace Fog.Props

open Fog.Levenshtein

theorem rowCells_eq (charA : Nat) (codes vector : List Nat) (left current : Nat) :
    rowCells charA codes vector left current = (rowLoop charA codes vector left current, min codes.length vector.length) := by
  induction codes generalizing vector left current with
  | nil => simp [rowCells, rowLoop]
  | cons code codes ih =>
      cases vector with
      | nil => simp [rowCells, rowLoop]
      | cons v vector =>
          simp only [rowCells, rowLoop, ih, List.length_cons]
          rw [Nat.add_min_add_right]

theorem length_rowLoop' (charA : Nat) (codes vector : List Nat) (left current : Nat) :
    (rowLoop charA codes vector left current).1.length = min codes.length vector.length := by
  induction codes generalizing vector left current with
  | nil => simp [rowLoop]
  | cons code codes ih =>
      cases vector with
      | nil => simp [rowLoop]
      | cons v vector =>
          simp only [rowLoop, ih, List.length_cons]
          rw [Nat.add_min_add_right]

theorem outerCells_eq (codes as : List Nat) (i : Nat) (vector : List Nat) (current : Nat) (h : vector.length = codes.length) :
    outerCells codes as i vector current = (outerLoop codes as i vector current, as.length * codes.length) := by
  induction as generalizing i vector current with
  | nil => simp [outerCells, outerLoop]
  | cons a as ih =>
      simp only [outerCells, outerLoop, rowCells_eq]
      rw [ih _ _ _ (by rw [length_rowLoop', h, Nat.min_self])]
      simp only [h, Nat.min_self, List.length_cons]
      rw [Nat.succ_mul, Nat.add_comm codes.length]

theorem suffixLoop_cells (A B : List Nat) (LA LB : Nat) (h : LA ≤ LB) :
    (suffixLoop A B LA LB).1 ≤ LA ∧ (suffixLoop A B LA LB).2 = (suffixLoop A B LA LB).1 + (LB - LA) := by
  induction LA generalizing LB with
  | zero => exact ⟨Nat.le_refl _, by simp [suffixLoop]⟩
  | succ LA ih =>
      unfold suffixLoop
      split
      · have := ih (LB - 1) (by omega)
        omega
      · dsimp only
        omega

theorem suffixLoop_common (A B : List Nat) (n : Nat) (LA LB : Nat) (h : LA ≤ LB) (hn : n ≤ LA)
    (hs : ∀ i < n, A[LA - 1 - i]? = B[LB - 1 - i]?) : (suffixLoop A B LA LB).1 ≤ LA - n := by
  induction n generalizing LA LB with
  | zero => exact (suffixLoop_cells A B LA LB h).1
  | succ n ih =>
      cases LA with
      | zero => omega
      | succ LA =>
          unfold suffixLoop
          rw [if_pos (by simpa using hs 0 (Nat.succ_pos _))]
          have := ih LA (LB - 1) (by omega) (by omega) (fun i hi => by
            have := hs (i + 1) (by omega)
            rw [show LA + 1 - 1 - (i + 1) = LA - 1 - i by omega, show LB - 1 - (i + 1) = LB - 1 - 1 - i by omega] at this
            exact this)
          omega

theorem prefixLoop_common (A B : List Nat) (LA start n : Nat) (hp : ∀ i < n, A[i]? = B[i]?) (hs : start ≤ LA) :
    prefixLoop A B LA start ≤ LA ∧ (prefixLoop A B LA start = LA ∨ n ≤ prefixLoop A B LA start) := by
  fun_induction prefixLoop A B LA start with
  | case1 start h he ih => exact ih (by omega)
  | case2 start h he =>
      exact ⟨hs, Or.inr (Nat.le_of_not_lt fun hc => he (hp start hc))⟩
  | case3 start h => exact ⟨hs, Or.inl (by omega)⟩

theorem orderedCells_eq (A B : List Nat) (hl : A.length ≤ B.length) :
    (levenshteinOrderedCells A B).1 = levenshteinOrdered A B ∧
    (levenshteinOrderedCells A B).2 =
      (let LA := (suffixLoop A B A.length B.length).1 - prefixLoop A B (suffixLoop A B A.length B.length).1 0
       if LA ≤ 1 then 0 else LA * (LA + (B.length - A.length))) := by
  obtain ⟨h1, h2⟩ := suffixLoop_cells A B A.length B.length hl
  have h3 := (prefixLoop_common A B (suffixLoop A B A.length B.length).1 0 0 (fun i hi => absurd hi (Nat.not_lt_zero _)) (Nat.zero_le _)).1
  unfold levenshteinOrderedCells levenshteinOrdered
  generalize hS : suffixLoop A B A.length B.length = S at *
  obtain ⟨LA, LB⟩ := S
  dsimp only at h1 h2 h3 ⊢
  generalize prefixLoop A B LA 0 = start at *
  by_cases c0 : LA - start = 0
  · rw [if_pos c0, if_pos c0, if_pos (show LA - start ≤ 1 by omega)]; exact ⟨rfl, rfl⟩
  · rw [if_neg c0, if_neg c0]
    by_cases c1 : LA - start = 1
    · rw [if_pos c1, if_pos c1, if_pos (show LA - start ≤ 1 by omega)]; exact ⟨rfl, rfl⟩
    · rw [if_neg c1, if_neg c1, if_neg (by omega)]
      have hb : ((B.drop start).take (LB - start)).length = LB - start := by
        rw [List.length_take, List.length_drop]; omega
      have ha : ((A.drop start).take (LA - start)).length = LA - start := by
        rw [List.length_take, List.length_drop]; omega
      rw [outerCells_eq _ _ _ _ _ (by simp only [List.length_map, List.length_range, hb])]
      refine ⟨rfl, ?_⟩
      dsimp only
      rw [List.length_map, ha, hb]
      congr 1
      omega

/-- C162. The distance is that of the function. -/
theorem levenshtein_cells_same (A B : List Nat) : (levenshteinCells A B).1 = levenshteinDistance A B := by
  unfold levenshteinCells levenshteinDistance
  split
  · rfl
  · split
    · exact (orderedCells_eq B A (by omega)).1
    · exact (orderedCells_eq A B (by omega)).1

theorem orderedCells_common (p a b s : List Nat) (hl : a.length ≤ b.length) :
    (levenshteinOrderedCells (p ++ a ++ s) (p ++ b ++ s)).2 ≤ a.length * b.length := by
  have hl' : (p ++ a ++ s).length ≤ (p ++ b ++ s).length := by simp only [List.length_append]; omega
  rw [(orderedCells_eq _ _ hl').2]
  have hS := suffixLoop_common (p ++ a ++ s) (p ++ b ++ s) s.length _ _ hl' (by simp only [List.length_append]; omega) (fun i hi => by
    rw [List.getElem?_append_right (by simp only [List.length_append]; omega), List.getElem?_append_right (by simp only [List.length_append]; omega)]
    congr 1
    simp only [List.length_append]
    omega)
  generalize suffixLoop (p ++ a ++ s) (p ++ b ++ s) _ _ = S at *
  have hP := prefixLoop_common (p ++ a ++ s) (p ++ b ++ s) S.1 0 p.length (fun i hi => by
    rw [List.append_assoc, List.append_assoc, List.getElem?_append_left hi, List.getElem?_append_left hi]) (Nat.zero_le _)
  generalize prefixLoop (p ++ a ++ s) (p ++ b ++ s) S.1 0 = start at *
  dsimp only
  simp only [List.length_append] at hS ⊢
  split
  · exact Nat.zero_le _
  · exact Nat.mul_le_mul (by omega) (by omega)

/-- C162. What both strings begin and end with costs no cell: there are at most as many cells as pairs of characters of the rest. -/
theorem levenshtein_cells_common (p a b s : List Nat) :
    (levenshteinCells (p ++ a ++ s) (p ++ b ++ s)).2 ≤ a.length * b.length := by
  unfold levenshteinCells
  split
  · exact Nat.zero_le _
  · split
    · rename_i h
      simp only [List.length_append] at h
      rw [Nat.mul_comm]
      exact orderedCells_common p b a s (by omega)
    · rename_i h
      simp only [List.length_append] at h
      exact orderedCells_common p a b s (by omega)

/-- C162. As documented, `levenshtein_distance` runs in `O(mn)`: it computes at most `len(A) * len(B)` cells. -/
theorem levenshtein_cells_bound (A B : List Nat) : (levenshteinCells A B).2 ≤ A.length * B.length := by
  have := levenshtein_cells_common [] A B []
  simpa using this

theorem orderedCells_all (A B : List Nat) (hl : A.length ≤ B.length) (h2 : 2 ≤ A.length) (hf : A[0]? ≠ B[0]?)
    (he : A[A.length - 1]? ≠ B[B.length - 1]?) : (levenshteinOrderedCells A B).2 = A.length * B.length := by
  rw [(orderedCells_eq A B hl).2]
  have hS : suffixLoop A B A.length B.length = (A.length, B.length) := by
    obtain ⟨n, hn⟩ : ∃ n, A.length = n + 1 := ⟨A.length - 1, by omega⟩
    rw [hn] at he ⊢
    unfold suffixLoop
    exact if_neg he
  rw [hS]
  have hP : prefixLoop A B A.length 0 = 0 := by
    unfold prefixLoop
    rw [dif_pos (by omega), if_neg hf]
  dsimp only
  rw [hP, Nat.sub_zero, if_neg (by omega)]
  congr 1
  omega

/-- C162. The bound is met: when the first characters differ, the last ones differ, and each string has two characters, all cells are
computed. -/
theorem levenshtein_cells_all (A B : List Nat) (hA : 2 ≤ A.length) (hB : 2 ≤ B.length) (hf : A[0]? ≠ B[0]?)
    (he : A[A.length - 1]? ≠ B[B.length - 1]?) : (levenshteinCells A B).2 = A.length * B.length := by
  unfold levenshteinCells
  rw [if_neg (fun h => hf (by rw [h]))]
  split
  · rw [Nat.mul_comm]
    exact orderedCells_all B A (by omega) hB hf.symm he.symm
  · exact orderedCells_all A B (by omega) hA hf he

/-- `[1, 2, 3]` and `[3, 4, 5, 6]` meet the hypotheses. -/
example : (levenshteinCells [1, 2, 3] [3, 4, 5, 6]).2 = 12 :=
  levenshtein_cells_all [1, 2, 3] [3, 4, 5, 6] (by decide) (by decide) (by decide) (by decide)

/-- A common prefix and a common suffix: two times two cells at most. -/
example : (levenshteinCells ([7, 8] ++ [1, 2] ++ [9]) ([7, 8] ++ [3, 4] ++ [9])).2 ≤ 4 := levenshtein_cells_common [7, 8] [1, 2] [3, 4] [9]

end Fog.Props
