import Verif.Model.LimitedCells

/-!
# `limited_levenshtein_distance`: how many cells it computes (C163)
-/

namespace Fog.Props

open Fog.Levenshtein

theorem bandCells_eq (charA : Nat) (codes : List Nat) (fuel j : Nat) (vector : List Nat) (left current : Nat) :
    bandCells charA codes fuel j vector left current = (bandLoop charA codes fuel j vector left current, fuel) := by
  induction fuel generalizing j vector left current with
  | zero => rfl
  | succ fuel ih => simp only [bandCells, bandLoop, ih]

theorem limitedLoopCells_fst (codes : List Nat) (LB max_distance upper_bound diff offset : Nat) (have_max : Bool) (as : List Nat)
    (i j_start j_end : Nat) (vector : List Nat) (current : Nat) :
    (limitedLoopCells codes LB max_distance upper_bound diff offset have_max as i j_start j_end vector current).1 =
      limitedLoop codes LB max_distance upper_bound diff offset have_max as i j_start j_end vector current := by
  induction as generalizing i j_start j_end vector current with
  | nil => rfl
  | cons a as ih =>
      simp only [limitedLoopCells, limitedLoop, bandCells_eq]
      generalize (j_end + if j_end < LB then 1 else 0) = j_end'
      generalize (j_start + if i > offset then 1 else 0) = j_start'
      split
      · rfl
      · exact ih _ _ _ _ _

theorem limitedLoopCells_le (codes : List Nat) (LB max_distance upper_bound diff offset : Nat) (have_max : Bool) (as : List Nat)
    (i j_start j_end : Nat) (vector : List Nat) (current : Nat) (hs : i ≤ j_start + offset + 1) (he : j_end ≤ max_distance + i)
    (hB : j_end ≤ LB) :
    (limitedLoopCells codes LB max_distance upper_bound diff offset have_max as i j_start j_end vector current).2 ≤
      as.length * min LB (max_distance + 1 + offset) := by
  induction as generalizing i j_start j_end vector current with
  | nil => exact Nat.zero_le _
  | cons a as ih =>
      simp only [limitedLoopCells, bandCells_eq]
      have hw : (j_end + if j_end < LB then 1 else 0) - (j_start + if i > offset then 1 else 0) ≤ min LB (max_distance + 1 + offset) := by
        split <;> split <;> omega
      have h1 : i + 1 ≤ (j_start + if i > offset then 1 else 0) + offset + 1 := by split <;> omega
      have h2 : (j_end + if j_end < LB then 1 else 0) ≤ max_distance + (i + 1) := by split <;> omega
      have h3 : (j_end + if j_end < LB then 1 else 0) ≤ LB := by split <;> omega
      generalize (j_end + if j_end < LB then 1 else 0) = j_end' at *
      generalize (j_start + if i > offset then 1 else 0) = j_start' at *
      rw [List.length_cons, Nat.succ_mul]
      split
      · exact Nat.le_trans hw (Nat.le_add_left _ _)
      · rw [Nat.add_comm (_ * _)]
        exact Nat.add_le_add hw (ih _ _ _ _ _ h1 h2 h3)

theorem limitedOrderedCells_fst (m : Nat) (A B : List Nat) : (limitedOrderedCells m A B).1 = limitedOrdered m A B := by
  unfold limitedOrderedCells limitedOrdered
  dsimp only
  generalize suffixLoop A B A.length B.length = S
  obtain ⟨LA, LB⟩ := S
  dsimp only
  iterate 4
    split
    · rfl
  exact limitedLoopCells_fst _ _ _ _ _ _ _ _ _ _ _ _ _

/-- C163. The distance is that of the function. -/
theorem limited_cells_same (m : Nat) (A B : List Nat) : (limitedCells m A B).1 = limitedLevenshteinDistance m A B := by
  unfold limitedCells limitedLevenshteinDistance
  split
  · rfl
  · split <;> exact limitedOrderedCells_fst _ _ _

theorem suffixLoop_lengths (A B : List Nat) (LA LB : Nat) (h : LA ≤ LB) :
    (suffixLoop A B LA LB).1 ≤ LA ∧ (suffixLoop A B LA LB).2 = (suffixLoop A B LA LB).1 + (LB - LA) := by
  induction LA generalizing LB with
  | zero => exact ⟨Nat.le_refl _, by simp [suffixLoop]⟩
  | succ LA ih =>
      unfold suffixLoop
      split
      · have := ih (LB - 1) (by omega)
        omega
      · dsimp only
        omega

theorem prefixLoop_le (A B : List Nat) (LA start : Nat) (hs : start ≤ LA) : prefixLoop A B LA start ≤ LA := by
  fun_induction prefixLoop A B LA start with
  | case1 start h he ih => exact ih (by omega)
  | case2 start h he => exact hs
  | case3 start h => exact hs

theorem limitedOrderedCells_le (m : Nat) (A B : List Nat) (hl : A.length ≤ B.length) :
    (limitedOrderedCells m A B).2 ≤ A.length * min B.length (2 * m + 1 - (B.length - A.length)) := by
  obtain ⟨h1, h2⟩ := suffixLoop_lengths A B A.length B.length hl
  unfold limitedOrderedCells
  dsimp only
  generalize suffixLoop A B A.length B.length = S at *
  obtain ⟨LA, LB⟩ := S
  dsimp only at h1 h2 ⊢
  have h3 := prefixLoop_le A B LA 0 (Nat.zero_le _)
  generalize prefixLoop A B LA 0 = start at *
  split
  · exact Nat.zero_le _
  split
  · exact Nat.zero_le _
  split
  · exact Nat.zero_le _
  split
  · exact Nat.zero_le _
  rename_i hc
  refine Nat.le_trans (limitedLoopCells_le _ _ _ _ _ _ _ _ _ _ _ _ _ (by omega) (by omega) (by split <;> omega)) ?_
  refine Nat.mul_le_mul ?_ ?_
  · rw [List.length_take, List.length_drop]; omega
  · split <;> omega

/-- C163. A row has at most `2 * max_distance + 1` cells, less the difference of the lengths, and there are at most as many rows as
characters in the shortest string. -/
theorem limited_cells_band (m : Nat) (A B : List Nat) :
    (limitedCells m A B).2 ≤ min A.length B.length *
      min (max A.length B.length) (2 * m + 1 - (max A.length B.length - min A.length B.length)) := by
  unfold limitedCells
  split
  · exact Nat.zero_le _
  · split
    · rename_i h
      rw [Nat.min_eq_right (by omega), Nat.max_eq_left (by omega)]
      exact limitedOrderedCells_le m B A (by omega)
    · rename_i h
      rw [Nat.min_eq_left (by omega), Nat.max_eq_right (by omega)]
      exact limitedOrderedCells_le m A B (by omega)

/-- C163. For a given limit, the cells are linear in the length of the shortest string; whatever the limit, there are at most
`len(A) * len(B)` of them. -/
theorem limited_cells_bound (m : Nat) (A B : List Nat) :
    (limitedCells m A B).2 ≤ min A.length B.length * (2 * m + 1) ∧ (limitedCells m A B).2 ≤ A.length * B.length := by
  have h := limited_cells_band m A B
  constructor
  · exact Nat.le_trans h (Nat.mul_le_mul_left _ (by omega))
  · refine Nat.le_trans h (Nat.le_trans (Nat.mul_le_mul_left _ (Nat.min_le_left _ _)) ?_)
    rcases Nat.le_total A.length B.length with hl | hl
    · rw [Nat.min_eq_left hl, Nat.max_eq_right hl]; exact Nat.le_refl _
    · rw [Nat.min_eq_right hl, Nat.max_eq_left hl, Nat.mul_comm]; exact Nat.le_refl _

theorem limitedOrderedCells_none (m : Nat) (A B : List Nat) (h : A.length + m < B.length) : (limitedOrderedCells m A B).2 = 0 := by
  obtain ⟨h1, h2⟩ := suffixLoop_lengths A B A.length B.length (by omega)
  unfold limitedOrderedCells
  dsimp only
  generalize suffixLoop A B A.length B.length = S at *
  obtain ⟨LA, LB⟩ := S
  dsimp only at h1 h2 ⊢
  have h3 := prefixLoop_le A B LA 0 (Nat.zero_le _)
  generalize prefixLoop A B LA 0 = start at *
  split
  · rfl
  split
  · rfl
  split
  · rfl
  rw [if_pos (by omega)]

/-- C163. No cell is computed when the difference of the lengths is above the limit. -/
theorem limited_cells_none (m : Nat) (A B : List Nat) (h : A.length + m < B.length ∨ B.length + m < A.length) :
    (limitedCells m A B).2 = 0 := by
  unfold limitedCells
  split
  · rfl
  · split
    · exact limitedOrderedCells_none m B A (by omega)
    · exact limitedOrderedCells_none m A B (by omega)

/-- Five characters each and a limit of one: at most three cells in each row. The first rows are enough to stop. -/
example : (limitedCells 1 [1, 2, 3, 4, 5] [6, 7, 3, 8, 9]) = (2, 5) := by decide +kernel

/-- Lengths two and five, with a limit of two. -/
example : (limitedCells 2 [1, 2] [3, 4, 5, 6, 7]).2 = 0 := limited_cells_none 2 [1, 2] [3, 4, 5, 6, 7] (by decide)

end Fog.Props
