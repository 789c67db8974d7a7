import Verif.Model.VpTreeQueries
import Mathlib.Data.List.Basic

/-!
# vp_tree: how many times the tree is queried (C158)
-/

namespace Fog.Props

open Fog.VpTree

variable {α : Type _} [DecidableEq α]

theorem loopQueries_clusters (ball : α → List α) (min_size : Nat) (max_size : Option Nat) (data : List α) : ∀ visited : List α,
    ((loopQueries ball min_size max_size visited data).map ball).filter
      (fun c => decide (min_size ≤ c.length ∧ ∀ m ∈ max_size, c.length ≤ m)) = loop ball min_size max_size visited data := by
  induction data with
  | nil => intro _; rfl
  | cons item data ih =>
      intro visited
      rw [loopQueries, loop]
      by_cases hv : item ∈ visited
      · rw [if_pos hv, if_pos hv, ih]
      · rw [if_neg hv, if_neg hv]
        dsimp only
        by_cases hs : (ball item).length < min_size ∨ ∃ m ∈ max_size, m < (ball item).length
        · have hn : ¬ (min_size ≤ (ball item).length ∧ ∀ m ∈ max_size, (ball item).length ≤ m) := by
            rintro ⟨h1, h2⟩
            rcases hs with h | ⟨m, hm, h⟩
            · omega
            · exact absurd (h2 m hm) (by omega)
          rw [if_pos hs, if_pos hs, List.map_cons, List.filter_cons, if_neg (by simpa using hn), ih]
        · have hn : min_size ≤ (ball item).length ∧ ∀ m ∈ max_size, (ball item).length ≤ m := by
            refine ⟨by by_contra h; exact hs (Or.inl (by omega)), fun m hm => ?_⟩
            by_contra h
            exact hs (Or.inr ⟨m, hm, by omega⟩)
          rw [if_neg hs, if_neg hs, List.map_cons, List.filter_cons, if_pos (by simpa using hn), ih]

/-- C158. The clusters are the viable answers to the queries. -/
theorem vp_tree_queries_same (neighbors : List α → α → List α) (data : List α) (min_size : Nat) (max_size : Option Nat) :
    ((loopQueries (neighbors data) min_size max_size [] data).map (neighbors data)).filter
      (fun c => decide (min_size ≤ c.length ∧ ∀ m ∈ max_size, c.length ≤ m)) = vpTree neighbors data min_size max_size :=
  loopQueries_clusters _ _ _ _ _

theorem loopQueries_sublist (ball : α → List α) (min_size : Nat) (max_size : Option Nat) (data : List α) : ∀ visited : List α,
    (loopQueries ball min_size max_size visited data).Sublist data ∧ ∀ a ∈ loopQueries ball min_size max_size visited data, a ∉ visited := by
  induction data with
  | nil => intro _; exact ⟨List.Sublist.refl _, fun a h => by cases h⟩
  | cons item data ih =>
      intro visited
      rw [loopQueries]
      by_cases hv : item ∈ visited
      · rw [if_pos hv]
        exact ⟨(ih visited).1.cons _, (ih visited).2⟩
      · rw [if_neg hv]
        dsimp only
        split
        · refine ⟨(ih visited).1.cons_cons _, fun a ha => ?_⟩
          rcases List.mem_cons.mp ha with rfl | ha
          · exact hv
          · exact (ih visited).2 a ha
        · refine ⟨(ih _).1.cons_cons _, fun a ha => ?_⟩
          rcases List.mem_cons.mp ha with rfl | ha
          · exact hv
          · exact fun h => (ih _).2 a ha (List.mem_append_left _ h)

/-- C158. The tree is queried at most once for each place of the data, in order. -/
theorem vp_tree_queries_partial (ball : α → List α) (min_size : Nat) (max_size : Option Nat) (data : List α) :
    (loopQueries ball min_size max_size [] data).Sublist data ∧ (loopQueries ball min_size max_size [] data).length ≤ data.length :=
  ⟨(loopQueries_sublist ball min_size max_size data []).1, (loopQueries_sublist ball min_size max_size data []).1.length_le⟩

/-- C158. When no answer is viable, it is queried once for each place. -/
theorem vp_tree_queries_all (ball : α → List α) (min_size : Nat) (max_size : Option Nat) (data : List α)
    (h : ∀ a ∈ data, (ball a).length < min_size ∨ ∃ m ∈ max_size, m < (ball a).length) :
    loopQueries ball min_size max_size [] data = data := by
  induction data with
  | nil => rfl
  | cons item data ih =>
      rw [loopQueries, if_neg (by simp)]
      dsimp only
      rw [if_pos (h item (by simp)), ih fun a ha => h a (by simp [ha])]

theorem loopQueries_visited (ball : α → List α) (min_size : Nat) (max_size : Option Nat) (data : List α) : ∀ visited : List α,
    (∀ a ∈ data, a ∈ visited) → loopQueries ball min_size max_size visited data = [] := by
  induction data with
  | nil => intro _ _; rfl
  | cons item data ih =>
      intro visited h
      rw [loopQueries, if_pos (h item (by simp)), ih visited fun a ha => h a (by simp [ha])]

/-- C158 is false: when the first answer is viable and holds all items, it is queried only once. -/
theorem vp_tree_queries_once (ball : α → List α) (min_size : Nat) (max_size : Option Nat) (a : α) (data : List α)
    (hs : min_size ≤ (ball a).length ∧ ∀ m ∈ max_size, (ball a).length ≤ m) (h : ∀ b ∈ data, b ∈ ball a) :
    loopQueries ball min_size max_size [] (a :: data) = [a] := by
  rw [loopQueries, if_neg (by simp)]
  dsimp only
  rw [if_neg, List.nil_append, loopQueries_visited ball min_size max_size data (ball a) h]
  rintro (h | ⟨m, hm, h⟩)
  · omega
  · exact absurd (hs.2 m hm) (by omega)

/-- Four numbers and the radius 1: 2 is in the cluster of 1, so that it is not queried; 9 is queried although its cluster is too small. -/
example : loopQueries (fun a : Nat => [1, 2, 3, 9].filter fun b => a ≤ b + 1 ∧ b ≤ a + 1) 2 none [] [1, 2, 3, 9] = [1, 3, 9] := by decide +kernel

/-- The first answer holds all items. -/
example : loopQueries (fun _ : Nat => [1, 2, 3]) 2 none [] [1, 2, 3] = [1] :=
  vp_tree_queries_once _ _ _ _ _ (by simp) (by decide)

end Fog.Props
