import Verif.Model.VpTree
import Verif.Spec.Metric
import Verif.Spec.Graph
import Mathlib.Algebra.Order.Field.Basic
import Mathlib.Algebra.Order.Field.Rat
import Mathlib.Algebra.Order.Group.Abs
import Mathlib.Data.List.Forall2
import Mathlib.Data.List.Perm.Subperm
import Mathlib.Tactic.Linarith

/-!
# Properties of vp_tree (C81)
-/

namespace Fog.Props

open Fog.VpTree Fog.Spec

variable {α K : Type _} [Field K] [LinearOrder K] [DecidableEq α]

omit [Field K] [LinearOrder K] in
theorem vpTree_loop (ball : α → List α) (min : Nat) (max : Option Nat) (data : List α) : ∀ visited : List α,
    ∃ leaders : List α, leaders.Sublist data ∧ loop ball min max visited data = leaders.map ball ∧
      (∀ l ∈ leaders, l ∉ visited ∧ SizeBetween min max (ball l).length) ∧
      leaders.Pairwise (fun l m => m ∉ ball l) ∧
      (∀ x ∈ data, SizeBetween min max (ball x).length → x ∈ visited ∨ x ∈ leaders ∨ ∃ l ∈ leaders, x ∈ ball l) := by
  induction data with
  | nil => intro visited; exact ⟨[], by simp [loop]⟩
  | cons item data ih =>
      intro visited
      have hsize : ¬ ((ball item).length < min ∨ ∃ m ∈ max, m < (ball item).length) ↔
          SizeBetween min max (ball item).length := by
        unfold SizeBetween
        simp only [Option.mem_def]
        grind
      by_cases hv : item ∈ visited
      · obtain ⟨leaders, h1, h2, h3, h4, h5⟩ := ih visited
        refine ⟨leaders, h1.cons _, by simp [loop, hv, h2], h3, h4, ?_⟩
        intro x hx hs
        rcases List.mem_cons.1 hx with rfl | hx
        · exact Or.inl hv
        · exact h5 x hx hs
      · by_cases hs : SizeBetween min max (ball item).length
        · obtain ⟨leaders, h1, h2, h3, h4, h5⟩ := ih (visited ++ ball item)
          refine ⟨item :: leaders, h1.cons_cons _, ?_, ?_, ?_, ?_⟩
          · rw [loop, if_neg hv, if_neg (hsize.2 hs), h2]
            rfl
          · intro l hl
            rcases List.mem_cons.1 hl with rfl | hl
            · exact ⟨hv, hs⟩
            · have := h3 l hl
              exact ⟨fun h => this.1 (by simp [h]), this.2⟩
          · refine List.pairwise_cons.2 ⟨?_, h4⟩
            intro m hm h
            exact (h3 m hm).1 (by simp [h])
          · intro x hx hsx
            rcases List.mem_cons.1 hx with rfl | hx
            · exact Or.inr (Or.inl (by simp))
            · rcases h5 x hx hsx with h | h | ⟨l, hl, h⟩
              · rcases List.mem_append.1 h with h | h
                · exact Or.inl h
                · exact Or.inr (Or.inr ⟨item, by simp, h⟩)
              · exact Or.inr (Or.inl (by simp [h]))
              · exact Or.inr (Or.inr ⟨l, by simp [hl], h⟩)
        · obtain ⟨leaders, h1, h2, h3, h4, h5⟩ := ih visited
          refine ⟨leaders, h1.cons _, ?_, h3, h4, ?_⟩
          · rw [loop, if_neg hv, if_pos (by_contra fun h => hs (hsize.1 h)), h2]
          · intro x hx hsx
            rcases List.mem_cons.1 hx with rfl | hx
            · exact absurd hsx hs
            · exact h5 x hx hsx

/-- C81: the clusters of `vp_tree` are balls of items of the data, in the order of the data: no ball is the one of an item of an
earlier ball, all have an accepted size, and each item whose ball has an accepted size is in a cluster. The tree is assumed
to return each item within the radius once. -/
theorem vp_tree_balls (neighbors : List α → α → List α) (distance : α → α → K) (hself : ∀ a, distance a a = 0) (radius : K)
    (hr : 0 ≤ radius) (hn : ∀ S a, (neighbors S a).Perm (S.filter fun b => distance a b ≤ radius)) (data : List α)
    (min : Nat) (max : Option Nat) :
    ∃ leaders : List α, leaders.Sublist data ∧
      List.Forall₂ (fun l c => c.Perm (data.filter fun b => distance l b ≤ radius) ∧ SizeBetween min max c.length) leaders
        (vpTree neighbors data min max) ∧
      leaders.Pairwise (fun l m => radius < distance l m) ∧
      ∀ x ∈ data, SizeBetween min max (data.filter fun b => distance x b ≤ radius).length →
        ∃ c ∈ vpTree neighbors data min max, x ∈ c := by
  obtain ⟨leaders, h1, h2, h3, h4, h5⟩ := vpTree_loop (neighbors data) min max data []
  have hmem : ∀ a b, b ∈ neighbors data a ↔ b ∈ data ∧ distance a b ≤ radius := by
    intro a b; rw [(hn data a).mem_iff, List.mem_filter]; simp
  refine ⟨leaders, h1, ?_, ?_, ?_⟩
  · unfold vpTree
    rw [h2, List.forall₂_map_right_iff, List.forall₂_same]
    exact fun l hl => ⟨hn data l, (h3 l hl).2⟩
  · refine (h4.imp_of_mem ?_)
    intro l m hl hm h
    rw [hmem] at h
    exact not_le.1 fun hle => h ⟨h1.subset hm, hle⟩
  · intro x hx hs
    rw [← (hn data x).length_eq] at hs
    unfold vpTree
    rw [h2]
    rcases h5 x hx hs with h | h | ⟨l, hl, h⟩
    · simp at h
    · exact ⟨_, List.mem_map_of_mem h, (hmem x x).2 ⟨hx, by rw [hself]; exact hr⟩⟩
    · exact ⟨_, List.mem_map_of_mem hl, h⟩

/-- C81: two items of a cluster are within twice the radius; with the default sizes, all items which have another item within
the radius are clustered. -/
theorem vp_tree_diameter [IsStrictOrderedRing K] (neighbors : List α → α → List α) (distance : α → α → K)
    (hd : IsPseudoMetric distance) (radius : K) (hr : 0 ≤ radius)
    (hn : ∀ S a, (neighbors S a).Perm (S.filter fun b => distance a b ≤ radius)) (data : List α) :
    (∀ c ∈ vpTree neighbors data 2 none, ∀ x ∈ c, ∀ y ∈ c, x ∈ data ∧ distance x y ≤ 2 * radius) ∧
    ∀ x y, x ∈ data → y ∈ data → x ≠ y → distance x y ≤ radius → ∃ c ∈ vpTree neighbors data 2 none, x ∈ c := by
  obtain ⟨leaders, h1, h2, h3, h4⟩ := vp_tree_balls neighbors distance hd.self radius hr hn data 2 none
  constructor
  · intro c hc x hx y hy
    obtain ⟨i, hi, rfl⟩ := List.getElem_of_mem hc
    obtain ⟨hl, hget⟩ := List.forall₂_iff_get.1 h2
    have := (hget i (by omega) hi).1
    simp only [List.get_eq_getElem] at this
    rw [this.mem_iff, List.mem_filter, decide_eq_true_eq] at hx hy
    refine ⟨hx.1, ?_⟩
    have t := hd.triangle x (leaders[i]'(by omega)) y
    have s := hd.symm x (leaders[i]'(by omega))
    linarith [hx.2, hy.2]
  · intro x y hx hy hxy hle
    refine h4 x hx ⟨?_, by simp⟩
    have hsub : [x, y] ⊆ data.filter fun b => distance x b ≤ radius := by
      intro z hz
      simp only [List.mem_cons, List.not_mem_nil, or_false] at hz
      rw [List.mem_filter, decide_eq_true_eq]
      rcases hz with rfl | rfl
      · exact ⟨hx, by rw [hd.self]; exact hr⟩
      · exact ⟨hy, hle⟩
    have := (List.subperm_of_subset (by simp [hxy]) hsub).length_le
    simpa using this

/-- A tree which filters. -/
def ratNeighbors (radius : Rat) (S : List Rat) (a : Rat) : List Rat := S.filter fun b => |a - b| ≤ radius

/-- The clusters of `vp_tree` may overlap, and two items within the radius may be in no common cluster. -/
theorem vp_tree_overlap :
    vpTree (ratNeighbors 1) [0, 1, 2] 2 none = [[0, 1], [1, 2]] ∧
    vpTree (ratNeighbors 1) [0, 1, 3, 2] 2 none = [[0, 1], [3, 2]] := by
  decide +kernel

/-- An item alone in its ball is not clustered by itself; a size of at most 2 leaves out the larger ball. -/
example : vpTree (ratNeighbors 1) [5, 1, 2, 3, 9, 8] 2 (some 2) = [[1, 2], [2, 3], [9, 8]] := by decide +kernel

/-- The hypotheses hold for the tree which filters. -/
example (data : List Rat) : ∀ c ∈ vpTree (ratNeighbors 1) data 2 none, ∀ x ∈ c, ∀ y ∈ c, x ∈ data ∧ |x - y| ≤ 2 * 1 :=
  (vp_tree_diameter (ratNeighbors 1) (fun a b => |a - b|) ⟨by simp, abs_sub_comm, abs_sub_le⟩ 1 (by decide)
    (fun _ _ => List.Perm.refl _) data).1

end Fog.Props
