import Verif.Model.QuickjoinCalls
import Mathlib.Data.Nat.Choose.Basic
import Mathlib.Data.List.Basic
import Mathlib.Data.Rat.Defs
import Mathlib.Algebra.Order.Ring.Rat
import Mathlib.Tactic.IntervalCases

/-!
# `quickjoin`: how many distances it computes (C164)
-/

namespace Fog.Props

open Fog.Quickjoin Fog.ClusteringUtils

variable {α K : Type _} [Field K] [LinearOrder K]

theorem partitionCalls_eq (distance : α → α → K) (p : α) (radius rho : K) (S : List α) :
    partitionCalls distance p radius rho S = (partition distance p radius rho S, S.length) := by
  induction S with
  | nil => rfl
  | cons item S ih =>
      simp only [partitionCalls, partition, ih, List.length_cons]
      by_cases h : distance p item < rho
      · rw [if_pos h, if_pos h]
      · rw [if_neg h, if_neg h]

theorem compareCalls_eq (A : α) (distance : α → α → K) (radius : K) (S : List α) :
    compareCalls A distance radius S = (S.filterMap (fun B => if distance A B ≤ radius then some (A, B) else none), S.length) := by
  induction S with
  | nil => rfl
  | cons B S ih =>
      simp only [compareCalls, ih, List.filterMap_cons, List.length_cons]
      by_cases h : distance A B ≤ radius
      · simp only [if_pos h]
      · simp only [if_neg h]

theorem bruteforceCalls_eq (S1 S2 : List α) (distance : α → α → K) (radius : K) :
    bruteforceCalls S1 S2 distance radius = (bruteforce S1 S2 distance radius, S1.length * S2.length) := by
  induction S1 with
  | nil => simp [bruteforceCalls, bruteforce]
  | cons A S1 ih =>
      simp only [bruteforceCalls, ih, compareCalls_eq, List.length_cons, Nat.succ_mul, bruteforce, List.flatMap_cons]
      rw [Nat.add_comm]

theorem selfBruteforceCalls_eq (S : List α) (distance : α → α → K) (radius : K) :
    selfBruteforceCalls S distance radius = (selfBruteforce S distance radius, S.length.choose 2) := by
  induction S with
  | nil => rfl
  | cons A S ih =>
      simp only [selfBruteforceCalls, ih, compareCalls_eq, List.length_cons, selfBruteforce]
      rw [Nat.choose_succ_succ' S.length 1, Nat.choose_one_right]

/-- The pairs of different places which a block stands for. -/
def blockSize : Block α → Nat
  | (S1, none) => S1.length.choose 2
  | (S1, some S2) => S1.length * S2.length

theorem quickjoinBlockCalls_eq [DecidableEq α] (neighbors : Neighbors α K) (ident : α → Nat) (distance : α → α → K) (radius : K) (b : Block α) :
    blockCalls distance radius b = (blockPairs ⟨false, neighbors, ident⟩ distance radius b, blockSize b) := by
  obtain ⟨S1, _ | S2⟩ := b
  · exact selfBruteforceCalls_eq S1 distance radius
  · exact bruteforceCalls_eq S1 S2 distance radius

theorem blocksCalls_fst (distance : α → α → K) (radius beta : K) (block_size : Nat) (pivots : Pivots α) (fuel step : Nat)
    (stack : List (Block α)) : (blocksCalls distance radius beta block_size pivots fuel step stack).map Prod.fst =
      blocks distance radius beta block_size pivots fuel step stack := by
  induction fuel generalizing step stack with
  | zero => rfl
  | succ fuel ih =>
      rcases stack with _ | ⟨⟨S1, _ | S2⟩, stack⟩
      · rfl
      · simp only [blocksCalls, blocks, partitionCalls_eq]
        split
        · rw [← ih, Option.map_map, Option.map_map]; rfl
        · split
          · rfl
          · rcases S1[(pivots step (S1, none)).1]? with _ | p1
            · rfl
            · rcases S1[(pivots step (S1, none)).2]? with _ | p2
              · rfl
              · dsimp only
                rw [← ih, Option.map_map]; rfl
      · simp only [blocksCalls, blocks, partitionCalls_eq]
        split
        · split
          · exact ih _ _
          · rw [← ih, Option.map_map, Option.map_map]; rfl
        · split
          · rfl
          · generalize (if (pivots step (S1, some S2)).1 < S1.length then S1[(pivots step (S1, some S2)).1]?
              else S2[(pivots step (S1, some S2)).1 - S1.length]?) = x
            generalize (if (pivots step (S1, some S2)).2 < S1.length then S1[(pivots step (S1, some S2)).2]?
              else S2[(pivots step (S1, some S2)).2 - S1.length]?) = y
            rcases x with _ | x
            · rfl
            · rcases y with _ | y
              · rfl
              · dsimp only
                rw [← ih, Option.map_map]; rfl

theorem partition_lengths (distance : α → α → K) (p : α) (radius rho : K) (S : List α) :
    (partition distance p radius rho S).L.length + (partition distance p radius rho S).G.length = S.length ∧
    (partition distance p radius rho S).Lw.length ≤ (partition distance p radius rho S).L.length ∧
    (partition distance p radius rho S).Gw.length ≤ (partition distance p radius rho S).G.length := by
  induction S with
  | nil => exact ⟨rfl, Nat.le_refl _, Nat.le_refl _⟩
  | cons item S ih =>
      simp only [partition]
      split
      · dsimp only
        split <;> simp only [List.length_cons] <;> omega
      · dsimp only
        split <;> simp only [List.length_cons] <;> omega

theorem choose_two_add (a b : Nat) : (a + b).choose 2 = a.choose 2 + b.choose 2 + a * b := by
  induction b with
  | zero => simp
  | succ b ih =>
      rw [← Nat.add_assoc, Nat.choose_succ_succ' (a + b) 1, Nat.choose_succ_succ' b 1, Nat.choose_one_right, Nat.choose_one_right, ih,
        Nat.mul_succ, show 1 + 1 = 2 from rfl]
      omega

theorem size_self (distance : α → α → K) (p : α) (radius rho : K) (S : List α) :
    (partition distance p radius rho S).Lw.length * (partition distance p radius rho S).Gw.length +
      ((partition distance p radius rho S).L.length.choose 2 + (partition distance p radius rho S).G.length.choose 2) ≤ S.length.choose 2 := by
  obtain ⟨h1, h2, h3⟩ := partition_lengths distance p radius rho S
  rw [← h1, choose_two_add]
  have := Nat.mul_le_mul h2 h3
  omega

theorem size_win (distance : α → α → K) (p : α) (radius rho : K) (S T : List α) :
    (partition distance p radius rho S).Gw.length * (partition distance p radius rho T).Lw.length +
      ((partition distance p radius rho S).Lw.length * (partition distance p radius rho T).Gw.length +
      ((partition distance p radius rho S).G.length * (partition distance p radius rho T).G.length +
      (partition distance p radius rho S).L.length * (partition distance p radius rho T).L.length)) ≤ S.length * T.length := by
  obtain ⟨h1, h2, h3⟩ := partition_lengths distance p radius rho S
  obtain ⟨k1, k2, k3⟩ := partition_lengths distance p radius rho T
  rw [← h1, ← k1, Nat.add_mul, Nat.mul_add, Nat.mul_add]
  have := Nat.mul_le_mul h3 k2
  have := Nat.mul_le_mul h2 k3
  omega

theorem blocksCalls_size (distance : α → α → K) (radius beta : K) (block_size : Nat) (pivots : Pivots α) (fuel step : Nat)
    (stack : List (Block α)) (r : List (Block α) × Nat) (h : blocksCalls distance radius beta block_size pivots fuel step stack = some r) :
    (r.1.map blockSize).sum ≤ (stack.map blockSize).sum := by
  induction fuel generalizing step stack r with
  | zero => cases h
  | succ fuel ih =>
      rcases stack with _ | ⟨⟨S1, _ | S2⟩, stack⟩
      · cases h
        exact Nat.le_refl _
      · simp only [blocksCalls, partitionCalls_eq] at h
        rw [List.map_cons, List.sum_cons]
        split at h
        · obtain ⟨q, hq, rfl⟩ := Option.map_eq_some_iff.mp h
          rw [List.map_cons, List.sum_cons]
          exact Nat.add_le_add_left (ih _ _ _ hq) _
        · split at h
          · cases h
          · split at h
            · obtain ⟨q, hq, rfl⟩ := Option.map_eq_some_iff.mp h
              refine Nat.le_trans (ih _ _ q hq) ?_
              rename_i p1 p2 _ _
              have := size_self distance p1 radius (beta * distance p1 p2) S1
              simp only [List.map_cons, List.sum_cons, blockSize]
              omega
            · cases h
      · simp only [blocksCalls, partitionCalls_eq] at h
        rw [List.map_cons, List.sum_cons]
        split at h
        · split at h
          · exact Nat.le_trans (ih _ _ _ h) (Nat.le_add_left _ _)
          · obtain ⟨q, hq, rfl⟩ := Option.map_eq_some_iff.mp h
            rw [List.map_cons, List.sum_cons]
            exact Nat.add_le_add_left (ih _ _ _ hq) _
        · split at h
          · cases h
          · generalize (if (pivots step (S1, some S2)).1 < S1.length then S1[(pivots step (S1, some S2)).1]?
              else S2[(pivots step (S1, some S2)).1 - S1.length]?) = x at h
            generalize (if (pivots step (S1, some S2)).2 < S1.length then S1[(pivots step (S1, some S2)).2]?
              else S2[(pivots step (S1, some S2)).2 - S1.length]?) = y at h
            rcases x with _ | p1
            · cases h
            · rcases y with _ | p2
              · cases h
              · obtain ⟨q, hq, rfl⟩ := Option.map_eq_some_iff.mp h
                refine Nat.le_trans (ih _ _ q hq) ?_
                have := size_win distance p1 radius (beta * distance p1 p2) S1 S2
                simp only [List.map_cons, List.sum_cons, blockSize]
                omega

section

variable [DecidableEq α] (ord : α → List α → List α) (data : List α) (radius : K) (distance : α → α → K) (block_size min_size : Nat)
  (max_size : Option Nat) (mode : Mode) (pivots : Pivots α) (beta : K) (fuel : Nat)

/-- C164. The clusters are those of `quickjoin`. -/
theorem quickjoin_calls_same (neighbors : Neighbors α K) (ident : α → Nat) :
    (quickjoinCalls ord data radius distance block_size min_size max_size mode pivots beta fuel).map Prod.fst =
      quickjoin ord id data radius distance block_size min_size max_size mode pivots beta ⟨false, neighbors, ident⟩ fuel := by
  unfold quickjoinCalls quickjoin
  rw [← blocksCalls_fst, Option.map_map, Option.map_map]
  congr 1
  funext bs
  simp only [Function.comp, id, List.map_map]
  congr 2
  refine List.map_congr_left fun b _ => ?_
  simp only [Function.comp, quickjoinBlockCalls_eq neighbors ident]

/-- C164. Solving the blocks never computes more distances than comparing all pairs, whatever the distance, the radius, the pivots, `beta`
and the size of the blocks. -/
theorem quickjoin_calls_partial (r : Py (List (List α)) × Nat × Nat)
    (h : quickjoinCalls ord data radius distance block_size min_size max_size mode pivots beta fuel = some r) :
    r.2.2 ≤ data.length.choose 2 := by
  obtain ⟨bs, hbs, rfl⟩ := Option.map_eq_some_iff.mp h
  have := blocksCalls_size _ _ _ _ _ _ _ _ _ hbs
  simp only [List.map_cons, List.map_nil, List.sum_cons, List.sum_nil, Nat.add_zero] at this
  refine Nat.le_trans (Nat.le_of_eq ?_) this
  dsimp only
  rw [List.map_map]
  congr 1
  refine List.map_congr_left fun b _ => ?_
  simp only [Function.comp, quickjoinBlockCalls_eq (fun _ _ _ => []) (fun _ => 0)]

/-- C164. When all items are in one block, the distances are those of all pairs, and there are no others. -/
theorem quickjoin_calls_one_block (hN : data.length ≤ block_size) (hf : 2 ≤ fuel) :
    (quickjoinCalls ord data radius distance block_size min_size max_size mode pivots beta fuel).map Prod.snd =
      some (0, data.length.choose 2) := by
  obtain ⟨n, rfl⟩ : ∃ n, fuel = n + 1 + 1 := ⟨fuel - 2, by omega⟩
  simp only [quickjoinCalls, blocksCalls, if_pos hN, Option.map_some, blockCalls, selfBruteforceCalls_eq, List.map_cons, List.map_nil,
    List.sum_cons, List.sum_nil, Nat.add_zero]

/-- C164. When the items are not in one block, choosing `rho` and partitioning the data alone computes one distance more than there are
items: two or three items cost more than comparing all pairs. -/
theorem quickjoin_calls_split (hN : block_size < data.length) (r : Py (List (List α)) × Nat × Nat)
    (h : quickjoinCalls ord data radius distance block_size min_size max_size mode pivots beta fuel = some r) :
    data.length + 1 ≤ r.2.1 ∧ (data.length ≤ 3 → data.length.choose 2 < r.2.1 + r.2.2) := by
  obtain ⟨bs, hbs, rfl⟩ := Option.map_eq_some_iff.mp h
  have h1 : data.length + 1 ≤ bs.2 := by
    cases fuel with
    | zero => cases hbs
    | succ fuel =>
        simp only [blocksCalls, partitionCalls_eq, if_neg (Nat.not_le.mpr hN)] at hbs
        split at hbs
        · cases hbs
        · split at hbs
          · obtain ⟨q, hq, rfl⟩ := Option.map_eq_some_iff.mp hbs
            dsimp only
            omega
          · cases hbs
  refine ⟨h1, fun h3 => ?_⟩
  have h2 : data.length.choose 2 < data.length + 1 := by
    generalize data.length = n at h3
    interval_cases n <;> decide
  dsimp only
  omega

end

/-- Two items in blocks of one: three distances to partition them, where comparing them takes one. -/
example : (quickjoinCalls (fun _ l => l) [(0 : ℚ), 1] 0 (fun x y => max (x - y) (y - x)) 1 2 none .connectedComponents (fun _ _ => (0, 1)) 1 9).map
    Prod.snd = some (3, 0) := by decide +kernel

/-- Four items in blocks of two: five distances to partition them, and two to solve the blocks instead of six. -/
example : (quickjoinCalls (fun _ l => l) [(0 : ℚ), 1, 10, 11] 1 (fun x y => max (x - y) (y - x)) 2 2 none .connectedComponents
    (fun _ _ => (0, 2)) 1 9).map Prod.snd = some (5, 2) := by decide +kernel

end Fog.Props
