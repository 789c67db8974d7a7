import Verif.Lemmas.QuickjoinChances
import Verif.Props.Quickjoin
import Mathlib.Algebra.Order.Archimedean.Basic
import Mathlib.Data.Real.Archimedean

/-!
# C119: quickjoin ends for almost every drawing of its pivots

At each turn the two pivots are at two different positions of the items of the block, all such pairs being as likely: the positions are
drawn by `rng.randint`, the second one again until it differs from the first. An outcome gives, for each of `s` turns and for each number
of items a block may have, the positions which would be drawn.
-/

namespace Fog.Props

open Fog.Spec Fog.Quickjoin Fog.ClusteringUtils

variable {α K : Type _} [Field K] [LinearOrder K]

/-! ### C119 -/

/-- C119: the pivots of a block are at two different positions, and all such pairs are as likely. -/
theorem drawn_pivots_uniform {n : Nat} (block : Block α) (h2 : 2 ≤ size block) (hn : size block ≤ n) (i j : Nat)
    (hi : i < size block) (hj : j < size block) (hij : i ≠ j) :
    share (fun d : Draw n => d.at block = (i, j)) = 1 / (size block * (size block - 1)) := by
  classical
  have hh : 2 ≤ size block ∧ size block - 2 < n := by omega
  have hat : ∀ d : Draw n, d.at block = (d ⟨size block - 2, hh.2⟩).nat := fun d => dif_pos hh
  have hcard := card_two (size block - 2 + 2)
  have hone : share (fun d : Draw n => d.at block = (i, j)) =
      share (fun p : Two (size block - 2 + 2) => p.nat = (i, j)) := by
    simp only [hat]
    exact share_part (β := fun i : Fin n => Two (i.val + 2)) ⟨size block - 2, hh.2⟩ fun p => p.nat = (i, j)
  rw [hone, share_of_card (s := {⟨(⟨i, by omega⟩, ⟨j, by omega⟩), by simpa using hij⟩})]
  · simp only [Finset.card_singleton, Nat.cast_one]
    rw [hcard]
    obtain ⟨m, hm⟩ := Nat.exists_eq_add_of_le' h2
    rw [hm]
    congr 1
    rw [show m + 2 - 2 + 2 = m + 2 by omega, Nat.cast_sub (Nat.le_mul_self _)]
    push_cast
    ring
  · intro p
    rw [Finset.mem_singleton, Subtype.ext_iff, Prod.ext_iff, Two.nat, Prod.ext_iff]
    exact and_congr Fin.ext_iff Fin.ext_iff

/-- C119: for a metric and different items, the turns taken by `blocks()` are in the mean at most `2 * 11 ^ n`, however many are
allowed. -/
theorem quickjoin_turns_mean [IsStrictOrderedRing K] (data : List α) (hdata : data.Nodup) (radius : K) (distance : α → α → K)
    (hd : IsMetric distance) (block_size : Nat) (hbs : 2 ≤ block_size) (beta : K) (hb : 0 < beta) (hb' : beta ≤ 1) (s : Nat) :
    average (fun o : Fin s → Draw data.length =>
      (((List.range s).countP fun j =>
        (blocks distance radius beta block_size (drawn o) (j + 1) 0 [(data, none)]).isNone : Nat) : ℝ)) ≤
      2 * 11 ^ data.length := by
  have hfine : Fine data.length [(data, none)] := by
    intro block hblock
    rw [List.mem_singleton] at hblock
    subst hblock
    exact ⟨hdata, Nat.le_refl _⟩
  have h := average_turns hd (radius := radius) hb hb' hbs s [(data, none)] hfine
  simp only [costs, List.map_cons, List.map_nil, List.sum_cons, List.sum_nil, cost, add_zero] at h
  exact h

/-- C119: for a metric and different items, quickjoin is not over after `s` turns for a share of the drawings which goes to zero: it ends
with probability one. -/
theorem quickjoin_ends [DecidableEq α] [IsStrictOrderedRing K] (ord : α → List α → List α)
    (arrival : List (List (α × α)) → List (List (α × α))) (data : List α) (hdata : data.Nodup) (radius : K)
    (distance : α → α → K) (hd : IsMetric distance) (block_size : Nat) (hbs : 2 ≤ block_size) (min : Nat) (max : Option Nat)
    (mode : Mode) (beta : K) (hb : 0 < beta) (hb' : beta ≤ 1) (solver : Solver α K) (s : Nat) (hs : 0 < s) :
    share (fun o : Fin s → Draw data.length =>
      quickjoin ord arrival data radius distance block_size min max mode (drawn o) beta solver (s + 1) = none) ≤
      2 * 11 ^ data.length / s := by
  have hmean := quickjoin_turns_mean data hdata radius distance hd block_size hbs beta hb hb' s
  have hpos : (0 : ℝ) < s := by exact_mod_cast hs
  rw [le_div_iff₀ hpos, mul_comm]
  refine (markov _ (fun o => ?_) (s : ℝ) _ ?_).trans hmean
  · positivity
  · intro o ho
    unfold quickjoin at ho
    rw [Option.map_eq_none_iff] at ho
    have := turns_all distance radius beta block_size (drawn o) [(data, none)] s ho
    unfold turns at this
    rw [this]

/-- C119: so for any risk there are enough turns. -/
theorem quickjoin_ends_almost_surely [DecidableEq α] [IsStrictOrderedRing K] (ord : α → List α → List α)
    (arrival : List (List (α × α)) → List (List (α × α))) (data : List α) (hdata : data.Nodup) (radius : K)
    (distance : α → α → K) (hd : IsMetric distance) (block_size : Nat) (hbs : 2 ≤ block_size) (min : Nat) (max : Option Nat)
    (mode : Mode) (beta : K) (hb : 0 < beta) (hb' : beta ≤ 1) (solver : Solver α K) (risk : ℝ) (hrisk : 0 < risk) :
    ∃ s₀ : Nat, ∀ s, s₀ ≤ s → share (fun o : Fin s → Draw data.length =>
      quickjoin ord arrival data radius distance block_size min max mode (drawn o) beta solver (s + 1) = none) ≤ risk := by
  obtain ⟨m, hm⟩ := exists_nat_gt (2 * 11 ^ data.length / risk)
  refine ⟨m + 1, fun s hs => ?_⟩
  have hpos : (0 : ℝ) < s := by exact_mod_cast (show 0 < s by omega)
  refine (quickjoin_ends ord arrival data hdata radius distance hd block_size hbs min max mode beta hb hb' solver s (by omega)).trans ?_
  rw [div_le_iff₀ hpos]
  rw [div_lt_iff₀ hrisk] at hm
  have : (m : ℝ) ≤ s := by exact_mod_cast (show m ≤ s by omega)
  nlinarith

/-- Four numbers, two per block: a million turns are not enough for less than three drawings in a hundred. -/
example (solver : Solver ℚ ℚ) :
    share (fun o : Fin 1000000 → Draw 4 => quickjoin (fun _ l => l) id [0, 1, 10, 11] 10 (fun x y : ℚ => |x - y|) 2 2 none
      .connectedComponents (drawn o) 1 solver (1000000 + 1) = none) ≤ 3 / 100 := by
  refine (quickjoin_ends (fun _ l => l) id [0, 1, 10, 11] (by decide +kernel) 10 (fun x y : ℚ => |x - y|) isMetric_abs 2 (by omega) 2
    none .connectedComponents 1 (by norm_num) (by norm_num) solver 1000000 (by omega)).trans ?_
  simp only [List.length_cons, List.length_nil]
  norm_num

/-- The pivots which never end on `0, 1, 10, 11`: the first item and the third one. -/
def firstAndThird : Pivots ℚ := fun _ _ => (0, 2)

/-- C119: yet for some drawings it never ends: the pivots are `0` and `10` at each turn, the items `0` and `1` are near the first one, `10` and
`11` far from it, all within the radius of the limit, and the pair of lists is put back as it was. -/
theorem quickjoin_may_never_end (ord : ℚ → List ℚ → List ℚ) (arrival : List (List (ℚ × ℚ)) → List (List (ℚ × ℚ)))
    (min : Nat) (max : Option Nat) (mode : Mode) (solver : Solver ℚ ℚ) (fuel : Nat) :
    quickjoin ord arrival [0, 1, 10, 11] 10 (fun x y => |x - y|) 2 min max mode firstAndThird 1 solver fuel = none := by
  have hP1 : partition (fun x y : ℚ => |x - y|) 0 10 (1 * |0 - 10|) [0, 1] = ⟨[0, 1], [], [0, 1], []⟩ := by
    simp [partition]
  have hP2 : partition (fun x y : ℚ => |x - y|) 0 10 (1 * |0 - 10|) [10, 11] = ⟨[], [10, 11], [], [10, 11]⟩ := by
    simp [partition]; norm_num
  have hP : partition (fun x y : ℚ => |x - y|) 0 10 (1 * |0 - 10|) [0, 1, 10, 11] = ⟨[0, 1], [10, 11], [0, 1], [10, 11]⟩ := by
    simp [partition]; norm_num
  have hpair : ∀ fuel step stack, blocks (fun x y : ℚ => |x - y|) 10 1 2 firstAndThird fuel step (([0, 1], some [10, 11]) :: stack) = none ∧
      blocks (fun x y : ℚ => |x - y|) 10 1 2 firstAndThird fuel step (([], some []) :: ([0, 1], some [10, 11]) :: stack) = none := by
    intro fuel
    induction fuel with
    | zero => intro step stack; exact ⟨rfl, rfl⟩
    | succ fuel ih =>
        intro step stack
        constructor
        · show (let P1 := partition (fun x y : ℚ => |x - y|) 0 10 (1 * |0 - 10|) [0, 1]
            let P2 := partition (fun x y : ℚ => |x - y|) 0 10 (1 * |0 - 10|) [10, 11]
            blocks (fun x y : ℚ => |x - y|) 10 1 2 firstAndThird fuel (step + 1)
              ((P1.Gw, some P2.Lw) :: (P1.Lw, some P2.Gw) :: (P1.G, some P2.G) :: (P1.L, some P2.L) :: stack)) = none
          rw [hP1, hP2]
          exact (ih (step + 1) _).2
        · exact (ih (step + 1) stack).1
  unfold quickjoin
  rw [Option.map_eq_none_iff]
  match fuel with
  | 0 => rfl
  | fuel + 1 =>
      show (let P := partition (fun x y : ℚ => |x - y|) 0 10 (1 * |0 - 10|) [0, 1, 10, 11]
        blocks (fun x y : ℚ => |x - y|) 10 1 2 firstAndThird fuel 1
          ((P.Lw, some P.Gw) :: (P.L, none) :: (P.G, none) :: [])) = none
      rw [hP]
      exact (hpair fuel 1 _).1

end Fog.Props
