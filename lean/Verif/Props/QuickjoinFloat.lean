import Verif.Props.Quickjoin
import Verif.Lemmas.QuickjoinFloat

/-!
# C111: quickjoin in double precision
-/

namespace Fog.Props

open Fog.Quickjoin Fog.Spec Fog.ClusteringUtils

variable {α : Type _} [DecidableEq α] {fl : ℝ → ℝ}

/-- **C111** partial: computing with doubles, `quickjoin` gives the components of "being two items of the data at a distance of at most
`radius`" when the distances are doubles and obey the triangle inequality exactly (as distances which are integers do): the rounded
windows lose nothing. Missing: distances which are themselves rounded, for which it is false (see below). -/
theorem quickjoin_float_components_partial (hfl : IsRounding fl) (ord : α → List α → List α) (hord : ∀ a l, (ord a l).Perm l)
    (arrival : List (List (α × α)) → List (List (α × α))) (harr : ∀ l, (arrival l).Perm l) (data : List α) (radius : ℝ)
    (distance : α → α → ℝ) (hdd : ∀ a b, IsDouble (distance a b)) (hd : IsPseudoMetric distance) (block_size min : Nat)
    (max : Option Nat) (pivots : Pivots α) (beta : ℝ) (solver : Solver α ℝ) (hv : solver.vp_tree = false) (fuel : Nat)
    (result : Py (List (List α)))
    (h : QuickjoinFloat.quickjoin fl ord arrival data radius distance block_size min max .connectedComponents pivots beta solver fuel =
      some result) :
    ∃ cs, result = .ok cs ∧
      IsComponents (fun a b => TwoItems data a b ∧ distance a b ≤ radius)
        (fun a => ∃ b, TwoItems data a b ∧ distance a b ≤ radius) (SizeBetween min max) cs := by
  unfold QuickjoinFloat.quickjoin at h
  rw [Option.map_eq_some_iff] at h
  obtain ⟨bs, hbs, rfl⟩ := h
  refine clusters_of_relation hord _ _ ?_ min max _
  intro a b
  rw [linked_arrival arrival harr]
  simp only [linked_blockPairs hv hd.symm]
  constructor
  · rintro ⟨block, h1, h2, h3⟩
    have := QuickjoinFloat.blocks_sound hbs (a := a) (b := b) ⟨block, h1, h2⟩
    simp only [Covered, List.mem_singleton, exists_eq_left, Covers] at this
    exact ⟨this, h3⟩
  · rintro ⟨h1, h2⟩
    obtain ⟨block, h3, h4⟩ := QuickjoinFloat.blocks_complete hfl hdd hd.symm hd.triangle hbs h2
      (by simpa only [Covered, List.mem_singleton, exists_eq_left, Covers] using h1)
    exact ⟨block, h3, h4, h2⟩

/-- **C111** partial, with vantage point trees which return the neighbours of an item. -/
theorem quickjoin_float_vptree_partial (hfl : IsRounding fl) (ord : α → List α → List α) (hord : ∀ a l, (ord a l).Perm l)
    (arrival : List (List (α × α)) → List (List (α × α))) (harr : ∀ l, (arrival l).Perm l) (data : List α) (radius : ℝ)
    (distance : α → α → ℝ) (hdd : ∀ a b, IsDouble (distance a b)) (hd : IsPseudoMetric distance) (block_size min : Nat)
    (max : Option Nat) (pivots : Pivots α) (beta : ℝ) (solver : Solver α ℝ) (hv : solver.vp_tree = true)
    (hn : LawfulNeighbors solver.neighbors distance) (hi : Function.Injective solver.ident) (fuel : Nat) (result : Py (List (List α)))
    (h : QuickjoinFloat.quickjoin fl ord arrival data radius distance block_size min max .connectedComponents pivots beta solver fuel =
      some result) :
    ∃ cs, result = .ok cs ∧
      IsComponents (fun a b => (a ∈ data ∧ b ∈ data) ∧ a ≠ b ∧ distance a b ≤ radius)
        (fun a => ∃ b, (a ∈ data ∧ b ∈ data) ∧ a ≠ b ∧ distance a b ≤ radius) (SizeBetween min max) cs := by
  unfold QuickjoinFloat.quickjoin at h
  rw [Option.map_eq_some_iff] at h
  obtain ⟨bs, hbs, rfl⟩ := h
  refine clusters_of_relation hord _ _ ?_ min max _
  intro a b
  rw [linked_arrival arrival harr]
  have hsep := QuickjoinFloat.blocks_separate hbs (by simp [Separate])
  constructor
  · rintro ⟨block, h1, h2⟩
    rw [linked_blockPairs_vptree hv hn hi hd.symm block (hsep block h1)] at h2
    have := QuickjoinFloat.blocks_sound hbs (a := a) (b := b) ⟨block, h1, h2.1⟩
    simp only [Covered, List.mem_singleton, exists_eq_left, Covers] at this
    exact ⟨this.mem, h2.2⟩
  · rintro ⟨h1, h2⟩
    obtain ⟨block, h3, h4⟩ := QuickjoinFloat.blocks_complete hfl hdd hd.symm hd.triangle hbs h2.2
      (by simpa only [Covered, List.mem_singleton, exists_eq_left, Covers] using twoItems_of_ne h1.1 h1.2 h2.1)
    exact ⟨block, h3, (linked_blockPairs_vptree hv hn hi hd.symm block (hsep block h3) a b).mpr ⟨h4, h2⟩⟩

/-- **C111** partial, termination: as in C30, for a metric whose values are doubles, items without repetition, at least two items per block,
`beta <= 1` and pivots chosen in the same list; moreover `beta` times a distance is not rounded to zero. -/
theorem quickjoin_float_terminates_partial (hfl : IsRounding fl) (ord : α → List α → List α)
    (arrival : List (List (α × α)) → List (List (α × α))) (data : List α) (hdata : data.Nodup) (radius : ℝ)
    (distance : α → α → ℝ) (hdd : ∀ a b, IsDouble (distance a b)) (hd : IsMetric distance) (block_size min : Nat)
    (hbs : 2 ≤ block_size) (max : Option Nat) (mode : Mode) (pivots : Pivots α) (hp : SameSide pivots) (beta : ℝ)
    (hb : ∀ x y, x ≠ y → (2 : ℝ) ^ (-1022 : ℤ) ≤ beta * distance x y) (hb' : beta ≤ 1) (solver : Solver α ℝ) :
    ∃ result, QuickjoinFloat.quickjoin fl ord arrival data radius distance block_size min max mode pivots beta solver
      (2 * 5 ^ data.length + 1) = some result := by
  obtain ⟨out, h⟩ := QuickjoinFloat.blocks_terminates hfl hdd hd (radius := radius) hb hb' hbs hp (2 * 5 ^ data.length + 1) 0 [(data, none)]
    (by simpa [NoRepeat] using hdata) (by simp [weights, weight])
  exact ⟨_, by unfold QuickjoinFloat.quickjoin; rw [h]; rfl⟩

/-- The integers which are doubles, and their distance, capped to be a double whatever the integers. -/
noncomputable def cappedDistance (a b : ℤ) : ℝ := ((min |a - b| (2 ^ 53) : ℤ) : ℝ)

theorem cappedDistance_double (a b : ℤ) : IsDouble (cappedDistance a b) := by
  unfold cappedDistance
  apply isDouble_int
  rw [abs_of_nonneg (le_min (abs_nonneg _) (by norm_num))]
  exact min_le_right _ _

theorem cappedDistance_metric : IsMetric cappedDistance where
  self := by intro a; simp [cappedDistance]
  symm := by intro a b; simp only [cappedDistance, abs_sub_comm]
  triangle := by
    intro a b c
    unfold cappedDistance
    have h : min |a - c| (2 ^ 53) ≤ min |a - b| (2 ^ 53) + min |b - c| (2 ^ 53) := by
      have h1 := abs_sub_le a b c
      have h2 := abs_nonneg (a - b)
      have h3 := abs_nonneg (b - c)
      omega
    exact_mod_cast h
  pos := by
    intro a b h
    unfold cappedDistance
    have h1 : 0 < |a - b| := abs_pos.mpr (sub_ne_zero.mpr h)
    have : 0 < min |a - b| (2 ^ 53) := lt_min h1 (by norm_num)
    exact_mod_cast this

theorem cappedDistance_normal (x y : ℤ) (hne : x ≠ y) : (2 : ℝ) ^ (-1022 : ℤ) ≤ 1 * cappedDistance x y := by
  have h1 : (1 : ℝ) ≤ cappedDistance x y := by
    unfold cappedDistance
    have : 1 ≤ min |x - y| (2 ^ 53) := le_min (abs_pos.mpr (sub_ne_zero.mpr hne)) (by norm_num)
    exact_mod_cast this
  have h2 : (2 : ℝ) ^ (-1022 : ℤ) ≤ 1 := by
    rw [← zpow_zero (2 : ℝ)]
    exact zpow_le_zpow_right₀ (by norm_num) (by norm_num)
  linarith

-- The hypotheses of the three theorems hold on data: five integers, two per block.
example : ∃ fl, IsRounding fl ∧ ∃ cs, QuickjoinFloat.quickjoin fl (fun _ l => l) id [5, 1, 6, 2, 9] 1 cappedDistance 2 2 none
    .connectedComponents firstTwo 1 ⟨false, fun _ _ _ => [], fun _ => 0⟩ (2 * 5 ^ 5 + 1) = some (.ok cs) ∧
    IsComponents (fun a b => TwoItems [5, 1, 6, 2, 9] a b ∧ cappedDistance a b ≤ 1)
      (fun a => ∃ b, TwoItems [5, 1, 6, 2, 9] a b ∧ cappedDistance a b ≤ 1) (SizeBetween 2 none) cs := by
  obtain ⟨fl, hfl⟩ := exists_rounding
  obtain ⟨result, h⟩ := quickjoin_float_terminates_partial hfl (fun _ l => l) id [5, 1, 6, 2, 9] (by decide) 1 cappedDistance
    cappedDistance_double cappedDistance_metric 2 2 (le_refl _) none .connectedComponents firstTwo sameSide_firstTwo 1 cappedDistance_normal (le_refl _) ⟨false, fun _ _ _ => [], fun _ => 0⟩
  obtain ⟨cs, rfl, hcs⟩ := quickjoin_float_components_partial hfl _ (fun _ _ => List.Perm.refl _) id (fun _ => List.Perm.refl _) _ 1
    cappedDistance cappedDistance_double cappedDistance_metric.toIsPseudoMetric 2 2 none firstTwo 1 _ rfl _ _ h
  exact ⟨fl, hfl, cs, h, hcs⟩

example : ∃ fl, IsRounding fl ∧ ∃ solver : Solver ℤ ℝ, solver.vp_tree = true ∧ ∃ cs,
    QuickjoinFloat.quickjoin fl (fun _ l => l) id [5, 1, 6, 2, 9] 1 cappedDistance 2 2 none .connectedComponents firstTwo 1 solver
      (2 * 5 ^ 5 + 1) = some (.ok cs) ∧
    IsComponents (fun a b => (a ∈ [5, 1, 6, 2, 9] ∧ b ∈ [5, 1, 6, 2, 9]) ∧ a ≠ b ∧ cappedDistance a b ≤ 1)
      (fun a => ∃ b, (a ∈ [5, 1, 6, 2, 9] ∧ b ∈ [5, 1, 6, 2, 9]) ∧ a ≠ b ∧ cappedDistance a b ≤ 1) (SizeBetween 2 none) cs := by
  obtain ⟨fl, hfl⟩ := exists_rounding
  let solver : Solver ℤ ℝ := ⟨true, fun S A radius => S.filter fun B => decide (cappedDistance A B ≤ radius),
    fun z => if 0 ≤ z then 2 * z.toNat else 2 * (-z).toNat + 1⟩
  obtain ⟨result, h⟩ := quickjoin_float_terminates_partial hfl (fun _ l => l) id [5, 1, 6, 2, 9] (by decide) 1 cappedDistance
    cappedDistance_double cappedDistance_metric 2 2 (le_refl _) none .connectedComponents firstTwo sameSide_firstTwo 1
    cappedDistance_normal (le_refl _) solver
  obtain ⟨cs, rfl, hcs⟩ := quickjoin_float_vptree_partial hfl _ (fun _ _ => List.Perm.refl _) id (fun _ => List.Perm.refl _) _ 1
    cappedDistance cappedDistance_double cappedDistance_metric.toIsPseudoMetric 2 2 none firstTwo 1 solver rfl (lawfulNeighbors_filter _)
    (by
      intro a b hab
      simp only [solver] at hab
      split at hab <;> split at hab <;> omega) _ _ h
  exact ⟨fl, hfl, solver, rfl, cs, h, hcs⟩

/-- Four points of the line, all of them doubles. -/
noncomputable def fourPoints : Nat → ℝ
  | 0 => 382 / 2 ^ 61
  | 1 => 637 / 2 ^ 61
  | 2 => 128 / 2 ^ 61
  | _ => -1

/-- `abs(x - y)` for these points, in double precision. -/
noncomputable def roundedDistance (fl : ℝ → ℝ) (a b : Nat) : ℝ := fl |fourPoints a - fourPoints b|

/-- **C111** is false when the distances are themselves rounded, even from a metric: items 2 and 3 are at a computed distance of one, as
the radius, but the fourth item is left alone. The first pivot is at `1 + 2 ^ -52` from it once rounded, and the window of this pivot
ends at one once rounded. -/
theorem quickjoin_float_loses (hfl : IsRounding fl) :
    QuickjoinFloat.quickjoin fl (fun _ l => l) id [0, 1, 2, 3] 1 (roundedDistance fl) 3 2 none .connectedComponents firstTwo 1
      ⟨false, fun _ _ _ => [], id⟩ 10 = some (.ok [[0, 2, 1]]) ∧
    roundedDistance fl 2 3 = 1 ∧ ∀ i, IsDouble (fourPoints i) := by
  have near : ∀ (x : ℝ) (n k : ℤ), -1074 ≤ k → (2 : ℝ) ^ (52 + k) ≤ x → |n| ≤ 2 ^ 53 → |x - n * (2 : ℝ) ^ k| < (2 : ℝ) ^ k / 2 →
      fl x = n * (2 : ℝ) ^ k := fun x n k h1 h2 h3 h4 => hfl.eq_of_near h1 h2 h3 h4
  have small : ∀ n : Nat, n ≤ 1000 → fl ((n : ℝ) / 2 ^ 61) = n / 2 ^ 61 := by
    intro n hn
    have e : (n : ℝ) / 2 ^ 61 = ((n : ℤ) : ℝ) * (2 : ℝ) ^ (-61 : ℤ) := by
      rw [zpow_neg, div_eq_mul_inv]; norm_cast
    rw [e]
    exact hfl.of_double (isDouble_of_le (by rw [Nat.abs_cast]; have : (n : ℤ) ≤ 1000 := by exact_mod_cast hn
                                            exact this.trans (by norm_num)) (by norm_num))
  have d00 : roundedDistance fl 0 0 = 0 := by simp [roundedDistance, hfl.zero]
  have d01 : roundedDistance fl 0 1 = 255 / 2 ^ 61 := by
    have : |fourPoints 0 - fourPoints 1| = ((255 : Nat) : ℝ) / 2 ^ 61 := by
      simp only [fourPoints]; rw [abs_of_nonpos (by norm_num)]; norm_num
    rw [roundedDistance, this, small _ (by norm_num)]; norm_num
  have d02 : roundedDistance fl 0 2 = 254 / 2 ^ 61 := by
    have : |fourPoints 0 - fourPoints 2| = ((254 : Nat) : ℝ) / 2 ^ 61 := by
      simp only [fourPoints]; rw [abs_of_nonneg (by norm_num)]; norm_num
    rw [roundedDistance, this, small _ (by norm_num)]; norm_num
  have d21 : roundedDistance fl 2 1 = 509 / 2 ^ 61 := by
    have : |fourPoints 2 - fourPoints 1| = ((509 : Nat) : ℝ) / 2 ^ 61 := by
      simp only [fourPoints]; rw [abs_of_nonpos (by norm_num)]; norm_num
    rw [roundedDistance, this, small _ (by norm_num)]; norm_num
  have d03 : roundedDistance fl 0 3 = 1 + 1 / 2 ^ 52 := by
    have : |fourPoints 0 - fourPoints 3| = 1 + 382 / 2 ^ 61 := by
      simp only [fourPoints]; rw [abs_of_nonneg (by norm_num)]; norm_num
    rw [roundedDistance, this, near _ 4503599627370497 (-52) (by norm_num) (by norm_num) (by norm_num) (by rw [abs_lt]; norm_num)]
    norm_num
  have d13 : roundedDistance fl 1 3 = 1 + 1 / 2 ^ 52 := by
    have : |fourPoints 1 - fourPoints 3| = 1 + 637 / 2 ^ 61 := by
      simp only [fourPoints]; rw [abs_of_nonneg (by norm_num)]; norm_num
    rw [roundedDistance, this, near _ 4503599627370497 (-52) (by norm_num) (by norm_num) (by norm_num) (by rw [abs_lt]; norm_num)]
    norm_num
  have d23 : roundedDistance fl 2 3 = 1 := by
    have : |fourPoints 2 - fourPoints 3| = 1 + 128 / 2 ^ 61 := by
      simp only [fourPoints]; rw [abs_of_nonneg (by norm_num)]; norm_num
    rw [roundedDistance, this, near _ 4503599627370496 (-52) (by norm_num) (by norm_num) (by norm_num) (by rw [abs_lt]; norm_num)]
    norm_num
  have hrho : fl (1 * roundedDistance fl 0 1) = 255 / 2 ^ 61 := by
    rw [one_mul, d01]
    have := small 255 (by norm_num)
    push_cast at this
    exact this
  have hg : fl (255 / 2 ^ 61 + 1) = 1 := by
    rw [near _ 4503599627370496 (-52) (by norm_num) (by norm_num) (by norm_num) (by rw [abs_lt]; norm_num)]
    norm_num
  have hl : fl (255 / 2 ^ 61 - 1) ≤ 0 := by
    have := hfl.mono (show (255 / 2 ^ 61 - 1 : ℝ) ≤ 0 by norm_num)
    rwa [hfl.zero] at this
  have hparts : QuickjoinFloat.partition fl (roundedDistance fl) 0 1 (255 / 2 ^ 61) [0, 1, 2, 3] = ⟨[0, 2], [1, 3], [0, 2], [1]⟩ := by
    have t0 : (0 : ℝ) < 255 / 2 ^ 61 := by norm_num
    have t1 : ¬ (255 / 2 ^ 61 : ℝ) < 255 / 2 ^ 61 := lt_irrefl _
    have t2 : (254 / 2 ^ 61 : ℝ) < 255 / 2 ^ 61 := by norm_num
    have t3 : ¬ (1 + 1 / 2 ^ 52 : ℝ) < 255 / 2 ^ 61 := by norm_num
    have t4 : (255 / 2 ^ 61 : ℝ) ≤ 1 := by norm_num
    have t5 : ¬ (1 + 1 / 2 ^ 52 : ℝ) ≤ 1 := by norm_num
    have t6 : fl (255 / 2 ^ 61 - 1) ≤ 254 / 2 ^ 61 := hl.trans (by norm_num)
    simp only [QuickjoinFloat.partition, d00, d01, d02, d03, hg, if_pos t0, if_neg t1, if_pos t2, if_neg t3, if_pos t4, if_neg t5,
      if_pos t6, if_pos hl]
  have hblocks : QuickjoinFloat.blocks fl (roundedDistance fl) 1 1 3 firstTwo 10 0 [([0, 1, 2, 3], none)] =
      some [([0, 2], some [1]), ([0, 2], none), ([1, 3], none)] := by
    have e : QuickjoinFloat.partition fl (roundedDistance fl) 0 1 (fl (1 * roundedDistance fl 0 1)) [0, 1, 2, 3] =
        ⟨[0, 2], [1, 3], [0, 2], [1]⟩ := by rw [hrho, hparts]
    rw [show 10 = 9 + 1 from rfl, QuickjoinFloat.blocks, if_neg (by decide), if_neg (by decide)]
    simp only [firstTwo, List.getElem?_cons_zero, List.getElem?_cons_succ, e]
    rfl
  refine ⟨?_, d23, ?_⟩
  · have hp : (List.map (blockPairs ⟨false, fun _ _ _ => [], id⟩ (roundedDistance fl) 1)
        [([0, 2], some [1]), ([0, 2], none), ([1, 3], none)]).flatten = [(0, 1), (2, 1), (0, 2)] := by
      have u1 : (255 / 2 ^ 61 : ℝ) ≤ 1 := by norm_num
      have u2 : (509 / 2 ^ 61 : ℝ) ≤ 1 := by norm_num
      have u3 : (254 / 2 ^ 61 : ℝ) ≤ 1 := by norm_num
      have u4 : ¬ (1 + 1 / 2 ^ 52 : ℝ) ≤ 1 := by norm_num
      simp only [List.map_cons, List.map_nil, blockPairs, Bool.false_eq_true, if_false, bruteforce, selfBruteforce, List.flatMap_cons,
        List.flatMap_nil, List.filterMap_cons, List.filterMap_nil, d01, d21, d02, d13, if_pos u1, if_pos u2, if_pos u3, if_neg u4,
        List.flatten_cons, List.flatten_nil, List.append_nil, List.cons_append, List.nil_append]
    unfold QuickjoinFloat.quickjoin
    rw [hblocks]
    simp only [Option.map_some, id]
    rw [hp]
    simp [clustersFromPairs, makeGraph, addPair, add, Dict.update, Dict.get?, Dict.set, components, iterate, search, sizeOk,
      bind, Except.bind]
  · intro i
    unfold fourPoints
    split
    · exact ⟨382, -61, by norm_num, by norm_num, by norm_num⟩
    · exact ⟨637, -61, by norm_num, by norm_num, by norm_num⟩
    · exact ⟨128, -61, by norm_num, by norm_num, by norm_num⟩
    · exact ⟨-1, 0, by norm_num, by norm_num, by norm_num⟩

end Fog.Props
