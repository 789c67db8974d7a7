import Verif.Lemmas.Quickjoin
import Mathlib.Algebra.Order.Field.Rat
import Mathlib.Algebra.Order.Ring.Abs

/-!
# Properties of quickjoin (C28-C30, C60)
-/

namespace Fog.Props

open Fog.ClusteringUtils Fog.Quickjoin Fog.Spec

variable {α K : Type _} [Field K] [LinearOrder K] [DecidableEq α]

/-! ### C28 -/

theorem linked_arrival (arrival : List (List (α × α)) → List (List (α × α))) (harr : ∀ l, (arrival l).Perm l)
    (f : Block α → List (α × α)) (bs : List (Block α)) (a b : α) :
    Linked (arrival (bs.map f)).flatten a b ↔ ∃ block ∈ bs, Linked (f block) a b := by
  have hm : ∀ p, p ∈ (arrival (bs.map f)).flatten ↔ ∃ block ∈ bs, p ∈ f block := by
    intro p
    rw [List.mem_flatten]
    constructor
    · rintro ⟨l, hl, hp⟩
      rw [(harr _).mem_iff, List.mem_map] at hl
      obtain ⟨block, hb, rfl⟩ := hl
      exact ⟨block, hb, hp⟩
    · rintro ⟨block, hb, hp⟩
      exact ⟨f block, (harr _).mem_iff.mpr (List.mem_map_of_mem hb), hp⟩
  unfold Linked
  rw [hm, hm]
  constructor
  · rintro (⟨block, h1, h2⟩ | ⟨block, h1, h2⟩)
    · exact ⟨block, h1, Or.inl h2⟩
    · exact ⟨block, h1, Or.inr h2⟩
  · rintro ⟨block, h1, h2 | h2⟩
    · exact Or.inl ⟨block, h1, h2⟩
    · exact Or.inr ⟨block, h1, h2⟩

theorem quickjoin_linked [IsStrictOrderedRing K] (arrival : List (List (α × α)) → List (List (α × α))) (harr : ∀ l, (arrival l).Perm l)
    {data : List α} {radius : K} {distance : α → α → K} (hd : IsPseudoMetric distance) {block_size : Nat} {pivots : Pivots α} {beta : K}
    {solver : Solver α K} (hv : solver.vp_tree = false) {fuel : Nat} {bs : List (Block α)}
    (hbs : blocks distance radius beta block_size pivots fuel 0 [(data, none)] = some bs) (a b : α) :
    Linked (arrival (bs.map (blockPairs solver distance radius))).flatten a b ↔ TwoItems data a b ∧ distance a b ≤ radius := by
  rw [linked_arrival arrival harr]
  simp only [linked_blockPairs hv hd.symm]
  constructor
  · rintro ⟨block, h1, h2, h3⟩
    have := blocks_sound hbs (a := a) (b := b) ⟨block, h1, h2⟩
    simp only [Covered, List.mem_singleton, exists_eq_left, Covers] at this
    exact ⟨this, h3⟩
  · rintro ⟨h1, h2⟩
    obtain ⟨block, h3, h4⟩ := blocks_complete hd.symm hd.triangle hbs h2
      (by simpa only [Covered, List.mem_singleton, exists_eq_left, Covers] using h1)
    exact ⟨block, h3, h4, h2⟩

/-- C28: whenever it ends, `quickjoin` gives the components of "being two items of the data at a distance of at most
`radius`": for all pivots, for one or several processes (any order of arrival of the results), any `beta`, any block size. -/
theorem quickjoin_components [IsStrictOrderedRing K] (ord : α → List α → List α) (hord : ∀ a l, (ord a l).Perm l)
    (arrival : List (List (α × α)) → List (List (α × α))) (harr : ∀ l, (arrival l).Perm l) (data : List α) (radius : K)
    (distance : α → α → K) (hd : IsPseudoMetric distance) (block_size min : Nat) (max : Option Nat) (pivots : Pivots α)
    (beta : K) (solver : Solver α K) (hv : solver.vp_tree = false) (fuel : Nat) (result : Py (List (List α)))
    (h : quickjoin ord arrival data radius distance block_size min max .connectedComponents pivots beta solver fuel =
      some result) :
    ∃ cs, result = .ok cs ∧
      IsComponents (fun a b => TwoItems data a b ∧ distance a b ≤ radius)
        (fun a => ∃ b, TwoItems data a b ∧ distance a b ≤ radius) (SizeBetween min max) cs := by
  unfold quickjoin at h
  rw [Option.map_eq_some_iff] at h
  obtain ⟨bs, hbs, rfl⟩ := h
  exact clusters_of_relation hord _ _ (quickjoin_linked arrival harr hd hv hbs) min max _

/-- C28 with vantage point trees which return the neighbours of an item: equal items are not compared. -/
theorem quickjoin_vptree_components [IsStrictOrderedRing K] (ord : α → List α → List α) (hord : ∀ a l, (ord a l).Perm l)
    (arrival : List (List (α × α)) → List (List (α × α))) (harr : ∀ l, (arrival l).Perm l) (data : List α) (radius : K)
    (distance : α → α → K) (hd : IsPseudoMetric distance) (block_size min : Nat) (max : Option Nat) (pivots : Pivots α)
    (beta : K) (solver : Solver α K) (hv : solver.vp_tree = true) (hn : LawfulNeighbors solver.neighbors distance)
    (hi : Function.Injective solver.ident) (fuel : Nat) (result : Py (List (List α)))
    (h : quickjoin ord arrival data radius distance block_size min max .connectedComponents pivots beta solver fuel =
      some result) :
    ∃ cs, result = .ok cs ∧
      IsComponents (fun a b => (a ∈ data ∧ b ∈ data) ∧ a ≠ b ∧ distance a b ≤ radius)
        (fun a => ∃ b, (a ∈ data ∧ b ∈ data) ∧ a ≠ b ∧ distance a b ≤ radius) (SizeBetween min max) cs := by
  unfold quickjoin at h
  rw [Option.map_eq_some_iff] at h
  obtain ⟨bs, hbs, rfl⟩ := h
  refine clusters_of_relation hord _ _ ?_ min max _
  intro a b
  rw [linked_arrival arrival harr]
  have hsep := blocks_separate hbs (by simp [Separate])
  constructor
  · rintro ⟨block, h1, h2⟩
    rw [linked_blockPairs_vptree hv hn hi hd.symm block (hsep block h1)] at h2
    have := blocks_sound hbs (a := a) (b := b) ⟨block, h1, h2.1⟩
    simp only [Covered, List.mem_singleton, exists_eq_left, Covers] at this
    exact ⟨this.mem, h2.2⟩
  · rintro ⟨h1, h2⟩
    obtain ⟨block, h3, h4⟩ := blocks_complete hd.symm hd.triangle hbs h2.2
      (by simpa only [Covered, List.mem_singleton, exists_eq_left, Covers] using twoItems_of_ne h1.1 h1.2 h2.1)
    exact ⟨block, h3, (linked_blockPairs_vptree hv hn hi hd.symm block (hsep block h3) a b).mpr ⟨h4, h2⟩⟩

/-- The usual distance of numbers is a metric. -/
theorem isMetric_abs : IsMetric (fun x y : ℚ => |x - y|) where
  self := by simp
  symm := fun a b => abs_sub_comm a b
  triangle := fun a b c => abs_sub_le a b c
  pos := fun a b h => abs_pos.mpr (sub_ne_zero.mpr h)

/-- Neighbours found by looking at all items. -/
theorem lawfulNeighbors_filter (distance : α → α → K) :
    LawfulNeighbors (fun S A radius => S.filter fun B => decide (distance A B ≤ radius)) distance := by
  intro S A radius B
  simp

/-- Pivots which meet `SameSide`. -/
def firstTwo : Pivots α
  | _, (_, none) => (0, 1)
  | _, (S1, some _) => if 2 ≤ S1.length then (0, 1) else (S1.length, S1.length + 1)

/-! ### C29 -/

omit [DecidableEq α] in
/-- C29 is false. With a similarity and a radius which is not negative, the window of the lower part is always empty: no pair
across the two parts is ever compared. -/
theorem quickjoin_similarity_window [IsStrictOrderedRing K] (similarity : α → α → K) (radius : K) (hr : 0 ≤ radius) (p : α)
    (rho : K) (S : List α) : (partition (fun x y => -similarity x y) p (-radius) rho S).Lw = [] := by
  rw [partition_eq]
  simp only [List.filter_eq_nil_iff, Bool.and_eq_true, decide_eq_true_eq, not_and, not_le]
  intro x _ h
  linarith

/-- C29 is false: three items, all similar enough, with two items per block. One is left alone. -/
theorem quickjoin_similarity_loses :
    quickjoinSimilarity (fun _ l => l) id [0, 1, 2] (1 : ℚ) (fun a b => if a = b then 2 else 1) 2 2 none
      .connectedComponents (fun _ _ => (0, 1)) 1 ⟨false, fun _ _ _ => [], id⟩ 10 = some (.ok [[1, 2]]) ∧
    ∀ a b : Nat, (1 : ℚ) ≤ if a = b then 2 else 1 := by
  refine ⟨?_, ?_⟩
  · have hb : (blocks (fun x y : Nat => -(if x = y then (2 : ℚ) else 1)) (-1) 1 2 (fun _ _ => (0, 1)) 10 0
        [([0, 1, 2], none)]) = some [([0], none), ([1, 2], none)] := by decide +kernel
    have hp : ([([0], none), ([1, 2], none)] : List (Block Nat)).map (blockPairs ⟨false, fun _ _ _ => [], id⟩
        (fun x y : Nat => -(if x = y then (2 : ℚ) else 1)) (-1)) = [[], [(1, 2)]] := by decide +kernel
    unfold quickjoinSimilarity quickjoin
    rw [hb, Option.map_some, hp]
    simp [clustersFromPairs, makeGraph, addPair, add, Dict.update, Dict.get?, Dict.set, components, iterate, search, sizeOk,
      bind, Except.bind]
  intro a b
  split <;> norm_num

/-- C29, what holds: items linked are similar enough, and when the data is not larger than a block all similar items are
linked. -/
theorem quickjoin_similarity_partial [IsStrictOrderedRing K] (ord : α → List α → List α)
    (hord : ∀ a l, (ord a l).Perm l) (arrival : List (List (α × α)) → List (List (α × α)))
    (harr : ∀ l, (arrival l).Perm l) (data : List α) (radius : K) (similarity : α → α → K)
    (hs : ∀ a b, similarity a b = similarity b a) (block_size min : Nat) (max : Option Nat) (pivots : Pivots α)
    (beta : K) (solver : Solver α K) (hv : solver.vp_tree = false) (fuel : Nat) (result : Py (List (List α)))
    (h : quickjoinSimilarity ord arrival data radius similarity block_size min max .connectedComponents pivots beta solver
      fuel = some result) :
    ∃ cs, result = .ok cs ∧ ∃ R : α → α → Prop,
      (∀ a b, R a b → TwoItems data a b ∧ radius ≤ similarity a b) ∧
      (data.length ≤ block_size → ∀ a b, TwoItems data a b ∧ radius ≤ similarity a b → R a b) ∧
      IsComponents R (fun a => ∃ b, R a b) (SizeBetween min max) cs := by
  unfold quickjoinSimilarity quickjoin at h
  rw [Option.map_eq_some_iff] at h
  obtain ⟨bs, hbs, rfl⟩ := h
  have hiff : ∀ a b, -similarity a b ≤ -radius ↔ radius ≤ similarity a b := fun a b => neg_le_neg_iff
  have hs' : ∀ a b, (fun x y => -similarity x y) a b = (fun x y => -similarity x y) b a :=
    fun a b => congrArg _ (hs a b)
  have hl : ∀ a b, Linked (arrival (bs.map (blockPairs solver (fun x y => -similarity x y) (-radius)))).flatten a b ↔
      Covered bs a b ∧ radius ≤ similarity a b := by
    intro a b
    rw [linked_arrival arrival harr]
    simp only [linked_blockPairs hv hs', hiff, Covered]
    constructor
    · rintro ⟨block, h1, h2, h3⟩; exact ⟨⟨block, h1, h2⟩, h3⟩
    · rintro ⟨⟨block, h1, h2⟩, h3⟩; exact ⟨block, h1, h2, h3⟩
  obtain ⟨cs, h1, h2⟩ := clusters_of_relation hord _ _ hl min max true
  refine ⟨cs, h1, _, ?_, ?_, h2⟩
  · rintro a b ⟨h3, h4⟩
    have := blocks_sound hbs h3
    simp only [Covered, List.mem_singleton, exists_eq_left, Covers] at this
    exact ⟨this, h4⟩
  · rintro hN a b ⟨h3, h4⟩
    refine ⟨?_, h4⟩
    match fuel, hbs with
    | fuel + 1, hbs =>
        simp only [blocks, hN, if_true] at hbs
        rw [Option.map_eq_some_iff] at hbs
        obtain ⟨bs', _, rfl⟩ := hbs
        exact ⟨_, List.mem_cons_self, h3⟩

/-! ### C30 -/

/-- C30 is false: more equal items than the block size, and it never ends, whatever the pivots. -/
theorem quickjoin_diverges (ord : α → List α → List α) (arrival : List (List (α × α)) → List (List (α × α))) (a : α)
    (n : Nat) (radius : K) (distance : α → α → K) (ha : distance a a = 0) (block_size min : Nat) (hn : block_size < n)
    (max : Option Nat) (mode : Mode) (pivots : Pivots α) (beta : K) (solver : Solver α K) (fuel : Nat) :
    quickjoin ord arrival (List.replicate n a) radius distance block_size min max mode pivots beta solver fuel =
      none := by
  unfold quickjoin
  rw [blocks_diverges ha hn fuel 0 _ (by simp)]
  rfl

/-- C30, what holds: for a metric, items without repetition, at least two items per block and `0 < beta <= 1`, it ends when the two
pivots for two lists are chosen in the same one. Such a choice is always possible, so that no state is without an end. -/
theorem quickjoin_terminates_partial [IsStrictOrderedRing K] (ord : α → List α → List α)
    (arrival : List (List (α × α)) → List (List (α × α))) (data : List α) (hdata : data.Nodup) (radius : K)
    (distance : α → α → K) (hd : IsMetric distance) (block_size min : Nat) (hbs : 2 ≤ block_size) (max : Option Nat)
    (mode : Mode) (pivots : Pivots α) (hp : SameSide pivots) (beta : K) (hb : 0 < beta) (hb' : beta ≤ 1)
    (solver : Solver α K) :
    ∃ result, quickjoin ord arrival data radius distance block_size min max mode pivots beta solver
      (2 * 5 ^ data.length + 1) = some result := by
  obtain ⟨out, h⟩ := blocks_terminates hd (radius := radius) hb hb' hbs hp (2 * 5 ^ data.length + 1) 0 [(data, none)]
    (by simpa [NoRepeat] using hdata) (by simp [weights, weight])
  exact ⟨_, by unfold quickjoin; rw [h]; rfl⟩

omit [DecidableEq α] in
/-- Such a choice exists. -/
theorem sameSide_firstTwo : SameSide (firstTwo (α := α)) := by
  refine ⟨?_, ?_⟩
  · intro t S h; simp only [firstTwo]; omega
  · intro t S1 S2 h
    simp only [firstTwo]
    split <;> simp only <;> omega

/-- Five numbers, two per block: the same pairs as by comparing them all. -/
example : (blocks (fun x y : ℚ => |x - y|) 1 1 2 firstTwo 100 0 [([5, 1, 6, 2, 9], none)]).map
    (fun bs => bs.flatMap (blockPairs ⟨false, fun _ _ _ => [], fun _ => 0⟩ (fun x y : ℚ => |x - y|) 1)) =
    some [(2, 1), (5, 6)] := by
  decide +kernel

/-! ### C60 -/

omit [DecidableEq α] in
/-- C60: joining two lists through pivots gives the pairs of close items, and raises on an empty first list only. -/
theorem join_pivots_exact [IsStrictOrderedRing K] (S1 S2 : List α) (distance : α → α → K) (hd : IsPseudoMetric distance)
    (radius : K) :
    (S1 = [] ∧ joinPivots S1 S2 distance radius = .error .indexError) ∨
    (S1 ≠ [] ∧ ∃ pairs, joinPivots S1 S2 distance radius = .ok pairs ∧
      pairs = S1.flatMap fun A => (S2.filter fun B => decide (distance A B ≤ radius)).map fun B => (A, B)) := by
  have hfm : ∀ (A : α) (q : α → Prop) [DecidablePred q], (S2.filterMap fun B => if q B then some (A, B) else none) =
      (S2.filter fun B => decide (q B)).map fun B => (A, B) := by
    intro A q _
    induction S2 with
    | nil => rfl
    | cons B S2 ih => by_cases h : q B <;> simp [h, ih]
  rcases S1 with _ | ⟨x, S1⟩
  · exact Or.inl ⟨rfl, by simp [joinPivots]⟩
  · right
    refine ⟨by simp, ?_⟩
    unfold joinPivots
    simp only
    rw [if_neg (by simp only [List.length_cons]; omega)]
    refine ⟨_, rfl, ?_⟩
    generalize hk : max 1 (min 16 ((x :: S1).length / 8)) = k
    conv => rhs; rw [← List.take_append_drop k (x :: S1), List.flatMap_append]
    congr 1
    · congr 1; funext A; exact hfm A _
    · congr 1; funext A
      rw [hfm A fun B => (keeps (List.take k (x :: S1)) distance radius A B && decide (distance A B ≤ radius)) = true]
      congr 1
      apply List.filter_congr
      intro B _
      by_cases h : distance A B ≤ radius
      · have : keeps (List.take k (x :: S1)) distance radius A B = true := by
          unfold keeps
          rw [List.all_eq_true]
          intro p _
          have h1 := hd.triangle p A B
          have h2 := hd.triangle p B A
          have h3 := hd.symm A B
          simp only [gt_iff_lt, Bool.not_eq_true', decide_eq_false_iff_not, not_lt]
          apply max_le <;> linarith
        simp [h, this]
      · simp [h]

end Fog.Props
