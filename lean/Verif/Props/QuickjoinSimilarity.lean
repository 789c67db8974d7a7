import Verif.Props.Quickjoin
import Verif.Spec.Splits
import Mathlib.Data.List.Forall2

/-!
# C29: exactly what quickjoin links with a similarity
-/

namespace Fog.Props

open Fog.ClusteringUtils Fog.Quickjoin Fog.Spec

variable {α K : Type _} [Field K] [LinearOrder K]

/-- The lists of a stack which are to be joined with themselves. -/
def singles (stack : List (Block α)) : List (List α) :=
  stack.filterMap fun b => match b with | (S, none) => some S | (_, some _) => none

theorem blocks_similarity [IsStrictOrderedRing K] {similarity : α → α → K} {radius beta : K} (hr : 0 ≤ radius) {size : Nat}
    {pivots : Pivots α} : ∀ (fuel step : Nat) (stack out : List (Block α)), (∀ b ∈ stack, ∀ S2, b.2 = some S2 → b.1 = []) →
    blocks (fun x y => -similarity x y) (-radius) beta size pivots fuel step stack = some out →
    ∃ leaves, List.Forall₂ (Splits similarity beta size) (singles stack) leaves ∧ out = leaves.flatten.map fun S => (S, none)
  | 0, _, _, _, _, h => by simp [blocks] at h
  | fuel + 1, step, [], out, _, h => by
      simp only [blocks, Option.some.injEq] at h
      exact ⟨[], by simp [singles], by simp [← h]⟩
  | fuel + 1, step, (S, none) :: stack, out, hst, h => by
      have hst' : ∀ b ∈ stack, ∀ S2, b.2 = some S2 → b.1 = [] := fun b hb => hst b (List.mem_cons_of_mem _ hb)
      rw [blocks] at h
      simp only at h
      split at h
      · next hN =>
          rw [Option.map_eq_some_iff] at h
          obtain ⟨out', h, rfl⟩ := h
          obtain ⟨leaves, h1, rfl⟩ := blocks_similarity hr fuel _ _ _ hst' h
          exact ⟨[S] :: leaves, by simpa [singles] using ⟨Splits.leaf S hN, h1⟩, by simp⟩
      · next hN =>
          split at h
          · cases h
          · split at h
            · next p q hp hq =>
                obtain ⟨leaves, h1, rfl⟩ := blocks_similarity hr fuel _ _ _ (by
                  intro b hb S2 e
                  rcases List.mem_cons.mp hb with rfl | hb
                  · exact quickjoin_similarity_window similarity radius hr p _ S
                  · rcases List.mem_cons.mp hb with rfl | hb
                    · cases e
                    · rcases List.mem_cons.mp hb with rfl | hb
                      · cases e
                      · exact hst' b hb S2 e) h
                rw [show singles (((partition (fun x y => -similarity x y) p (-radius) (beta * -similarity p q) S).Lw,
                    some (partition (fun x y => -similarity x y) p (-radius) (beta * -similarity p q) S).Gw) ::
                    ((partition (fun x y => -similarity x y) p (-radius) (beta * -similarity p q) S).L, none) ::
                    ((partition (fun x y => -similarity x y) p (-radius) (beta * -similarity p q) S).G, none) :: stack) =
                    (partition (fun x y => -similarity x y) p (-radius) (beta * -similarity p q) S).L ::
                    (partition (fun x y => -similarity x y) p (-radius) (beta * -similarity p q) S).G :: singles stack from rfl] at h1
                rw [partition_eq] at h1
                obtain ⟨near, rest', g1, h2, e1⟩ := List.forall₂_cons_left_iff.mp h1
                obtain ⟨far, rest, g2, h3, e2⟩ := List.forall₂_cons_left_iff.mp h2
                subst e2; subst e1
                refine ⟨(near ++ far) :: rest, ?_, by simp⟩
                rw [show singles ((S, none) :: stack) = S :: singles stack from rfl]
                refine List.Forall₂.cons (Splits.node S p q near far (by omega) (List.mem_of_getElem? hp)
                  (List.mem_of_getElem? hq) ?_ ?_) h3
                · convert g1 using 3
                  rw [decide_eq_decide, mul_neg, neg_lt_neg_iff]
                · convert g2 using 3
                  rw [← decide_not, decide_eq_decide, mul_neg, neg_lt_neg_iff, not_lt]
            · cases h
  | fuel + 1, step, (S1, some S2) :: stack, out, hst, h => by
      have hst' : ∀ b ∈ stack, ∀ S2, b.2 = some S2 → b.1 = [] := fun b hb => hst b (List.mem_cons_of_mem _ hb)
      obtain rfl : S1 = [] := hst _ List.mem_cons_self S2 rfl
      have e : ∀ S2 : List α, singles (([], some S2) :: stack) = singles stack := fun _ => rfl
      rw [blocks] at h
      simp only at h
      split at h
      · rw [if_pos (Or.inl (by rfl))] at h
        rw [e]
        exact blocks_similarity hr fuel _ _ _ hst' h
      · split at h
        · cases h
        · split at h
          · next p q _ _ =>
            have e' : ∀ a b c d a' b' c' d' : List α, singles ((a, some a') :: (b, some b') :: (c, some c') :: (d, some d') :: stack) =
              singles stack := fun _ _ _ _ _ _ _ _ => rfl
            have := blocks_similarity hr fuel _ _ _ ?_ h
            · rwa [e', ← e S2] at this
            intro b hb S2 e
            simp only [partition, List.mem_cons] at hb
            rcases hb with rfl | rfl | rfl | rfl | hb
            · rfl
            · rfl
            · rfl
            · rfl
            · exact hst' b hb S2 e
          · cases h

variable [DecidableEq α]

/-- **C29**, exactly: with a similarity and a radius which is not negative, `quickjoin` splits the data around pivots, and only links similar
items of the same leaf. -/
theorem quickjoin_similarity_exact [IsStrictOrderedRing K] (ord : α → List α → List α)
    (hord : ∀ a l, (ord a l).Perm l) (arrival : List (List (α × α)) → List (List (α × α)))
    (harr : ∀ l, (arrival l).Perm l) (data : List α) (radius : K) (hr : 0 ≤ radius) (similarity : α → α → K)
    (hs : ∀ a b, similarity a b = similarity b a) (block_size min : Nat) (max : Option Nat) (pivots : Pivots α)
    (beta : K) (solver : Solver α K) (hv : solver.vp_tree = false) (fuel : Nat) (result : Py (List (List α)))
    (h : quickjoinSimilarity ord arrival data radius similarity block_size min max .connectedComponents pivots beta solver
      fuel = some result) :
    ∃ cs leaves, result = .ok cs ∧ Splits similarity beta block_size data leaves ∧
      IsComponents (fun a b => (∃ leaf ∈ leaves, TwoItems leaf a b) ∧ radius ≤ similarity a b)
        (fun a => ∃ b, (∃ leaf ∈ leaves, TwoItems leaf a b) ∧ radius ≤ similarity a b) (SizeBetween min max) cs := by
  unfold quickjoinSimilarity quickjoin at h
  rw [Option.map_eq_some_iff] at h
  obtain ⟨bs, hbs, rfl⟩ := h
  obtain ⟨ls, h1, rfl⟩ := blocks_similarity hr fuel 0 _ _ (by intro b hb S2 e; simp at hb; subst hb; cases e) hbs
  rw [show singles [(data, none)] = [data] from rfl] at h1
  cases h1 with
  | cons h1 h2 =>
      cases h2
      next leaves =>
      have hs' : ∀ a b, (fun x y => -similarity x y) a b = (fun x y => -similarity x y) b a :=
        fun a b => congrArg _ (hs a b)
      have hl : ∀ a b, Linked (arrival (([leaves].flatten.map fun S => ((S, none) : Block α)).map
          (blockPairs solver (fun x y => -similarity x y) (-radius)))).flatten a b ↔
          (∃ leaf ∈ leaves, TwoItems leaf a b) ∧ radius ≤ similarity a b := by
        intro a b
        rw [linked_arrival arrival harr]
        simp only [linked_blockPairs hv hs', neg_le_neg_iff]
        constructor
        · rintro ⟨block, h1, h2, h3⟩
          obtain ⟨S, hS, rfl⟩ := List.mem_map.mp h1
          exact ⟨⟨S, by simpa using hS, h2⟩, h3⟩
        · rintro ⟨⟨S, hS, h2⟩, h3⟩
          exact ⟨(S, none), List.mem_map.mpr ⟨S, by simpa using hS, rfl⟩, h2, h3⟩
      obtain ⟨cs, h3, h4⟩ := clusters_of_relation hord _ _ hl min max true
      exact ⟨cs, leaves, h3, h1, h4⟩

omit [DecidableEq α] in
/-- The leaves are the data, split: each item is in as many leaves as it is in the data. -/
theorem splits_perm {similarity : α → α → K} {beta : K} {size : Nat} {S : List α} {leaves : List (List α)}
    (h : Splits similarity beta size S leaves) : leaves.flatten.Perm S ∧ ∀ leaf ∈ leaves, leaf.length ≤ size := by
  induction h with
  | leaf S hS => exact ⟨by simp, by simpa using hS⟩
  | node S p q near far _ _ _ _ _ ih1 ih2 =>
      refine ⟨?_, fun leaf hl => (List.mem_append.mp hl).elim (ih1.2 leaf) (ih2.2 leaf)⟩
      rw [List.flatten_append]
      refine (ih1.1.append ih2.1).trans ?_
      have : (fun x => decide (similarity p x ≤ beta * similarity p q)) =
          fun x => !decide (beta * similarity p q < similarity p x) := by
        funext x
        rw [← decide_not, decide_eq_decide, not_lt]
      rw [this]
      exact List.filter_append_perm _ S

/-- The three items of `quickjoin_similarity_loses`, all similar enough, are split around the first one. -/
example : Splits (fun a b : Nat => if a = b then (2 : ℚ) else 1) 1 2 [0, 1, 2] [[0], [1, 2]] := by
  refine Splits.node _ 0 1 [[0]] [[1, 2]] (by decide) (by simp) (by simp) ?_ ?_
  · rw [show ([0, 1, 2].filter fun x => decide ((1 : ℚ) * (if 0 = 1 then 2 else 1) < if 0 = x then 2 else 1)) = [0] by decide +kernel]
    exact Splits.leaf _ (by decide)
  · rw [show ([0, 1, 2].filter fun x => decide ((if 0 = x then 2 else 1) ≤ (1 : ℚ) * (if 0 = 1 then 2 else 1))) = [1, 2] by decide +kernel]
    exact Splits.leaf _ (by decide)

end Fog.Props
