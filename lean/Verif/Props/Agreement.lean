import Verif.Lemmas.Agreement
import Verif.Props.Passjoin
import Verif.Props.Pairwise
import Verif.Props.KeyCollision
import Verif.Props.KeyLevenshtein
import Verif.Props.Quickjoin

/-!
# C86: the clustering algorithms agree with comparing all pairs
-/

namespace Fog.Props

open Fog.Spec Fog.Pairwise Fog.Passjoin Fog.Blocking

section

variable {α : Type} [DecidableEq α]

/-- What `pairwise` returns on different items: the components of the similar items. -/
theorem pairwise_items {σ : Type _} (uf : UnionFind σ) (huf : uf.Lawful) (similarity : α → α → Bool)
    (hs : ∀ a b, similarity a b = similarity b a) (data : List α) (hn : data.Nodup) (min : Nat) (hmin : 2 ≤ min) (max : Option Nat) :
    IsComponents (SimilarItems (fun a b => similarity a b = true) data)
      (fun a => ∃ b, SimilarItems (fun a b => similarity a b = true) data a b) (SizeBetween min max)
      (pairwiseConnectedComponentsSerial uf similarity data data min max) := by
  obtain ⟨ps, h1, h2⟩ := pairwise_components_serial uf huf similarity data data rfl min max
  rw [h1]
  exact components_items hn hs (fun n h => le_trans hmin h.1) h2

theorem IsComponents_rel {R R' : α → α → Prop} (h : ∀ a b, R a b ↔ R' a b) {ok : Nat → Prop} {cs : List (List α)}
    (hc : IsComponents R (fun a => ∃ b, R a b) ok cs) : IsComponents R' (fun a => ∃ b, R' a b) ok cs := by
  have : R = R' := funext fun a => funext fun b => propext (h a b)
  subst this
  exact hc

/-- **C86**: `passjoin` returns the clusters of `pairwise` with the same edit distance and threshold. -/
theorem passjoin_agrees {σ : Type _} (uf : UnionFind σ) (huf : uf.Lawful) (ord : List α → List (List α) → List (List α))
    (hord : ∀ a l, (ord a l).Perm l) (distance : List α → List α → Nat) (hd : ∀ a b, IsEditDistance a b (distance a b))
    (lexLe : List α → List α → Bool) (htrans : ∀ a b c, lexLe a b = true → lexLe b c = true → lexLe a c = true)
    (htotal : ∀ a b, (lexLe a b || lexLe b a) = true) (data : List (List α)) (hn : data.Nodup) (k : Nat) (sort : Bool)
    (min : Nat) (hmin : 2 ≤ min) (max : Option Nat) :
    ∃ cs, passjoin ord lexLe data k distance sort min max .connectedComponents = .ok cs ∧
      SameClusters cs (pairwiseConnectedComponentsSerial uf (fun a b => decide (distance a b ≤ k)) data data min max) := by
  have hd' : ∀ a b, distance a b = lev a b := fun a b => isEditDistance_iff.mp (hd a b)
  obtain ⟨cs, h1, h2⟩ := passjoin_components ord hord distance hd lexLe htrans htotal data k sort min max
  refine ⟨cs, h1, ?_⟩
  have h3 := pairwise_items uf huf (fun a b => decide (distance a b ≤ k)) (fun a b => by rw [hd', hd', lev_comm]) data hn min hmin max
  refine IsComponents.unique ?_ (IsComponents_rel ?_ h2) h3
  · exact SimilarItems.symm fun a b h => by
      rw [decide_eq_true_eq] at h ⊢
      rw [hd', lev_comm, ← hd']; exact h
  · intro a b
    rw [twoItems_nodup hn, withinEdits_iff_lev, ← hd']
    unfold SimilarItems
    simp only [decide_eq_true_eq]
    grind

/-- **C86**: `blocking` on the `levenshtein_1d_blocks` returns the clusters of `pairwise`, for one edit. -/
theorem blocking_agrees {σ : Type _} (uf : UnionFind σ) (huf : uf.Lawful) (ord : List α → List (List α) → List (List α))
    (hord : ∀ a l, (ord a l).Perm l) (setOrd : List (List α) → List (List α)) (hset : ∀ l, (setOrd l).Perm l)
    (arrival : List (List (List α × List α)) → List (List (List α × List α))) (harr : ∀ l, (arrival l).Perm l) (flag : α)
    (similarity : List α → List α → Bool) (hs : ∀ a b, similarity a b = true ↔ WithinEdits 1 a b) (data : List (List α))
    (hn : data.Nodup) (min : Nat) (hmin : 2 ≤ min) (max : Option Nat) :
    ∃ cs cs', blockingSerial ord setOrd data (.blocks (KeyLevenshtein.levenshtein1dBlocks false flag)) similarity min max
        .connectedComponents = .ok cs ∧
      blockingParallel ord setOrd arrival data (.blocks (KeyLevenshtein.levenshtein1dBlocks false flag)) similarity min max
        .connectedComponents = .ok cs' ∧
      SameClusters cs (pairwiseConnectedComponentsSerial uf similarity data data min max) ∧
      SameClusters cs' (pairwiseConnectedComponentsSerial uf similarity data data min max) := by
  have hsym : ∀ a b, similarity a b = similarity b a := by
    intro a b
    rw [Bool.eq_iff_iff, hs, hs, withinEdits_iff_lev, withinEdits_iff_lev, lev_comm]
  obtain ⟨cs, h1, h2⟩ := blocking_components_serial ord hord setOrd hset data
    (.blocks (KeyLevenshtein.levenshtein1dBlocks false flag)) similarity min max
  obtain ⟨cs', h1', h2'⟩ := blocking_components_parallel ord hord setOrd hset arrival harr data
    (.blocks (KeyLevenshtein.levenshtein1dBlocks false flag)) similarity min max
  have h3 := pairwise_items uf huf similarity hsym data hn min hmin max
  have hR : ∀ a b, (SimilarInBlock (.blocks (KeyLevenshtein.levenshtein1dBlocks false flag)) similarity data a b ∨
      SimilarInBlock (.blocks (KeyLevenshtein.levenshtein1dBlocks false flag)) similarity data b a) ↔
      SimilarItems (fun a b => similarity a b = true) data a b := by
    intro a b
    have htwo := twoItems_nodup hn (a := a) (b := b)
    have hblk : similarity a b = true → ∃ k, k ∈ KeyLevenshtein.levenshtein1dBlocks false flag a ∧
        k ∈ KeyLevenshtein.levenshtein1dBlocks false flag b := fun h => levenshtein_1d_blocks_complete flag a b ((hs a b).mp h)
    have hab := hsym a b
    unfold TwoItems at htwo
    unfold SimilarInBlock SimilarItems blocksOf
    grind
  have hR' : ∀ a b, SimilarItems (fun a b => similarity a b = true) data a b → SimilarItems (fun a b => similarity a b = true) data b a :=
    SimilarItems.symm fun a b h => by rw [hsym]; exact h
  exact ⟨cs, cs', h1, h1', (IsComponents_rel hR h2).unique hR' h3, (IsComponents_rel hR h2').unique hR' h3⟩

/-- The hypotheses can be met, by the edit distance and a union-find structure. -/
example : searchUnionFind.Lawful ∧ (∀ a b : List Nat, IsEditDistance a b (lev a b)) ∧
    (∀ a b : List Nat, decide (lev a b ≤ 1) = true ↔ WithinEdits 1 a b) ∧ [[1, 2], [1, 3], [4, 5, 6]].Nodup ∧
    SimilarItems (fun a b => decide (lev a b ≤ 1) = true) [[1, 2], [1, 3], [4, 5, 6]] [1, 2] [1, 3] := by
  refine ⟨searchUnionFind_lawful, isEditDistance_lev, ?_, by decide, by decide, by decide, by decide, ?_⟩
  · intro a b
    rw [decide_eq_true_eq, withinEdits_iff_lev]
  · simp only [decide_eq_true_eq, ← withinEdits_iff_lev]
    exact ⟨1, Nat.le_refl 1, .cons (.subst [1] [] 2 3) (.nil _)⟩

end

section

variable {α K : Type} [DecidableEq α] [Field K] [LinearOrder K] [IsStrictOrderedRing K]

open Fog.Quickjoin in
/-- **C86**: when it ends, `quickjoin` with a metric returns the clusters of `pairwise`. -/
theorem quickjoin_agrees {σ : Type _} (uf : UnionFind σ) (huf : uf.Lawful) (ord : α → List α → List α)
    (hord : ∀ a l, (ord a l).Perm l) (arrival : List (List (α × α)) → List (List (α × α))) (harr : ∀ l, (arrival l).Perm l)
    (data : List α) (hn : data.Nodup) (radius : K) (distance : α → α → K) (hd : IsPseudoMetric distance) (block_size min : Nat)
    (hmin : 2 ≤ min) (max : Option Nat) (pivots : Pivots α) (beta : K) (solver : Solver α K) (hv : solver.vp_tree = false)
    (fuel : Nat) (result : Py (List (List α)))
    (h : quickjoin ord arrival data radius distance block_size min max .connectedComponents pivots beta solver fuel = some result) :
    ∃ cs, result = .ok cs ∧
      SameClusters cs (pairwiseConnectedComponentsSerial uf (fun a b => decide (distance a b ≤ radius)) data data min max) := by
  obtain ⟨cs, h1, h2⟩ := quickjoin_components ord hord arrival harr data radius distance hd block_size min max pivots beta solver hv
    fuel result h
  refine ⟨cs, h1, ?_⟩
  have h3 := pairwise_items uf huf (fun a b => decide (distance a b ≤ radius)) (fun a b => by rw [hd.symm]) data hn min hmin max
  refine IsComponents.unique ?_ (IsComponents_rel ?_ h2) h3
  · exact SimilarItems.symm fun a b h => by
      rw [decide_eq_true_eq] at h ⊢
      rw [hd.symm]; exact h
  · intro a b
    rw [twoItems_nodup hn]
    unfold SimilarItems
    simp only [decide_eq_true_eq]
    grind

end

end Fog.Props
