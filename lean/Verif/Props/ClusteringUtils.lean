import Verif.Lemmas.FuzzyClusters

/-!
# C12-C14: clusters from pairs

`ord` is the order in which the interpreter iterates over sets; it is only used with `fuzzy=True`.
-/

namespace Fog.Props

open Fog.Spec Fog.ClusteringUtils

variable {α : Type _} [DecidableEq α]

/-! ### C12 -/

/-- C12. The clusters of the connected components mode are the connected components of the graph of the pairs, of a size
within bounds, each once. No exception is raised. -/
theorem clusters_from_pairs_components (ord : α → List α → List α) (hord : ∀ a l, (ord a l).Perm l)
    (pairs : List (α × α)) (min : Nat) (max : Option Nat) (fuzzy : Bool) :
    ∃ cs, clustersFromPairs ord pairs min max .connectedComponents fuzzy = .ok cs ∧
      IsComponents (Linked pairs) (fun a => ∃ b, Linked pairs a b) (SizeBetween min max) cs :=
  clustersFromPairs_components (fun a l _ => (hord a l).mem_iff) pairs min max fuzzy

/-- Two components, one with a cycle, and a lone item paired with itself, which is too small. -/
example : clustersFromPairs (fun _ l => l) [(1, 2), (3, 4), (2, 5), (5, 1), (6, 6)] 2 none .connectedComponents false
    = .ok [[1, 5, 2], [3, 4]] := by
  simp [clustersFromPairs, makeGraph, addPair, Dict.update, Dict.set, Dict.get?, ClusteringUtils.add, components,
    search, iterate, sizeOk, bind, Except.bind]

/-! ### C13 -/

/-- C13. The clusters do not depend on the order, the repetition or the orientation of the pairs, nor on the flag
`fuzzy`, nor on the order of iteration over sets. -/
theorem clusters_from_pairs_order_irrelevant (ord ord' : α → List α → List α) (hord : ∀ a l, (ord a l).Perm l)
    (hord' : ∀ a l, (ord' a l).Perm l) (pairs pairs' : List (α × α))
    (h : ∀ a b, ((a, b) ∈ pairs ∨ (b, a) ∈ pairs) ↔ ((a, b) ∈ pairs' ∨ (b, a) ∈ pairs')) (min : Nat)
    (max : Option Nat) (fuzzy fuzzy' : Bool) :
    ∃ cs cs', clustersFromPairs ord pairs min max .connectedComponents fuzzy = .ok cs ∧
      clustersFromPairs ord' pairs' min max .connectedComponents fuzzy' = .ok cs' ∧ SameClusters cs cs' := by
  obtain ⟨cs, h1, h2⟩ := clusters_from_pairs_components ord hord pairs min max fuzzy
  obtain ⟨cs', h3, h4⟩ := clusters_from_pairs_components ord' hord' pairs' min max fuzzy'
  have hl : ∀ a b, Linked pairs' a b ↔ Linked pairs a b := fun a b => (h a b).symm
  refine ⟨cs, cs', h1, h3, h2.unique (linked_symm pairs) (h4.congr ?_ ?_ ?_)⟩
  · intro a b
    exact ⟨Connected.mono fun a b => (hl a b).mp, Connected.mono fun a b => (hl a b).mpr⟩
  · intro a
    exact ⟨fun ⟨b, hb⟩ => ⟨b, (hl a b).mp hb⟩, fun ⟨b, hb⟩ => ⟨b, (hl a b).mpr hb⟩⟩
  · intro n; rfl

/-- A schedule: reordered, flipped and repeated pairs. -/
example : ∀ a b : Nat, ((a, b) ∈ [(1, 2), (2, 3)] ∨ (b, a) ∈ [(1, 2), (2, 3)]) ↔
    ((a, b) ∈ [(3, 2), (1, 2), (2, 1)] ∨ (b, a) ∈ [(3, 2), (1, 2), (2, 1)]) := by
  intro a b
  simp only [List.mem_cons, Prod.mk.injEq, List.not_mem_nil, or_false]
  omega

/-! ### C14 -/

/-- C14, stars: each cluster of the fuzzy mode is an item followed by exactly the items paired with it. -/
theorem fuzzy_clusters_are_stars (ord : α → List α → List α) (hord : ∀ a l, (ord a l).Perm l)
    (pairs : List (α × α)) (min : Nat) (max : Option Nat) (fuzzy : Bool) :
    ∃ cs, clustersFromPairs ord pairs min max .fuzzyClusters fuzzy = .ok cs ∧
      (∀ c ∈ cs, SizeBetween min max c.length ∧
        ∃ item rest, c = item :: rest ∧ rest ≠ [] ∧ ∀ x, x ∈ rest ↔ Linked pairs item x) ∧
      cs.Pairwise (fun c d => ∀ item, d.head? = some item → item ∉ c.tail ∧ c.head? ≠ some item) := by
  have hg := represents_makeGraph fuzzy pairs
  refine ⟨_, rfl, ?_, fuzzyClusters_leaders hord _ hg.nodup _⟩
  intro c hc
  obtain ⟨p, hp, _, rfl, hz⟩ := fuzzyClusters_mem _ _ c hc
  have hi : (iterate fuzzy ord p.1 p.2).Perm p.2 := by
    unfold iterate; split
    · exact hord _ _
    · exact .refl _
  have hget := Dict.get?_of_mem hg.nodup hp
  refine ⟨?_, p.1, _, rfl, ?_, ?_⟩
  · rw [List.length_cons, hi.length_eq]; exact (sizeOk_iff ..).mp hz
  · obtain ⟨b, hb⟩ := (hg.node p.1).mp ⟨_, hget⟩
    exact List.ne_nil_of_mem (hi.mem_iff.mpr ((hg.nb p.1 p.2 hget b).mpr hb))
  · intro x
    rw [hi.mem_iff]
    exact hg.nb p.1 p.2 hget x

/-- C14, coverage: with the default sizes, every paired item is in some cluster. -/
theorem fuzzy_clusters_cover (ord : α → List α → List α) (hord : ∀ a l, (ord a l).Perm l)
    (pairs : List (α × α)) (fuzzy : Bool) (a b : α) (h : Linked pairs a b) :
    ∃ cs, clustersFromPairs ord pairs 2 none .fuzzyClusters fuzzy = .ok cs ∧ ∃ c ∈ cs, a ∈ c := by
  have hg := represents_makeGraph fuzzy pairs
  obtain ⟨l, hl⟩ := (hg.node a).mpr ⟨b, h⟩
  refine ⟨_, rfl, ?_⟩
  have := fuzzyClusters_cover (fuzzy := fuzzy) hord (min := 2) (max := none) (makeGraph fuzzy pairs) [] ?_ (a, l)
    (Dict.mem_of_get? hl)
  · simpa using this
  · intro p hp
    have h1 := Dict.get?_of_mem hg.nodup hp
    obtain ⟨c, hc⟩ := (hg.node p.1).mp ⟨p.2, h1⟩
    have h2 := (hg.nb p.1 p.2 h1 c).mpr hc
    have := List.length_pos_of_mem h2
    simp [sizeOk]; omega

/-- C14 is false of the code in one point: a repeated pair repeats the item in the cluster. -/
theorem fuzzy_clusters_may_repeat :
    clustersFromPairs (fun _ l => l) [(0, 1), (0, 1)] 2 none .fuzzyClusters false = .ok [[0, 1, 1]] := by
  rfl

/-- C14, also false with a pair of an item with itself, even with `fuzzy=True`. -/
theorem fuzzy_clusters_may_repeat_leader :
    clustersFromPairs (fun _ l => l) [(0, 0)] 2 none .fuzzyClusters true = .ok [[0, 0]] := by
  rfl

/-- C14, what holds of repetitions: no cluster lists an item twice when no item is paired with itself and either
`fuzzy=True` or no pair is repeated in either orientation. -/
theorem fuzzy_clusters_nodup_partial (ord : α → List α → List α) (hord : ∀ a l, (ord a l).Perm l)
    (pairs : List (α × α)) (min : Nat) (max : Option Nat) (fuzzy : Bool) (hs : ∀ p ∈ pairs, p.1 ≠ p.2)
    (hd : fuzzy = true ∨ pairs.Pairwise (fun p q => p ≠ q ∧ p ≠ (q.2, q.1))) :
    ∃ cs, clustersFromPairs ord pairs min max .fuzzyClusters fuzzy = .ok cs ∧ ∀ c ∈ cs, c.Nodup := by
  have hg := represents_makeGraph fuzzy pairs
  refine ⟨_, rfl, ?_⟩
  intro c hc
  obtain ⟨p, hp, _, rfl, hz⟩ := fuzzyClusters_mem _ _ c hc
  have hi : (iterate fuzzy ord p.1 p.2).Perm p.2 := by
    unfold iterate; split
    · exact hord _ _
    · exact .refl _
  have hget := Dict.get?_of_mem hg.nodup hp
  rw [List.nodup_cons]
  refine ⟨?_, hi.nodup_iff.mpr ?_⟩
  · rw [hi.mem_iff, hg.nb p.1 p.2 hget]
    rintro (h | h) <;> exact hs _ h rfl
  · rcases hd with rfl | hd
    · exact foldl_nodup_set pairs [] (by simp [Dict.get?]) p.1 p.2 hget
    · cases fuzzy with
      | true => exact foldl_nodup_set pairs [] (by simp [Dict.get?]) p.1 p.2 hget
      | false =>
          rw [makeGraph_get_list pairs p.1 p.2 hget]
          exact partners_nodup pairs hd hs p.1

/-- The hypotheses are met by a path of four items. -/
example : (∀ p ∈ [(0, 1), (1, 2), (2, 3)], p.1 ≠ p.2) ∧
    [(0, 1), (1, 2), (2, 3)].Pairwise (fun p q : Nat × Nat => p ≠ q ∧ p ≠ (q.2, q.1)) ∧
    clustersFromPairs (fun _ l => l) [(0, 1), (1, 2), (2, 3)] 2 none .fuzzyClusters false = .ok [[0, 1], [2, 1, 3]] := by
  refine ⟨by decide, by decide, by rfl⟩

end Fog.Props
