import Verif.Props.ClusteringUtils
import Verif.Lemmas.PairwiseComponents

/-!
# Properties of the pairwise clustering (C15 to C18)
-/

namespace Fog.Props

open Fog.ClusteringUtils Fog.Pairwise Fog.Spec

variable {β γ : Type _}

/-! ### C15: the chunks cover the pairs once -/

/-- C15. For a positive chunk size, the workers find every pair of positions `p < q` whose items are similar, once, and
nothing else. -/
theorem chunks_find_similar_pairs_once (similarity : β → β → Bool) (data : List β) (chunk_size : Nat)
    (h : 0 < chunk_size) :
    ∃ results, workerResults similarity data chunk_size = .ok results ∧ results.flatten.Nodup ∧
      ∀ p q, (p, q) ∈ results.flatten ↔
        p < q ∧ ∃ a b, data[p]? = some a ∧ data[q]? = some b ∧ similarity a b = true := by
  obtain ⟨results, h1, h2, h3⟩ := workers_spec similarity data chunk_size h
  refine ⟨results, h1, h2, ?_⟩
  intro p q
  rw [h3, similarAt_iff]

/-- C15. What the workers compare: with a similarity which accepts everything, they return every pair `p < q` of
positions once. -/
theorem chunks_cover_upper_triangle_once (data : List β) (chunk_size : Nat) (h : 0 < chunk_size) :
    ∃ results, workerResults (fun _ _ => true) data chunk_size = .ok results ∧ results.flatten.Nodup ∧
      ∀ p q, (p, q) ∈ results.flatten ↔ p < q ∧ q < data.length := by
  obtain ⟨results, h1, h2, h3⟩ := chunks_find_similar_pairs_once (fun _ _ => true) data chunk_size h
  refine ⟨results, h1, h2, ?_⟩
  intro p q
  rw [h3]
  constructor
  · rintro ⟨h4, a, b, _, hb, _⟩
    obtain ⟨h5, _⟩ := List.getElem?_eq_some_iff.mp hb
    exact ⟨h4, h5⟩
  · rintro ⟨h4, h5⟩
    exact ⟨h4, data[p], data[q], List.getElem?_eq_getElem (by omega), List.getElem?_eq_getElem h5, rfl⟩

/-- A chunk size which does not divide the number of items. -/
example : (workerResults (fun _ _ => true) ['a', 'b', 'c', 'd', 'e'] 2).map List.length = .ok 6 := by rfl

/-! ### C16: connected components -/

theorem itemsAt_components_serial {σ : Type _} (uf : UnionFind σ) (huf : uf.Lawful) (similarity : γ → γ → Bool)
    (keys : List γ) (min : Nat) (max : Option Nat) :
    IsComponents (SimilarPositions similarity keys) (fun i => i < keys.length) (SizeBetween min max)
      (uf.components (serialUnions uf similarity keys) min max) := by
  obtain ⟨vs, h1, h2, h3⟩ := serial_fold huf similarity keys keys.length (upperPairs keys.length) (by
    intro p hp
    have := (mem_upperPairs keys.length p.1 p.2).mp hp
    omega) [] [] (by simp) (fun _ _ => Iff.rfl)
  have he : Exact similarity keys (serialPairs similarity keys) := fun p q => mem_serialPairs similarity keys p q
  have hs : serialUnions uf similarity keys = vs.foldl (fun s p => uf.union s p.1 p.2) (uf.init keys.length) := h2
  rw [hs]
  refine (huf.components keys.length vs h1 min max).congr ?_ (fun _ => Iff.rfl) (fun _ => Iff.rfl)
  intro a b
  rw [h3 a b, List.nil_append]
  show Connected (Linked (serialPairs similarity keys)) a b ↔ _
  exact ⟨Connected.mono fun a b h => (he.linked a b).mp h, Connected.mono fun a b h => (he.linked a b).mpr h⟩

/-- C16, one process. `pairwise_connected_components` yields the items of the connected components of the positions
linked by similarity, filtered by size, for every union-find structure which works. -/
theorem pairwise_components_serial {σ : Type _} (uf : UnionFind σ) (huf : uf.Lawful) (similarity : γ → γ → Bool)
    (data : List β) (keys : List γ) (hk : keys.length = data.length) (min : Nat) (max : Option Nat) :
    ∃ ps, pairwiseConnectedComponentsSerial uf similarity data keys min max =
        ps.map (fun c => c.filterMap fun i => data[i]?) ∧
      IsComponents (SimilarPositions similarity keys) (fun i => i < data.length) (SizeBetween min max) ps := by
  refine ⟨_, rfl, ?_⟩
  rw [← hk]
  exact itemsAt_components_serial uf huf similarity keys min max

/-- C16, several processes. Same as above for every positive chunk size and every order of arrival of the results. -/
theorem pairwise_components_parallel {σ : Type _} (uf : UnionFind σ) (huf : uf.Lawful)
    (arrival : List (List (Nat × Nat)) → List (List (Nat × Nat))) (ha : ∀ l, (arrival l).Perm l)
    (similarity : γ → γ → Bool) (data : List β) (keys : List γ) (hk : keys.length = data.length) (min : Nat)
    (max : Option Nat) (chunk_size : Nat) (hc : 0 < chunk_size) :
    ∃ ps, pairwiseConnectedComponentsParallel uf arrival similarity data keys min max chunk_size =
        .ok (ps.map (fun c => c.filterMap fun i => data[i]?)) ∧
      IsComponents (SimilarPositions similarity keys) (fun i => i < data.length) (SizeBetween min max) ps := by
  obtain ⟨results, h1, _, h3⟩ := workers_spec similarity keys chunk_size hc
  unfold pairwiseConnectedComponentsParallel
  rw [h1]
  refine ⟨_, rfl, ?_⟩
  rw [parallelUnions_eq]
  have he : Exact similarity keys (arrival results).flatten := by
    intro p q
    rw [← h3 p q]
    simp only [List.mem_flatten, (ha results).mem_iff]
  rw [← hk]
  refine (huf.components keys.length _ he.lt min max).congr ?_ (fun _ => Iff.rfl) (fun _ => Iff.rfl)
  intro a b
  exact ⟨Connected.mono fun a b h => (he.linked a b).mp h, Connected.mono fun a b h => (he.linked a b).mpr h⟩

/-- C16. One process and several give the same clusters of positions. -/
theorem pairwise_components_same {σ : Type _} (uf : UnionFind σ) (huf : uf.Lawful)
    (arrival : List (List (Nat × Nat)) → List (List (Nat × Nat))) (ha : ∀ l, (arrival l).Perm l)
    (similarity : γ → γ → Bool) (data : List β) (keys : List γ) (hk : keys.length = data.length) (min : Nat)
    (max : Option Nat) (chunk_size : Nat) (hc : 0 < chunk_size) :
    ∃ ps qs : List (List Nat), pairwiseConnectedComponentsSerial uf similarity data keys min max =
        ps.map (fun c => c.filterMap fun i => data[i]?) ∧
      pairwiseConnectedComponentsParallel uf arrival similarity data keys min max chunk_size =
        .ok (qs.map (fun c => c.filterMap fun i => data[i]?)) ∧ SameClusters ps qs := by
  obtain ⟨ps, h1, h2⟩ := pairwise_components_serial uf huf similarity data keys hk min max
  obtain ⟨qs, h3, h4⟩ :=
    pairwise_components_parallel uf huf arrival ha similarity data keys hk min max chunk_size hc
  exact ⟨ps, qs, h1, h3, h2.unique SimilarPositions.symm h4⟩

/-- A union-find structure which works exists, an arrival order which is not the order of the chunks too. -/
example : searchUnionFind.Lawful ∧ ∀ l : List (List (Nat × Nat)), l.reverse.Perm l :=
  ⟨searchUnionFind_lawful, List.reverse_perm⟩

/-! ### C17: leaders -/

/-- C17 is false with a maximum size: the first cluster which grows over it raises. -/
theorem pairwise_leader_max_size_raises :
    pairwiseLeader (fun _ _ : Nat => true) [1, 2, 3] 2 (some 2) = .error .attributeError := by rfl

/-- C17, without a maximum size. Let `lead` give the leader of each position: the first earlier position without a leader
to which it is similar. The clusters are, in order, each leader followed by all positions it leads, when there are some
and the cluster is not too small. -/
theorem pairwise_leader_partial (similarity : β → β → Bool) (data : List β) (min : Nat) (lead : Nat → Option Nat)
    (hl : IsLeaderAssignment
      (fun i j => ∃ a b, data[i]? = some a ∧ data[j]? = some b ∧ similarity a b = true) data.length lead) :
    pairwiseLeader similarity data min none =
      .ok (((List.range data.length).filterMap fun i =>
        if lead i = none ∧ (∃ j, j < data.length ∧ lead j = some i) ∧
          ((List.range data.length).filter fun j => decide (lead j = some i)).length + 1 ≥ min
        then some (i :: (List.range data.length).filter fun j => decide (lead j = some i)) else none).map
          fun c => c.filterMap fun i => data[i]?) := by
  have hl' : IsLeaderAssignment (fun i j => similarAt similarity data i j = true) data.length lead := by
    have : (fun i j => similarAt similarity data i j = true) =
        (fun i j => ∃ a b, data[i]? = some a ∧ data[j]? = some b ∧ similarity a b = true) := by
      funext i j; exact propext (similarAt_iff similarity data i j)
    rw [this]; exact hl
  have h := leaderOuter_spec similarity data min lead hl' 0 (by omega) [] (by
    intro j _; simp)
  have h0 : pyRange 0 data.length = List.range data.length := by
    unfold pyRange; rw [List.range_eq_range']; simp
  rw [h0] at h
  unfold pairwiseLeader leaderPositions
  rw [h]
  show Except.ok _ = _
  congr 2
  congr 1
  funext i
  have hne : ledBy data.length lead i ≠ [] ↔ ∃ j, j < data.length ∧ lead j = some i := by
    rw [ne_eq, List.eq_nil_iff_forall_not_mem]
    simp [ledBy]
  simp only [hne, List.length_cons]
  rfl

/-- C17. A leader assignment exists whatever the data and the similarity. -/
theorem leader_assignment_exists (similarity : β → β → Bool) (data : List β) :
    ∃ lead, IsLeaderAssignment
      (fun i j => ∃ a b, data[i]? = some a ∧ data[j]? = some b ∧ similarity a b = true) data.length lead := by
  have : (fun i j => similarAt similarity data i j = true) =
      (fun i j => ∃ a b, data[i]? = some a ∧ data[j]? = some b ∧ similarity a b = true) := by
    funext i j; exact propext (similarAt_iff similarity data i j)
  rw [← this]
  exact ⟨_, leaderOf_spec _ _⟩

/-- C17, without a maximum size: the clusters of positions are disjoint, list no position twice, and are large enough. -/
theorem pairwise_leader_disjoint_partial (similarity : β → β → Bool) (data : List β) (min : Nat) :
    ∃ ps : List (List Nat), pairwiseLeader similarity data min none =
        .ok (ps.map fun c => c.filterMap fun i => data[i]?) ∧
      ps.Pairwise (fun c d => ∀ x, x ∈ c → x ∉ d) ∧ ∀ c ∈ ps, c.Nodup ∧ min ≤ c.length ∧ 2 ≤ c.length := by
  obtain ⟨lead, hl⟩ := leader_assignment_exists similarity data
  refine ⟨_, pairwise_leader_partial similarity data min lead hl, ?_, ?_⟩
  · rw [List.pairwise_filterMap]
    refine (List.nodup_range (n := data.length)).imp_of_mem ?_
    intro i k hi hk hik c hc d hd x hxc hxd
    split at hc <;> simp at hc
    split at hd <;> simp at hd
    next h1 h2 =>
    subst hc; subst hd
    simp only [List.mem_cons, List.mem_filter, List.mem_range, decide_eq_true_eq] at hxc hxd
    rcases hxc with rfl | ⟨_, h3⟩ <;> rcases hxd with rfl | ⟨_, h4⟩
    · exact hik rfl
    · rw [h1.1] at h4; cases h4
    · rw [h2.1] at h3; cases h3
    · rw [h3] at h4; simp at h4; exact hik h4
  · intro c hc
    rw [List.mem_filterMap] at hc
    obtain ⟨i, _, hc⟩ := hc
    split at hc <;> simp at hc
    next h1 =>
    subst hc
    refine ⟨?_, ?_, ?_⟩
    · rw [List.nodup_cons]
      refine ⟨?_, List.nodup_range.filter _⟩
      simp only [List.mem_filter, decide_eq_true_eq, not_and]
      intro _ h
      rw [h1.1] at h; cases h
    · rw [List.length_cons]; exact h1.2.2
    · obtain ⟨j, hj, h⟩ := h1.2.1
      have : 0 < ((List.range data.length).filter fun j => decide (lead j = some i)).length :=
        List.length_pos_of_mem (a := j) (by simp [hj, h])
      rw [List.length_cons]; omega

/-- C17, with a maximum size: either `AttributeError`, or the clusters without a maximum, none of which is too large. -/
theorem pairwise_leader_max_size_partial (similarity : β → β → Bool) (data : List β) (min m : Nat) :
    pairwiseLeader similarity data min (some m) = .error .attributeError ∨
    ∃ cs, pairwiseLeader similarity data min (some m) = .ok cs ∧ pairwiseLeader similarity data min none = .ok cs ∧
      ∀ c ∈ cs, c.length ≤ m := by
  unfold pairwiseLeader leaderPositions
  rcases leaderOuter_some similarity data min m (List.range data.length) [] with h | ⟨cs, h1, h2, h3⟩
  · left; rw [h]; rfl
  · right
    rw [h1, h2]
    refine ⟨_, rfl, rfl, ?_⟩
    intro c hc
    rw [List.mem_map] at hc
    obtain ⟨d, hd, rfl⟩ := hc
    exact Nat.le_trans (List.length_filterMap_le _ _) (h3 d hd)

/-- C17, with a maximum size: it raises exactly when a leader would lead `m` positions or more, one at least, even if the cluster were too
small for the minimum size. -/
theorem pairwise_leader_raises_iff (similarity : β → β → Bool) (data : List β) (min m : Nat) (lead : Nat → Option Nat)
    (hl : IsLeaderAssignment
      (fun i j => ∃ a b, data[i]? = some a ∧ data[j]? = some b ∧ similarity a b = true) data.length lead) :
    pairwiseLeader similarity data min (some m) = .error .attributeError ↔
      ∃ i, lead i = none ∧ (∃ j, j < data.length ∧ lead j = some i) ∧
        m < ((List.range data.length).filter fun j => decide (lead j = some i)).length + 1 := by
  have hl' : IsLeaderAssignment (fun i j => similarAt similarity data i j = true) data.length lead := by
    have : (fun i j => similarAt similarity data i j = true) =
        (fun i j => ∃ a b, data[i]? = some a ∧ data[j]? = some b ∧ similarity a b = true) := by
      funext i j; exact propext (similarAt_iff similarity data i j)
    rw [this]; exact hl
  have h := leaderOuter_spec similarity data 0 lead hl' 0 (by omega) [] (by
    intro j _; simp)
  have h0 : pyRange 0 data.length = List.range data.length := by
    unfold pyRange; rw [List.range_eq_range']; simp
  rw [h0] at h
  have hne : ∀ i, ledBy data.length lead i ≠ [] ↔ ∃ j, j < data.length ∧ lead j = some i := by
    intro i
    rw [ne_eq, List.eq_nil_iff_forall_not_mem]
    simp [ledBy]
  have hraise : pairwiseLeader similarity data min (some m) = .error .attributeError ↔
      leaderOuter similarity data min (some m) (List.range data.length) [] = .error .attributeError := by
    unfold pairwiseLeader leaderPositions
    cases leaderOuter similarity data min (some m) (List.range data.length) [] <;> simp [bind, Except.bind]
  rw [hraise, leaderOuter_error, h]
  constructor
  · rintro ⟨cs, hcs, c, hc, hm⟩
    injection hcs with hcs
    subst hcs
    obtain ⟨i, _, hi⟩ := List.mem_filterMap.mp hc
    split at hi
    · next h1 =>
        injection hi with hi
        subst hi
        exact ⟨i, h1.1, (hne i).mp h1.2.1, hm⟩
    · simp at hi
  · rintro ⟨i, h1, h2, hm⟩
    refine ⟨_, rfl, i :: ledBy data.length lead i, List.mem_filterMap.mpr ⟨i, ?_, ?_⟩, hm⟩
    · obtain ⟨j, hj, hji⟩ := h2
      have := (hl'.leads j hj i hji).1
      rw [List.mem_range]
      omega
    · rw [if_pos ⟨h1, (hne i).mpr h2, by omega⟩]

/-- Two leaders, a chain cut by the algorithm, with and without a maximum size. -/
example :
    pairwiseLeader (fun a b : Nat => decide (b ≤ a + 1)) [0, 1, 2, 3, 10] 2 none = .ok [[0, 1], [2, 3]] ∧
    pairwiseLeader (fun a b : Nat => decide (b ≤ a + 1)) [0, 1, 2, 3, 10] 2 (some 2) = .ok [[0, 1], [2, 3]] :=
  ⟨rfl, rfl⟩

/-- It raises though the cluster, of three items, would be too small for the minimum size of four. -/
example : pairwiseLeader (fun _ _ : Nat => true) [1, 2, 3] 4 (some 2) = .error .attributeError :=
  (pairwise_leader_raises_iff (fun _ _ : Nat => true) [1, 2, 3] 4 2 (fun j => if j = 0 then none else some 0)
    ⟨by
      intro j hj i hi
      split at hi <;> simp at hi
      subst hi
      refine ⟨by omega, by simp, ?_, by omega⟩
      simp only [List.length_cons, List.length_nil] at hj
      exact ⟨1, [1, 2, 3][j], rfl, List.getElem?_eq_getElem hj, rfl⟩, by
      intro j hj h i hij
      split at h <;> simp at h
      omega⟩).mpr ⟨0, rfl, ⟨1, by simp, rfl⟩, by decide⟩

/-! ### C18: fuzzy clusters and processes -/

/-- The similarity of the witness of C18. -/
def witnessSimilarity (a b : Nat) : Bool :=
  decide ((a, b) ∈ [(0, 1), (1, 5), (2, 5), (2, 3)])

/-- C18 is false: the chunks change the order of the pairs, hence which items lead a cluster. -/
theorem pairwise_fuzzy_depends_on_processes :
    pairwiseFuzzyClusters witnessSimilarity [0, 1, 2, 3, 4, 5] [0, 1, 2, 3, 4, 5] 2 none 1 1 =
      .ok [[0, 1], [5, 1, 2], [3, 2]] ∧
    pairwiseFuzzyClusters witnessSimilarity [0, 1, 2, 3, 4, 5] [0, 1, 2, 3, 4, 5] 2 none 2 1 =
      .ok [[0, 1], [2, 3, 5]] := ⟨rfl, rfl⟩

/-- C18, when the chunk holds all items: the clusters do not depend on the number of processes. -/
theorem pairwise_fuzzy_one_chunk_partial (similarity : γ → γ → Bool) (data : List β) (keys : List γ) (min : Nat)
    (max : Option Nat) (processes chunk_size : Nat) (hc : 0 < chunk_size) (h : keys.length ≤ chunk_size) :
    pairwiseFuzzyClusters similarity data keys min max processes chunk_size =
      pairwiseFuzzyClusters similarity data keys min max 1 chunk_size := by
  unfold pairwiseFuzzyClusters
  by_cases hp : processes = 1
  · simp [hp]
  · rw [if_neg hp, if_pos rfl]
    have hw : ∃ results, workerResults similarity keys chunk_size = .ok results ∧
        results.flatten = serialPairs similarity keys := by
      unfold workerResults
      rw [chunks_eq keys chunk_size hc]
      refine ⟨_, rfl, ?_⟩
      rcases Nat.eq_zero_or_pos keys.length with h0 | h0
      · have : (keys.length + chunk_size - 1) / chunk_size = 0 := Nat.div_eq_of_lt (by omega)
        rw [this]
        unfold serialPairs upperPairs
        rw [h0]; rfl
      · have : (keys.length + chunk_size - 1) / chunk_size = 1 := by
          apply Nat.div_eq_of_lt_le <;> omega
        rw [this]
        have hsl : slice keys (0 * chunk_size) (0 * chunk_size + chunk_size) = keys := by
          unfold slice
          simp [List.take_of_length_le h]
        simp only [List.range_one, List.flatMap_cons, List.flatMap_nil, List.map_cons, List.map_nil, List.append_nil,
          Nat.zero_add, List.flatten_cons, List.flatten_nil, pairwiseWorker, chunkAt, hsl, if_true]
        unfold serialPairs upperPairs
        rw [List.filter_flatMap]
        apply flatMap_congr'
        intro i _
        rw [List.filter_map, ← List.filterMap_eq_filter, ← List.filterMap_eq_map, List.filterMap_filterMap]
        congr 1
        funext j
        cases e1 : keys[i]? <;> cases e2 : keys[j]? <;> simp [Option.guard, similarAt, e1, e2]
        split <;> simp_all
    obtain ⟨results, h1, h2⟩ := hw
    rw [h1, ← h2]; rfl

/-- C18, for any number of processes and any chunk size: the clusters are stars of the graph of similar positions, each a
leader followed by all positions similar to it, the leader of a later cluster being in no earlier one, and none repeats
a position. -/
theorem pairwise_fuzzy_stars_partial (similarity : γ → γ → Bool) (data : List β) (keys : List γ)
    (hk : keys.length = data.length) (min : Nat) (max : Option Nat) (processes chunk_size : Nat) (hc : 0 < chunk_size) :
    ∃ ps : List (List Nat), pairwiseFuzzyClusters similarity data keys min max processes chunk_size =
        .ok (ps.map fun c => c.filterMap fun i => data[i]?) ∧
      (∀ c ∈ ps, SizeBetween min max c.length ∧ c.Nodup ∧
        ∃ item rest, c = item :: rest ∧ item < data.length ∧
          ∀ x, x ∈ rest ↔ SimilarPositions similarity keys item x) ∧
      ps.Pairwise (fun c d => ∀ item, d.head? = some item → item ∉ c) := by
  have key : ∀ pairs : List (Nat × Nat), pairs.Nodup → Exact similarity keys pairs →
      ∃ ps : List (List Nat), fuzzyFromPairs data pairs min max = (ps.map fun c => c.filterMap fun i => data[i]?) ∧
      (∀ c ∈ ps, SizeBetween min max c.length ∧ c.Nodup ∧
        ∃ item rest, c = item :: rest ∧ item < data.length ∧
          ∀ x, x ∈ rest ↔ SimilarPositions similarity keys item x) ∧
      ps.Pairwise (fun c d => ∀ item, d.head? = some item → item ∉ c) := by
    intro pairs hnd he
    obtain ⟨cs, h1, h2, h3⟩ := fuzzy_clusters_are_stars (fun _ l => l) (fun _ l => List.Perm.refl l) pairs min max false
    obtain ⟨cs', h4, h5⟩ := fuzzy_clusters_nodup_partial (fun _ l => l) (fun _ l => List.Perm.refl l) pairs min max false
      (by
        intro p hp
        have := (he p.1 p.2).mp hp
        omega)
      (Or.inr (by
        refine hnd.imp_of_mem ?_
        intro p q hp hq hpq
        refine ⟨hpq, ?_⟩
        intro h
        have h1 := (he p.1 p.2).mp hp
        have h2 := (he q.1 q.2).mp hq
        rw [h] at h1
        simp at h1
        omega))
    rw [h1] at h4
    cases h4
    cases h1
    refine ⟨_, rfl, ?_, ?_⟩
    · intro c hc
      obtain ⟨hs, item, rest, h6, hne, h7⟩ := h2 c hc
      refine ⟨hs, h5 c hc, item, rest, h6, ?_, fun x => (h7 x).trans (he.linked item x)⟩
      obtain ⟨x, hx⟩ := List.exists_mem_of_ne_nil _ hne
      rw [← hk]
      rcases (h7 x).mp hx with h | h
      · exact (he.lt _ h).1
      · exact (he.lt _ h).2
    · refine h3.imp ?_
      intro c d h item hd
      have := h item hd
      cases c with
      | nil => simp
      | cons a c =>
          simp at this ⊢
          exact ⟨fun e => this.2 e.symm, this.1⟩
  unfold pairwiseFuzzyClusters
  by_cases hp : processes = 1
  · rw [if_pos hp]
    obtain ⟨ps, h1, h2⟩ := key (serialPairs similarity keys) ((nodup_upperPairs _).filter _)
      (fun p q => mem_serialPairs similarity keys p q)
    exact ⟨ps, by rw [h1], h2⟩
  · rw [if_neg hp]
    obtain ⟨results, h1, h2, h3⟩ := workers_spec similarity keys chunk_size hc
    obtain ⟨ps, h4, h5⟩ := key results.flatten h2 h3
    refine ⟨ps, ?_, h5⟩
    rw [h1, ← h4]; rfl

/-- A chunk size smaller than the number of items. -/
example : pairwiseFuzzyClusters (fun a b : Nat => decide (b ≤ a + 1)) [0, 1, 2, 10] [0, 1, 2, 10] 2 none 4 2 =
    .ok [[0, 1], [2, 1]] := rfl

end Fog.Props
