import Verif.Model.PairwiseModes
import Verif.Props.Pairwise
import Mathlib.Algebra.Order.Group.Unbundled.Basic
import Mathlib.Algebra.Order.Ring.Int
import Mathlib.Data.List.Perm.Subperm

/-!
# C99: the modes of `pairwise`, and its similarity and distance arguments
-/

namespace Fog.Props

open Pairwise Spec

variable {β K : Type} [LinearOrder K]

/-- What the arguments mean: similar is at least the radius for a similarity, at most for a distance; without a radius a similarity must
not be zero and a distance must be. The similarity has precedence. -/
def MeansSimilar [Zero K] (similarity distance : Option (β → β → K)) (radius : Option K) (a b : β) : Prop :=
  (∃ s, similarity = some s ∧ ((∃ r, radius = some r ∧ r ≤ s a b) ∨ (radius = none ∧ s a b ≠ 0))) ∨
  (similarity = none ∧ ∃ d, distance = some d ∧ ((∃ r, radius = some r ∧ d a b ≤ r) ∨ (radius = none ∧ d a b = 0)))

/-- **C99**: a `TypeError` is raised exactly when there is neither a similarity nor a distance; else the function made from them says
whether items are similar. -/
theorem make_similarity_exact [Zero K] (similarity distance : Option (β → β → K)) (radius : Option K) :
    (similarity = none ∧ distance = none ∧ makeSimilarityFunction similarity distance radius = .error .typeError) ∨
    ((similarity ≠ none ∨ distance ≠ none) ∧ ∃ f, makeSimilarityFunction similarity distance radius = .ok f ∧
      ∀ a b, f a b = true ↔ MeansSimilar similarity distance radius a b) := by
  cases similarity with
  | none =>
      cases distance with
      | none => exact Or.inl ⟨rfl, rfl, rfl⟩
      | some d =>
          right
          cases radius with
          | none => exact ⟨by simp, _, rfl, by simp [MeansSimilar]⟩
          | some r => exact ⟨by simp, _, rfl, by simp [MeansSimilar]⟩
  | some s =>
      right
      cases radius with
      | none => exact ⟨by simp, _, rfl, by simp [MeansSimilar]⟩
      | some r => exact ⟨by simp, _, rfl, by simp [MeansSimilar]⟩

/-- **C99**: a distance and a radius are the same as their opposites as a similarity. -/
theorem make_similarity_opposite [AddGroup K] [AddLeftMono K] [AddRightMono K] (d : β → β → K) (r : K) :
    makeSimilarityFunction none (some d) (some r) = makeSimilarityFunction (some fun a b => - d a b) none (some (-r)) := by
  simp only [makeSimilarityFunction, Option.isNone_none, Option.isNone_some, Bool.and_false, Bool.false_and, Bool.false_eq_true, if_false,
    ge_iff_le, neg_le_neg_iff]

variable [Zero K]

/-- **C99**: `pairwise` raises a `TypeError` exactly for an unknown mode, for the leader mode with an argument it does not have, or when there
is neither a similarity nor a distance; and nothing else but for no processes, for a chunk size of zero and for a
maximum size of leader clusters. -/
theorem pairwise_raises_iff {σ : Type} (uf : UnionFind σ) (arrival : List (List (Nat × Nat)) → List (List (Nat × Nat))) (data : List β)
    (mode : String) (kwargs : Kwargs β K) (hc : kwargs.chunk_size ≠ some 0) (hp : kwargs.processes ≠ some 0) (hm : mode = "leader" → kwargs.max_size = none) (e : PyErr) :
    pairwise uf arrival data mode kwargs = .error e ↔ e = .typeError ∧
      ((mode ≠ "leader" ∧ mode ≠ "fuzzy_clusters" ∧ mode ≠ "connected_components") ∨
        (mode = "leader" ∧ (kwargs.key ≠ none ∨ kwargs.processes ≠ none ∨ kwargs.chunk_size ≠ none)) ∨
        (kwargs.similarity = none ∧ kwargs.distance = none)) := by
  have hc' : 0 < kwargs.chunk_size.getD 100 := by
    cases h : kwargs.chunk_size with
    | none => decide
    | some c =>
        rw [h] at hc
        have : c ≠ 0 := fun h => hc (by rw [h])
        simp; omega
  unfold pairwise
  by_cases h1 : mode ∉ ["leader", "fuzzy_clusters", "connected_components"]
  · rw [if_pos h1]
    simp only [List.mem_cons, List.not_mem_nil, or_false, not_or] at h1
    simp [h1, eq_comm]
  · rw [if_neg h1]
    rcases make_similarity_exact kwargs.similarity kwargs.distance kwargs.radius with ⟨hs, hd, hf⟩ | ⟨hsd, f, hf, _⟩
    · rw [hf]
      simp only [bind, Except.bind, hs, hd]
      split
      · split <;> simp [eq_comm]
      · split <;> simp [eq_comm]
    · rw [hf]
      simp only [bind, Except.bind]
      have hn : ¬ (kwargs.similarity = none ∧ kwargs.distance = none) := by
        rintro ⟨h2, h3⟩; rcases hsd with h | h <;> contradiction
      have hk : ¬ (mode ≠ "leader" ∧ mode ≠ "fuzzy_clusters" ∧ mode ≠ "connected_components") := by
        rintro ⟨h2, h3, h4⟩
        exact h1 (by simp [h2, h3, h4])
      by_cases hl : mode = "leader"
      · rw [if_pos hl]
        by_cases ha : (kwargs.key.isSome || kwargs.processes.isSome || kwargs.chunk_size.isSome) = true
        · rw [if_pos ha]
          have ha' : kwargs.key ≠ none ∨ kwargs.processes ≠ none ∨ kwargs.chunk_size ≠ none := by
            simpa [Option.isSome_iff_ne_none, or_assoc] using ha
          simp [hl, ha', eq_comm]
        · rw [if_neg ha]
          have ha' : ¬ (kwargs.key ≠ none ∨ kwargs.processes ≠ none ∨ kwargs.chunk_size ≠ none) := by
            simpa [Option.isSome_iff_ne_none, or_assoc] using ha
          obtain ⟨ps, hp, _⟩ := pairwise_leader_disjoint_partial f data kwargs.min_size
          rw [hm hl, hp]
          simp only [reduceCtorEq, false_iff]
          rintro ⟨_, h | h | h⟩
          · exact hk h
          · exact ha' h.2
          · exact hn h
      · rw [if_neg hl]
        have hr : ¬ ((mode ≠ "leader" ∧ mode ≠ "fuzzy_clusters" ∧ mode ≠ "connected_components") ∨
            (mode = "leader" ∧ (kwargs.key ≠ none ∨ kwargs.processes ≠ none ∨ kwargs.chunk_size ≠ none)) ∨
            (kwargs.similarity = none ∧ kwargs.distance = none)) := by
          rintro (h | h | h)
          · exact hk h
          · exact hl h.1
          · exact hn h
        rw [iff_false_right (fun h => hr h.2)]
        simp only [if_neg hp]
        split
        · unfold pairwiseFuzzyClusters
          split
          · simp
          · obtain ⟨results, hw, _⟩ := workers_spec f (keysOf kwargs.key data) _ hc'
            rw [hw]; simp [bind, Except.bind]
        · split
          · simp
          · unfold pairwiseConnectedComponentsParallel
            obtain ⟨results, hw, _⟩ := workers_spec f (keysOf kwargs.key data) _ hc'
            rw [hw]; simp [bind, Except.bind]

theorem connected_trans {α : Type} {R : α → α → Prop} {a b c : α} (h : Connected R a b) (h' : Connected R b c) : Connected R a c := by
  induction h with
  | refl => exact h'
  | step h _ ih => exact .step h (ih h')

/-- The component of a position which is similar to another one is among the clusters of two items or more. -/
theorem component_of_similar {similarity : β → β → Bool} {keys : List β} {cs : List (List Nat)}
    (hcs : IsComponents (SimilarPositions similarity keys) (fun i => i < keys.length) (SizeBetween 2 none) cs) {i j : Nat}
    (h : SimilarPositions similarity keys i j) : ∃ c ∈ cs, ∀ x, x ∈ c ↔ Connected (SimilarPositions similarity keys) i x := by
  classical
  have hlt : ∀ {i j}, SimilarPositions similarity keys i j → i < keys.length ∧ j < keys.length := by
    rintro i j (⟨_, a, b, h1, h2, _⟩ | ⟨_, a, b, h1, h2, _⟩)
    · exact ⟨(List.getElem?_eq_some_iff.mp h1).1, (List.getElem?_eq_some_iff.mp h2).1⟩
    · exact ⟨(List.getElem?_eq_some_iff.mp h2).1, (List.getElem?_eq_some_iff.mp h1).1⟩
  have hcl : ∀ {i x}, Connected (SimilarPositions similarity keys) i x → i < keys.length → x < keys.length := by
    intro i x h
    induction h with
    | refl => exact id
    | step h _ ih => exact fun _ => ih (hlt h).2
  have hsymm : ∀ {i j}, SimilarPositions similarity keys i j → SimilarPositions similarity keys j i := fun h => h.symm
  have hcsymm : ∀ {i x}, Connected (SimilarPositions similarity keys) i x → Connected (SimilarPositions similarity keys) x i := by
    intro i x h
    induction h with
    | refl => exact .refl _
    | step h _ ih => exact connected_trans ih (.step (hsymm h) (.refl _))
  have hne : i ≠ j := by
    rintro rfl
    rcases h with ⟨h, _⟩ | ⟨h, _⟩ <;> omega
  have hi := (hlt h).1
  -- The component as a list.
  let l := (List.range keys.length).filter fun x => decide (Connected (SimilarPositions similarity keys) i x)
  have hl : ∀ x, x ∈ l ↔ Connected (SimilarPositions similarity keys) i x := by
    intro x
    simp only [l, List.mem_filter, List.mem_range, decide_eq_true_eq]
    exact ⟨fun h => h.2, fun h => ⟨hcl h hi, h⟩⟩
  have hnd : l.Nodup := List.nodup_range.filter _
  have hlen : 2 ≤ l.length := by
    have hsub : [i, j].Subperm l := List.subperm_of_subset (List.nodup_cons.mpr ⟨by simpa using hne, by simp⟩) (by
      intro x hx
      simp only [List.mem_cons, List.not_mem_nil, or_false] at hx
      rw [hl]
      rcases hx with rfl | rfl
      · exact .refl _
      · exact .step h (.refl _))
    exact hsub.length_le
  obtain ⟨c, hc, hic⟩ := hcs.complete i hi l ⟨hnd, hl⟩ ⟨hlen, by simp⟩
  refine ⟨c, hc, ?_⟩
  obtain ⟨_, a, _, _, ha⟩ := hcs.sound c hc
  have hai := (ha i).mp hic
  intro x
  rw [ha]
  exact ⟨fun h => connected_trans (hcsymm hai) h, fun h => connected_trans hai h⟩

/-- Items are similar when their keys are. -/
def MeansSimilarItems (kwargs : Kwargs β K) (a b : β) : Prop :=
  MeansSimilar kwargs.similarity kwargs.distance kwargs.radius (kwargs.key.getD id a) (kwargs.key.getD id b)

/-- Two positions of similar items, compared in the order of the data. -/
def MeansSimilarPositions (kwargs : Kwargs β K) (data : List β) (i j : Nat) : Prop :=
  (i < j ∧ ∃ a b, data[i]? = some a ∧ data[j]? = some b ∧ MeansSimilarItems kwargs a b) ∨
  (j < i ∧ ∃ a b, data[j]? = some a ∧ data[i]? = some b ∧ MeansSimilarItems kwargs a b)

omit [LinearOrder K] [Zero K] in
theorem keysOf_eq (key : Option (β → β)) (data : List β) : keysOf key data = data.map (key.getD id) := by
  cases key <;> simp [keysOf]

theorem means_similar_positions {kwargs : Kwargs β K} {f : β → β → Bool}
    (hf : ∀ a b, f a b = true ↔ MeansSimilar kwargs.similarity kwargs.distance kwargs.radius a b) (data : List β) (i j : Nat) :
    SimilarPositions f (keysOf kwargs.key data) i j ↔ MeansSimilarPositions kwargs data i j := by
  unfold SimilarPositions MeansSimilarPositions MeansSimilarItems
  rw [keysOf_eq]
  simp only [List.getElem?_map, Option.map_eq_some_iff, hf]
  grind

/-- **C99**: whatever the number of processes and the size of the chunks, the clusters of the mode of connected components are the connected
components of the items whose keys are similar. -/
theorem pairwise_connected_components_exact {σ : Type} (uf : UnionFind σ) (huf : uf.Lawful)
    (arrival : List (List (Nat × Nat)) → List (List (Nat × Nat))) (ha : ∀ l, (arrival l).Perm l) (data : List β) (kwargs : Kwargs β K)
    (hsd : kwargs.similarity ≠ none ∨ kwargs.distance ≠ none) (hp : kwargs.processes ≠ some 0) (hc : kwargs.chunk_size ≠ some 0) :
    ∃ ps : List (List Nat), pairwise uf arrival data "connected_components" kwargs = .ok (ps.map fun c => c.filterMap fun i => data[i]?) ∧
      IsComponents (MeansSimilarPositions kwargs data) (fun i => i < data.length) (SizeBetween kwargs.min_size kwargs.max_size) ps := by
  have hc' : 0 < kwargs.chunk_size.getD 100 := by
    cases h : kwargs.chunk_size with
    | none => decide
    | some c =>
        rw [h] at hc
        have : c ≠ 0 := fun h => hc (by rw [h])
        simp; omega
  rcases make_similarity_exact kwargs.similarity kwargs.distance kwargs.radius with ⟨hs, hd, _⟩ | ⟨_, f, hf, hfs⟩
  · rcases hsd with h | h <;> contradiction
  · have hk : (keysOf kwargs.key data).length = data.length := by rw [keysOf_eq, List.length_map]
    have hrel : SimilarPositions f (keysOf kwargs.key data) = MeansSimilarPositions kwargs data := by
      funext i j
      exact propext (means_similar_positions hfs data i j)
    unfold pairwise
    rw [if_neg (by decide), if_neg (by decide), if_neg (by decide)]
    simp only [hf, bind, Except.bind, if_neg hp]
    rw [← hrel]
    by_cases h1 : kwargs.processes.getD 1 = 1
    · rw [if_pos h1]
      obtain ⟨ps, h2, h3⟩ := pairwise_components_serial uf huf f data (keysOf kwargs.key data) hk kwargs.min_size kwargs.max_size
      exact ⟨ps, by rw [h2], h3⟩
    · rw [if_neg h1]
      exact pairwise_components_parallel uf huf arrival ha f data (keysOf kwargs.key data) hk kwargs.min_size kwargs.max_size _ hc'

/-- **C99**: the clusters of the fuzzy mode are items with all those whose keys are similar to theirs, none of which then makes a cluster. -/
theorem pairwise_fuzzy_mode_exact {σ : Type} (uf : UnionFind σ) (arrival : List (List (Nat × Nat)) → List (List (Nat × Nat))) (data : List β)
    (kwargs : Kwargs β K) (hsd : kwargs.similarity ≠ none ∨ kwargs.distance ≠ none) (hp : kwargs.processes ≠ some 0)
    (hc : kwargs.chunk_size ≠ some 0) :
    ∃ ps : List (List Nat), pairwise uf arrival data "fuzzy_clusters" kwargs = .ok (ps.map fun c => c.filterMap fun i => data[i]?) ∧
      (∀ c ∈ ps, SizeBetween kwargs.min_size kwargs.max_size c.length ∧ c.Nodup ∧
        ∃ item rest, c = item :: rest ∧ item < data.length ∧ ∀ x, x ∈ rest ↔ MeansSimilarPositions kwargs data item x) ∧
      ps.Pairwise (fun c d => ∀ item, d.head? = some item → item ∉ c) := by
  have hc' : 0 < kwargs.chunk_size.getD 100 := by
    cases h : kwargs.chunk_size with
    | none => decide
    | some c =>
        rw [h] at hc
        have : c ≠ 0 := fun h => hc (by rw [h])
        simp; omega
  rcases make_similarity_exact kwargs.similarity kwargs.distance kwargs.radius with ⟨hs, hd, _⟩ | ⟨_, f, hf, hfs⟩
  · rcases hsd with h | h <;> contradiction
  · have hk : (keysOf kwargs.key data).length = data.length := by rw [keysOf_eq, List.length_map]
    have hrel : SimilarPositions f (keysOf kwargs.key data) = MeansSimilarPositions kwargs data := by
      funext i j
      exact propext (means_similar_positions hfs data i j)
    unfold pairwise
    rw [if_neg (by decide), if_neg (by decide), if_pos rfl]
    simp only [hf, bind, Except.bind, if_neg hp]
    rw [← hrel]
    exact pairwise_fuzzy_stars_partial f data (keysOf kwargs.key data) hk kwargs.min_size kwargs.max_size _ _ hc'

/-- **C99**: no processes is a `ValueError`, and a chunk size of zero a `ZeroDivisionError` when chunks are made. -/
theorem pairwise_raises_processes {σ : Type} (uf : UnionFind σ) (arrival : List (List (Nat × Nat)) → List (List (Nat × Nat))) (data : List β)
    {mode : String} (hmode : mode = "fuzzy_clusters" ∨ mode = "connected_components") (kwargs : Kwargs β K)
    (hsd : kwargs.similarity ≠ none ∨ kwargs.distance ≠ none) :
    (kwargs.processes = some 0 → pairwise uf arrival data mode kwargs = .error .valueError) ∧
    (kwargs.chunk_size = some 0 → (∀ n, kwargs.processes = some n → 2 ≤ n) → kwargs.processes ≠ none →
      pairwise uf arrival data mode kwargs = .error .zeroDivisionError) ∧
    (kwargs.processes = none ∨ kwargs.processes = some 1 →
      pairwise uf arrival data mode kwargs = pairwise uf arrival data mode { kwargs with chunk_size := none }) := by
  rcases make_similarity_exact kwargs.similarity kwargs.distance kwargs.radius with ⟨hs, hd, _⟩ | ⟨_, f, hf, hfs⟩
  · rcases hsd with h | h <;> contradiction
  · refine ⟨fun h => ?_, fun h hn hne => ?_, fun h => ?_⟩
    · unfold pairwise
      rcases hmode with rfl | rfl <;> simp [hf, bind, Except.bind, h]
    · obtain ⟨n, hpn⟩ := Option.ne_none_iff_exists'.mp hne
      have h2 := hn n hpn
      unfold pairwise
      rcases hmode with rfl | rfl <;>
        simp [hf, bind, Except.bind, h, hpn, show n ≠ 0 by omega, show n ≠ 1 by omega, pairwiseFuzzyClusters,
          pairwiseConnectedComponentsParallel, workerResults, ClusteringUtils.upperTriangularMatrixChunkIter]
    · unfold pairwise
      rcases hmode with rfl | rfl <;> rcases h with h | h <;> simp [h, pairwiseFuzzyClusters]

/-- **C99**: with the default sizes, the three modes are nested: every leader cluster and every fuzzy cluster is within one connected component,
and the fuzzy clusters have exactly the items of the connected components. -/
theorem pairwise_modes_nested {σ : Type} (uf : UnionFind σ) (huf : uf.Lawful) (arrival : List (List (Nat × Nat)) → List (List (Nat × Nat)))
    (data : List β) (similarity distance : Option (β → β → K)) (hsd : similarity ≠ none ∨ distance ≠ none) (radius : Option K) :
    ∃ leader fuzzy components : List (List Nat),
      pairwise uf arrival data "leader" { similarity, distance, radius } = .ok (leader.map fun c => c.filterMap fun i => data[i]?) ∧
      pairwise uf arrival data "fuzzy_clusters" { similarity, distance, radius } = .ok (fuzzy.map fun c => c.filterMap fun i => data[i]?) ∧
      pairwise uf arrival data "connected_components" { similarity, distance, radius } =
        .ok (components.map fun c => c.filterMap fun i => data[i]?) ∧
      (∀ c ∈ leader ++ fuzzy, c.Nodup ∧ ∃ d ∈ components, ∀ i ∈ c, i ∈ d) ∧
      (∀ i, (∃ c ∈ fuzzy, i ∈ c) ↔ ∃ d ∈ components, i ∈ d) ∧ components.Pairwise (fun c d => ∀ i ∈ c, i ∉ d) := by
  rcases make_similarity_exact similarity distance radius with ⟨hs, hd, _⟩ | ⟨_, f, hf, _⟩
  · rcases hsd with h | h <;> contradiction
  · obtain ⟨lead, hlead⟩ := leader_assignment_exists f data
    obtain ⟨cs, h1, hcs⟩ := pairwise_components_serial uf huf f data data rfl 2 none
    have he : Exact f data (serialPairs f data) := fun p q => mem_serialPairs f data p q
    obtain ⟨fs, h2, hstars, _⟩ := fuzzy_clusters_are_stars (fun _ l => l) (fun _ l => List.Perm.refl l) (serialPairs f data) 2 none false
    obtain ⟨fs', h2', hnodup⟩ := fuzzy_clusters_nodup_partial (fun _ l => l) (fun _ l => List.Perm.refl l) (serialPairs f data) 2 none false
      (by
        intro p hp
        have := (he p.1 p.2).mp hp
        omega)
      (Or.inr (by
        refine ((nodup_upperPairs _).filter _ : (serialPairs f data).Nodup).imp_of_mem ?_
        intro p q hp hq hpq
        refine ⟨hpq, ?_⟩
        intro h
        have h1 := (he p.1 p.2).mp hp
        have h2 := (he q.1 q.2).mp hq
        rw [h] at h1
        simp at h1
        omega))
    rw [h2] at h2'
    injection h2' with h2'
    subst h2'
    have hcover : ∀ i j, SimilarPositions f data i j → ∃ c ∈ fs, i ∈ c := by
      intro i j h
      obtain ⟨gs, h3, h4⟩ := fuzzy_clusters_cover (fun _ l => l) (fun _ l => List.Perm.refl l) (serialPairs f data) false i j
        ((he.linked i j).mpr h)
      rw [h2] at h3
      injection h3 with h3
      exact h3 ▸ h4
    refine ⟨(List.range data.length).filterMap fun i =>
        if lead i = none ∧ (∃ j, j < data.length ∧ lead j = some i) ∧
          ((List.range data.length).filter fun j => decide (lead j = some i)).length + 1 ≥ 2
        then some (i :: (List.range data.length).filter fun j => decide (lead j = some i)) else none, fs, cs, ?_, ?_, ?_, ?_, ?_, hcs.disjoint⟩
    · unfold pairwise
      rw [if_neg (by decide), if_pos rfl, if_neg (by simp)]
      simp only [hf, bind, Except.bind]
      exact pairwise_leader_partial f data 2 lead hlead
    · unfold pairwise
      rw [if_neg (by decide), if_neg (by decide), if_pos rfl]
      simp only [hf, bind, Except.bind]
      rw [if_neg (by simp)]
      unfold pairwiseFuzzyClusters
      rw [if_pos (show Option.getD none 1 = 1 from rfl)]
      unfold fuzzyFromPairs
      rw [show ClusteringUtils.clustersFromPairs (fun _ l => l) (serialPairs f data) 2 none .fuzzyClusters false =
        .ok (ClusteringUtils.fuzzyClusters false (fun _ l => l) 2 none (ClusteringUtils.makeGraph false (serialPairs f data)) []) from rfl] at h2
      injection h2 with h2
      rw [← h2]
      rfl
    · unfold pairwise
      rw [if_neg (by decide), if_neg (by decide), if_neg (by decide)]
      simp only [hf, bind, Except.bind]
      rw [if_neg (by simp), if_pos (show Option.getD none 1 = 1 from rfl), ← h1]
      rfl
    · intro c hc
      rcases List.mem_append.mp hc with hc | hc
      rotate_left
      · refine ⟨hnodup c hc, ?_⟩
        obtain ⟨_, item, rest, rfl, hne, hrest⟩ := hstars c hc
        obtain ⟨x, hx⟩ := List.exists_mem_of_ne_nil _ hne
        have hsim : ∀ x ∈ rest, SimilarPositions f data item x := fun x hx => (he.linked item x).mp ((hrest x).mp hx)
        obtain ⟨d, hd, hdx⟩ := component_of_similar hcs (hsim x hx)
        refine ⟨d, hd, ?_⟩
        intro i hi
        rw [hdx]
        rcases List.mem_cons.mp hi with rfl | hi
        · exact .refl _
        · exact .step (hsim i hi) (.refl _)
      · obtain ⟨i, hi, hic⟩ := List.mem_filterMap.mp hc
        split at hic
        · next hcond =>
            injection hic with hic
            subst hic
            obtain ⟨hnone, ⟨j, hj, hji⟩, _⟩ := hcond
            have hsim : ∀ j, j < data.length → lead j = some i → SimilarPositions f data i j := by
              intro j hj h
              obtain ⟨h3, _, h4, _⟩ := hlead.leads j hj i h
              exact Or.inl ⟨h3, h4⟩
            obtain ⟨d, hd, hdx⟩ := component_of_similar hcs (hsim j hj hji)
            refine ⟨List.nodup_cons.mpr ⟨?_, List.nodup_range.filter _⟩, d, hd, ?_⟩
            · intro h
              have := (List.mem_filter.mp h).2
              rw [decide_eq_true_eq, hnone] at this
              exact absurd this (by simp)
            · intro x hx
              rw [hdx]
              rcases List.mem_cons.mp hx with rfl | hx
              · exact .refl _
              · obtain ⟨h3, h4⟩ := List.mem_filter.mp hx
                exact .step (hsim x (List.mem_range.mp h3) (by simpa using h4)) (.refl _)
        · exact absurd hic (by simp)
    · intro i
      constructor
      · rintro ⟨c, hc, hi⟩
        obtain ⟨_, item, rest, rfl, hne, hrest⟩ := hstars c hc
        obtain ⟨x, hx⟩ := List.exists_mem_of_ne_nil _ hne
        have hsim : ∀ x ∈ rest, SimilarPositions f data item x := fun x hx => (he.linked item x).mp ((hrest x).mp hx)
        obtain ⟨d, hd, hdx⟩ := component_of_similar hcs (hsim x hx)
        refine ⟨d, hd, (hdx i).mpr ?_⟩
        rcases List.mem_cons.mp hi with rfl | hi
        · exact .refl _
        · exact .step (hsim i hi) (.refl _)
      · rintro ⟨d, hd, hi⟩
        obtain ⟨hsz, a, _, hnd, hda⟩ := hcs.sound d hd
        -- Another position of the component, hence a neighbor.
        have hother : ∃ j ∈ d, j ≠ i := by
          by_contra hno
          push Not at hno
          have : d.Subperm [i] := List.subperm_of_subset hnd (fun x hx => by simp [hno x hx])
          have := this.length_le
          have := hsz.1
          simp at *
          omega
        obtain ⟨j, hj, hji⟩ := hother
        have hsymm : ∀ {i x}, Connected (SimilarPositions f data) i x → Connected (SimilarPositions f data) x i := by
          intro i x h
          induction h with
          | refl => exact .refl _
          | step h _ ih => exact connected_trans ih (.step h.symm (.refl _))
        have hij := connected_trans (hsymm ((hda i).mp hi)) ((hda j).mp hj)
        cases hij with
        | refl => exact absurd rfl hji
        | step h _ => exact hcover _ _ h

-- A key, two processes and chunks of two items: the last digits which differ by at most one.
example : ∃ ps : List (List Nat), pairwise searchUnionFind List.reverse [1, 12, 25, 33, 46] "connected_components"
      { distance := some fun a b : Int => |a - b|, radius := some 1, key := some fun a => a % 10, processes := some 2, chunk_size := some 2 } =
        .ok (ps.map fun c => c.filterMap fun i => [(1 : Int), 12, 25, 33, 46][i]?) := by
  obtain ⟨ps, h, _⟩ := pairwise_connected_components_exact searchUnionFind searchUnionFind_lawful List.reverse (fun l => List.reverse_perm l)
    [1, 12, 25, 33, 46] { distance := some fun a b : Int => |a - b|, radius := some 1, key := some fun a => a % 10, processes := some 2, chunk_size := some 2 }
      (by simp) (by simp) (by simp)
  exact ⟨ps, h⟩

example : pairwise searchUnionFind id [1, 12, 25, 33, 46] "fuzzy_clusters"
      { distance := some fun a b : Int => |a - b|, radius := some 1, key := some fun a => a % 10, processes := some 2, chunk_size := some 2 } =
        .ok [[1, 12], [33, 12], [25, 46]] := by decide +kernel

-- The modes on five numbers, two of which are similar when they differ by one.
example : pairwise searchUnionFind id [1, 2, 3, 4, 9] "leader" { distance := some fun a b : Int => |a - b|, radius := some 1 } =
      .ok [[1, 2], [3, 4]] ∧
    pairwise searchUnionFind id [1, 2, 3, 4, 9] "fuzzy_clusters" { distance := some fun a b : Int => |a - b|, radius := some 1 } =
      .ok [[1, 2], [3, 2, 4]] ∧
    pairwise searchUnionFind id [1, 2, 3, 4, 9] "fuzzy" { distance := some fun a b : Int => |a - b|, radius := some 1 } =
      .error .typeError := by
  decide +kernel

end Fog.Props
