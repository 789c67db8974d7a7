import Verif.Lemmas.Buckets

/-!
# Properties of `key_collision` (C19, C20) and `blocking` (C21)
-/

namespace Fog.Props

open Fog.ClusteringUtils Fog.KeyCollision Fog.Blocking Fog.Spec

variable {α κ : Type _} [DecidableEq α] [DecidableEq κ]

theorem sizeOk_eq (min : Nat) (max : Option Nat) (n : Nat) :
    sizeOk min max n = true ↔ min ≤ n ∧ ∀ m, max = some m → n ≤ m := sizeOk_iff ..

/-! ### C19 -/

/-- C19. With a single key, whatever `merge` and `keys` are: for each usable key, in order of first appearance, all items
having this key in order, when they are neither too few nor too many. -/
theorem key_collision_single (ord : α → List α → List α) (truthy : κ → Bool) (data : List α) (key : α → κ)
    (keys : Option (α → Option (List κ))) (min : Nat) (max : Option Nat) (merge : Bool) :
    keyCollision ord truthy data (some key) keys min max merge =
      .ok (((firsts ((data.map key).filter truthy)).map fun k => data.filter fun item => key item = k).filter
        fun c => decide (min ≤ c.length ∧ ∀ m ∈ max, c.length ≤ m)) := by
  unfold keyCollision
  simp only [Option.isNone_some, Bool.and_false, Bool.false_eq_true, if_false]
  rw [bucketsOf_eq, List.map_map]
  have hkeys : (keyEntries truthy key data).map Prod.fst = (data.map key).filter truthy := by
    unfold keyEntries
    induction data with
    | nil => rfl
    | cons x data ih =>
        rw [List.flatMap_cons, List.map_append, ih, List.map_cons, List.filter_cons]
        split <;> simp
  have hunder : ∀ k, truthy k = true → under (keyEntries truthy key data) k = data.filter fun item => key item = k := by
    intro k hk
    unfold keyEntries
    clear hkeys
    induction data with
    | nil => rfl
    | cons x data ih =>
        rw [List.flatMap_cons, under_append, ih, List.filter_cons]
        by_cases h : key x = k
        · simp [h, hk, under]
        · by_cases h' : truthy (key x) = true <;> simp [h, h', under]
  rw [hkeys]
  congr 1
  have hmap : (firsts ((data.map key).filter truthy)).map
        (Prod.snd ∘ fun k => (k, under (keyEntries truthy key data) k)) =
      (firsts ((data.map key).filter truthy)).map fun k => data.filter fun item => key item = k := by
    apply List.map_congr_left
    intro k hk
    rw [mem_firsts, List.mem_filter] at hk
    exact hunder k hk.2
  rw [hmap]
  apply List.filter_congr
  intro c _
  rw [Bool.eq_iff_iff, sizeOk_eq]
  simp [Option.mem_def]

/-- Three keys, one of which is empty and one of which has a single item. -/
example : keyCollision (fun _ l => l) (fun k : Nat => k ≠ 0) [1, 11, 20, 2, 21, 13] (some (· % 10)) none 2 none true =
    .ok [[1, 11, 21]] := by rfl

/-- C19, several keys without merging: the items are repeated as many times as they have the key. -/
theorem key_collision_several_unmerged (ord : α → List α → List α) (truthy : κ → Bool) (data : List α)
    (keys : α → Option (List κ)) (min : Nat) (max : Option Nat) :
    keyCollision ord truthy data none (some keys) min max false =
      .ok (((firsts ((data.flatMap fun item => (keys item).getD []).filter truthy)).map fun k =>
        data.flatMap fun item => List.replicate (((keys item).getD []).count k) item).filter
          fun c => decide (min ≤ c.length ∧ ∀ m ∈ max, c.length ≤ m)) := by
  unfold keyCollision
  simp only [Bool.false_and, Bool.false_eq_true, if_false]
  rw [bucketsOf_eq, List.map_map, keysEntries_eq]
  have hkeys : (data.flatMap fun item => (((keys item).getD []).filter truthy).map fun k => (k, item)).map Prod.fst =
      (data.flatMap fun item => (keys item).getD []).filter truthy := by
    induction data with
    | nil => rfl
    | cons x data ih =>
        rw [List.flatMap_cons, List.map_append, ih, List.flatMap_cons, List.filter_append]
        simp [Function.comp_def]
  have hunder : ∀ k, truthy k = true →
      under (data.flatMap fun item => (((keys item).getD []).filter truthy).map fun k => (k, item)) k =
      data.flatMap fun item => List.replicate (((keys item).getD []).count k) item := by
    intro k hk
    clear hkeys
    induction data with
    | nil => rfl
    | cons x data ih =>
        rw [List.flatMap_cons, under_append, ih, List.flatMap_cons]
        congr 1
        generalize (keys x).getD [] = ks
        induction ks with
        | nil => rfl
        | cons k' ks ih' =>
            rw [List.filter_cons]
            by_cases h : k' = k
            · subst h
              rw [if_pos hk, List.count_cons_self, List.replicate_succ, ← ih']
              simp [under]
            · rw [List.count_cons_of_ne h, ← ih']
              split
              · simp [under, h]
              · rfl
  rw [hkeys]
  congr 1
  rw [List.map_congr_left (g := fun k => data.flatMap fun item => List.replicate (((keys item).getD []).count k) item)]
  · apply List.filter_congr
    intro c _
    rw [Bool.eq_iff_iff, sizeOk_eq]
    simp [Option.mem_def]
  · intro k hk
    rw [mem_firsts, List.mem_filter] at hk
    exact hunder k hk.2

/-- Without merging, an item which has the same key twice makes a cluster alone. -/
theorem key_collision_unmerged_repeats :
    keyCollision (fun _ l => l) (fun _ : Nat => true) ['a'] none (some fun _ => some [7, 7]) 2 none false =
      .ok [['a', 'a']] := by rfl

/-! ### C20 -/

/-- C20 is false: when merging, the bounds on the size are ignored. -/
theorem key_collision_merge_ignores_sizes :
    keyCollision (fun _ l => l) (fun _ : Nat => true) ['a', 'b'] none (some fun _ => some [7]) 3 none true =
      .ok [['a', 'b']] ∧
    keyCollision (fun _ l => l) (fun _ : Nat => true) ['a', 'b'] none (some fun _ => some [7]) 0 (some 1) true =
      .ok [['a', 'b']] := by
  constructor <;> simp [keyCollision, bucketsOf, keysEntries, Dict.update, Dict.get?, Dict.set, clustersFromBuckets,
    pairsFromBuckets, bucketPairs, clustersFromPairs, makeGraph, addPair, add, components, search, iterate, sizeOk]
  all_goals rfl

/-- C20, for the default bounds: the clusters are the connected components of two items or more of the relation "share a
usable key", whatever the order of iteration of sets and whatever bounds are given. -/
theorem key_collision_merge_partial (ord : α → List α → List α) (hord : ∀ a l, (ord a l).Perm l) (truthy : κ → Bool)
    (data : List α) (keys : α → Option (List κ)) (min : Nat) (max : Option Nat) :
    ∃ cs, keyCollision ord truthy data none (some keys) min max true = .ok cs ∧
      IsComponents
        (fun a b => a ∈ data ∧ b ∈ data ∧ ∃ k ks ks', keys a = some ks ∧ keys b = some ks' ∧ truthy k = true ∧
          k ∈ ks ∧ k ∈ ks')
        (fun a => a ∈ data) (fun n => 2 ≤ n) cs := by
  unfold keyCollision clustersFromBuckets
  simp only [Option.isNone_none, Bool.and_true, if_true]
  rw [List.filter_eq_self.mpr (fun _ _ => rfl)]
  generalize hp : pairsFromBuckets ((bucketsOf (keysEntries truthy keys data)).map Prod.snd) = pairs
  have hmem : ∀ a b, (a, b) ∈ pairs ↔ ∃ k, ([a, b].Sublist data ∧ k ∈ ((keys a).getD []).filter truthy ∧
      k ∈ ((keys b).getD []).filter truthy) ∨ (a = b ∧ a ∈ data ∧ [k, k].Sublist (((keys a).getD []).filter truthy)) := by
    intro a b
    rw [← hp, mem_pairs_bucketsOf, keysEntries_eq]
    exact exists_congr fun k => pair_sublist_entries
  have hks : ∀ a k, k ∈ ((keys a).getD []).filter truthy ↔ ∃ ks, keys a = some ks ∧ k ∈ ks ∧ truthy k = true := by
    intro a k
    cases h : keys a <;> simp
  have hshare : ∀ a b, (a, b) ∈ pairs → a ∈ data ∧ b ∈ data ∧
      ∃ k ks ks', keys a = some ks ∧ keys b = some ks' ∧ truthy k = true ∧ k ∈ ks ∧ k ∈ ks' := by
    intro a b h
    obtain ⟨k, h | ⟨rfl, h1, h2⟩⟩ := (hmem a b).mp h
    · obtain ⟨h1, h2, h3⟩ := h
      obtain ⟨ks, h4, h5, h6⟩ := (hks a k).mp h2
      obtain ⟨ks', h7, h8, _⟩ := (hks b k).mp h3
      exact ⟨h1.subset (by simp), h1.subset (by simp), k, ks, ks', h4, h7, h6, h5, h8⟩
    · obtain ⟨ks, h4, h5, h6⟩ := (hks a k).mp (h2.subset (by simp))
      exact ⟨h1, h1, k, ks, ks, h4, h4, h6, h5, h5⟩
  obtain ⟨cs, h1, h2⟩ := clustersFromPairs_components (fun a l _ => (hord a l).mem_iff) pairs 2 none true
  refine ⟨cs, h1, ?_⟩
  have h3 := h2.nodes (M := fun a => a ∈ data) (by
    rintro a ⟨b, h | h⟩
    · exact (hshare _ _ h).1
    · exact (hshare _ _ h).2.1) (by
    intro a _ hN b hb
    exact hN ⟨b, hb⟩) (fun n h => h.1)
  refine h3.congr ?_ (fun _ => Iff.rfl) (fun n => ⟨fun h => h.1, fun h => ⟨h, by simp⟩⟩)
  intro a b
  constructor
  · refine Connected.mono ?_
    rintro a b (h | h)
    · exact hshare a b h
    · obtain ⟨h1, h2, k, ks, ks', h3, h4, h5, h6, h7⟩ := hshare b a h
      exact ⟨h2, h1, k, ks', ks, h4, h3, h5, h7, h6⟩
  · intro h
    induction h with
    | refl => exact .refl _
    | @step a b c h _ ih =>
        obtain ⟨ha, hb, k, ks, ks', h3, h4, h5, h6, h7⟩ := h
        by_cases hab : a = b
        · subst hab; exact ih
        · refine .step ?_ ih
          have hka := (hks a k).mpr ⟨ks, h3, h6, h5⟩
          have hkb := (hks b k).mpr ⟨ks', h4, h7, h5⟩
          rcases pair_sublist_of_mem ha hb hab with h | h
          · exact Or.inl ((hmem a b).mpr ⟨k, Or.inl ⟨h, hka, hkb⟩⟩)
          · exact Or.inr ((hmem b a).mpr ⟨k, Or.inl ⟨h, hkb, hka⟩⟩)

/-- Two keys per item, a chain of three items and a lone one. -/
example : keyCollision (fun _ l => l) (fun _ => true) [1, 2, 3, 10] none (some fun n => some [n, n + 1]) 2 none true =
    .ok [[1, 2, 3]] := by
  simp [keyCollision, bucketsOf, keysEntries, Dict.update, Dict.get?, Dict.set, clustersFromBuckets,
    pairsFromBuckets, bucketPairs, clustersFromPairs, makeGraph, addPair, add, components, search, iterate, sizeOk]
  rfl

/-! ### C21 -/

/-- The blocks of an item. -/
def blocksOf : BlockFn α κ → α → List κ
  | .block f, a => [f a]
  | .blocks f, a => f a

/-- Two items of the data, the first one before the second, which share a block and are similar, in this order. -/
def SimilarInBlock (fn : BlockFn α κ) (similarity : α → α → Bool) (data : List α) (a b : α) : Prop :=
  [a, b].Sublist data ∧ (∃ k, k ∈ blocksOf fn a ∧ k ∈ blocksOf fn b) ∧ similarity a b = true

theorem blockEntries_pairs (setOrd : List κ → List κ) (hset : ∀ l, (setOrd l).Perm l) (data : List α)
    (fn : BlockFn α κ) (a b : α) :
    (∃ k, [(k, a), (k, b)].Sublist (blockEntries setOrd data fn)) ↔
      [a, b].Sublist data ∧ ∃ k, k ∈ blocksOf fn a ∧ k ∈ blocksOf fn b := by
  have key : ∀ ks : α → List κ, (∀ a, (ks a).Nodup) →
      ((∃ k, [(k, a), (k, b)].Sublist (data.flatMap fun item => (ks item).map fun k => (k, item))) ↔
        [a, b].Sublist data ∧ ∃ k, k ∈ ks a ∧ k ∈ ks b) := by
    intro ks hnd
    constructor
    · rintro ⟨k, h⟩
      rcases pair_sublist_entries.mp h with ⟨h1, h2⟩ | ⟨_, _, h3⟩
      · exact ⟨h1, k, h2⟩
      · have := (hnd a).sublist h3
        simp at this
    · rintro ⟨h1, k, h2⟩
      exact ⟨k, pair_sublist_entries.mpr (Or.inl ⟨h1, h2⟩)⟩
  cases fn with
  | block f =>
      have : blockEntries setOrd data (.block f) = data.flatMap fun item => [f item].map fun k => (k, item) := by
        simp [blockEntries, ← List.map_eq_flatMap]
      rw [this]
      exact key (fun a => [f a]) (fun a => by simp)
  | blocks f =>
      rw [blockEntries, key (fun a => setOrd (dedup (f a)))
        (fun a => (hset _).nodup_iff.mpr (nodup_dedup _))]
      simp [(hset _).mem_iff, blocksOf, mem_dedup]

theorem known_workerGraph (fn : BlockFn α κ) (a b : α) : known (workerGraph fn) a b = false := by
  cases fn <;> rfl

theorem mem_blocking_serial (setOrd : List κ → List κ) (hset : ∀ l, (setOrd l).Perm l) (data : List α) (fn : BlockFn α κ)
    (similarity : α → α → Bool) (a b : α) : (a, b) ∈ (((bucketsOf (blockEntries setOrd data fn)).map Prod.snd).filter
      fun bucket => ¬ bucket.length < 2).flatMap (fun bucket => blockWorker similarity bucket (workerGraph fn)) ↔
      SimilarInBlock fn similarity data a b := by
  unfold SimilarInBlock
  rw [← and_assoc, ← blockEntries_pairs setOrd hset, ← mem_pairs_bucketsOf]
  unfold pairsFromBuckets
  simp only [List.mem_flatMap, List.mem_filter, blockWorker, known_workerGraph, Bool.not_false, Bool.true_and,
    decide_eq_true_eq]
  constructor
  · rintro ⟨bucket, ⟨h1, _⟩, h2, h3⟩; exact ⟨⟨bucket, h1, h2⟩, h3⟩
  · rintro ⟨⟨bucket, h1, h2⟩, h3⟩
    refine ⟨bucket, ⟨h1, ?_⟩, h2, h3⟩
    have := (mem_bucketPairs.mp h2).length_le
    simp at this; omega

/-- C21, one process. -/
theorem blocking_components_serial (ord : α → List α → List α) (hord : ∀ a l, (ord a l).Perm l)
    (setOrd : List κ → List κ) (hset : ∀ l, (setOrd l).Perm l) (data : List α) (fn : BlockFn α κ)
    (similarity : α → α → Bool) (min : Nat) (max : Option Nat) :
    ∃ cs, blockingSerial ord setOrd data fn similarity min max .connectedComponents = .ok cs ∧
      IsComponents (fun a b => SimilarInBlock fn similarity data a b ∨ SimilarInBlock fn similarity data b a)
        (fun a => ∃ b, SimilarInBlock fn similarity data a b ∨ SimilarInBlock fn similarity data b a)
        (SizeBetween min max) cs := by
  unfold blockingSerial
  refine clusters_of_relation hord _ _ ?_ min max _
  intro a b
  unfold Linked
  rw [mem_blocking_serial setOrd hset, mem_blocking_serial setOrd hset]

theorem mem_blocking_parallel (setOrd : List κ → List κ) (hset : ∀ l, (setOrd l).Perm l)
    (arrival : List (List (α × α)) → List (List (α × α))) (harr : ∀ l, (arrival l).Perm l) (data : List α)
    (fn : BlockFn α κ) (similarity : α → α → Bool) (a b : α) :
    (a, b) ∈ (arrival ((((bucketsOf (blockEntries setOrd data fn)).map Prod.snd).filter
      fun bucket => bucket.length > 1).map (fun bucket => blockWorker similarity bucket none))).flatten ↔
      SimilarInBlock fn similarity data a b := by
  unfold SimilarInBlock
  rw [← and_assoc, ← blockEntries_pairs setOrd hset, ← mem_pairs_bucketsOf]
  unfold pairsFromBuckets
  simp only [List.mem_flatten, (harr _).mem_iff, List.mem_map, List.mem_flatMap]
  constructor
  · rintro ⟨l, ⟨bucket, hb, rfl⟩, h⟩
    simp only [List.mem_filter, blockWorker, known, Bool.not_false, Bool.true_and, List.mem_map] at h hb
    exact ⟨⟨bucket, hb.1, h.1⟩, h.2⟩
  · rintro ⟨⟨bucket, h1, h2⟩, h3⟩
    refine ⟨_, ⟨bucket, ?_, rfl⟩, ?_⟩
    · have := (mem_bucketPairs.mp h2).length_le
      simp at this
      rw [List.mem_filter]
      exact ⟨List.mem_map.mpr h1, by simp; omega⟩
    · simp only [List.mem_filter, blockWorker, known, Bool.not_false, Bool.true_and]
      exact ⟨h2, h3⟩

/-- C21, several processes, whatever the order in which the results of the workers arrive. -/
theorem blocking_components_parallel (ord : α → List α → List α) (hord : ∀ a l, (ord a l).Perm l)
    (setOrd : List κ → List κ) (hset : ∀ l, (setOrd l).Perm l)
    (arrival : List (List (α × α)) → List (List (α × α))) (harr : ∀ l, (arrival l).Perm l) (data : List α)
    (fn : BlockFn α κ) (similarity : α → α → Bool) (min : Nat) (max : Option Nat) :
    ∃ cs, blockingParallel ord setOrd arrival data fn similarity min max .connectedComponents = .ok cs ∧
      IsComponents (fun a b => SimilarInBlock fn similarity data a b ∨ SimilarInBlock fn similarity data b a)
        (fun a => ∃ b, SimilarInBlock fn similarity data a b ∨ SimilarInBlock fn similarity data b a)
        (SizeBetween min max) cs := by
  unfold blockingParallel
  refine clusters_of_relation hord _ _ ?_ min max _
  intro a b
  unfold Linked
  rw [mem_blocking_parallel setOrd hset arrival harr, mem_blocking_parallel setOrd hset arrival harr]

/-- C21. One process and several, any orders of iteration of sets and any order of arrival: the same clusters. -/
theorem blocking_processes_irrelevant (ord ord' : α → List α → List α) (hord : ∀ a l, (ord a l).Perm l)
    (hord' : ∀ a l, (ord' a l).Perm l) (setOrd setOrd' : List κ → List κ) (hset : ∀ l, (setOrd l).Perm l)
    (hset' : ∀ l, (setOrd' l).Perm l) (arrival : List (List (α × α)) → List (List (α × α)))
    (harr : ∀ l, (arrival l).Perm l) (data : List α) (fn : BlockFn α κ) (similarity : α → α → Bool) (min : Nat)
    (max : Option Nat) :
    ∃ cs cs', blockingSerial ord setOrd data fn similarity min max .connectedComponents = .ok cs ∧
      blockingParallel ord' setOrd' arrival data fn similarity min max .connectedComponents = .ok cs' ∧
      SameClusters cs cs' := by
  obtain ⟨cs, h1, h2⟩ := blocking_components_serial ord hord setOrd hset data fn similarity min max
  obtain ⟨cs', h3, h4⟩ := blocking_components_parallel ord' hord' setOrd' hset' arrival harr data fn similarity min max
  exact ⟨cs, cs', h1, h3, h2.unique (fun a b h => h.symm) h4⟩

/-- Two blocks per item, one of which holds items which are not similar. -/
example : SimilarInBlock (.blocks fun n : Nat => [n / 2, (n + 1) / 2]) (fun a b => b ≤ a + 1) [1, 2, 3, 10] 2 3 ∧
    ¬ SimilarInBlock (.blocks fun n : Nat => [n / 2, (n + 1) / 2]) (fun a b => b ≤ a + 1) [1, 2, 3, 10] 1 3 := by
  constructor
  · exact ⟨by decide, ⟨1, by decide⟩, by decide⟩
  · rintro ⟨_, _, h⟩
    simp at h

end Fog.Props
