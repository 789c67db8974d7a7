import Verif.Model.KeyCollisionPairs
import Verif.Props.BlockingCalls
import Verif.Props.MinhashCalls

/-!
# key_collision: what it appends and merges (C157)
-/

namespace Fog.Props

open Fog.ClusteringUtils Fog.KeyCollision Fog.Spec

variable {α κ : Type _} [DecidableEq α] [DecidableEq κ]

omit [DecidableEq α] in
theorem sum_under (entries : List (κ × α)) (keys : List κ) (hk : keys.Nodup) (h : ∀ e ∈ entries, e.1 ∈ keys) :
    (keys.map fun k => (under entries k).length).sum = entries.length := by
  induction entries with
  | nil => simp [under]
  | cons e entries ih =>
      have h1 : ∀ k, (under (e :: entries) k).length = (if e.1 = k then 1 else 0) + (under entries k).length := by
        intro k
        unfold under
        rw [List.filter_cons]
        by_cases he : e.1 = k
        · simp [he, Nat.add_comm]
        · simp [he]
      have h2 : (keys.map fun k => if e.1 = k then 1 else 0).sum = 1 := by
        have hs := sum_map_ite (l := keys) (fun k => k == e.1) 1
        have hf : (fun k : κ => if (k == e.1) = true then (1 : Nat) else 0) = fun k => if e.1 = k then 1 else 0 := by
          funext k
          by_cases hk : e.1 = k
          · subst hk; simp
          · rw [if_neg hk, if_neg]
            intro hb
            exact hk (eq_of_beq hb).symm
        rw [hf, Nat.mul_one] at hs
        rw [hs]
        exact List.count_eq_one_of_mem hk (h e (by simp))
      simp only [h1]
      rw [List.sum_map_add, h2, ih fun e' he' => h e' (by simp [he']), List.length_cons, Nat.add_comm]

omit [DecidableEq α] in
/-- C157. With `key`, each item is appended at most once: the buckets hold as many items as there are items with a true key. -/
theorem key_collision_linear (truthy : κ → Bool) (key : α → κ) (data : List α) :
    (((bucketsOf (keyEntries truthy key data)).map Prod.snd).map List.length).sum = data.countP (fun item => truthy (key item)) ∧
    (((bucketsOf (keyEntries truthy key data)).map Prod.snd).map List.length).sum ≤ data.length := by
  have e : (((bucketsOf (keyEntries truthy key data)).map Prod.snd).map List.length).sum = data.countP (fun item => truthy (key item)) := by
    rw [bucketsOf_eq, List.map_map, List.map_map]
    have := sum_under (keyEntries truthy key data) (firsts ((keyEntries truthy key data).map Prod.fst)) (nodup_firsts _) fun e he => by
      rw [mem_firsts]; exact List.mem_map_of_mem he
    simp only [Function.comp_def]
    rw [this]
    clear this
    unfold keyEntries
    induction data with
    | nil => rfl
    | cons x data ih =>
        rw [List.flatMap_cons, List.length_append, ih, List.countP_cons]
        by_cases h : truthy (key x) <;> simp [h, Nat.add_comm]
  exact ⟨e, e ▸ List.countP_le_length⟩

/-- C157. With `keys` and `merge`, the clusters are made from these pairs. -/
theorem key_collision_merged (ord : α → List α → List α) (truthy : κ → Bool) (data : List α) (keys : α → Option (List κ)) (min_size : Nat)
    (max_size : Option Nat) :
    keyCollision ord truthy data none (some keys) min_size max_size true =
      clustersFromPairs ord (mergedPairs truthy keys data) 2 none .connectedComponents true := by
  unfold keyCollision clustersFromBuckets mergedPairs
  simp

omit [DecidableEq α] in
/-- C157. How many pairs are read: for each key, one for each two times it was found. -/
theorem key_collision_pairs_partial (truthy : κ → Bool) (keys : α → Option (List κ)) (data : List α) :
    ∃ found : List κ, found.Nodup ∧ (∀ k, k ∈ found ↔ truthy k = true ∧ ∃ item ∈ data, k ∈ (keys item).getD []) ∧
      (mergedPairs truthy keys data).length =
        (found.map fun k => ((data.map fun item => ((keys item).getD []).count k).sum).choose 2).sum := by
  have hlen : ∀ l : List α, (bucketPairs l).length = l.length.choose 2 := by
    intro l
    induction l with
    | nil => rfl
    | cons x l ih =>
        rw [bucketPairs, List.length_append, List.length_map, ih, List.length_cons, Nat.choose_succ_succ, Nat.choose_one_right]
  refine ⟨firsts ((keysEntries truthy keys data).map Prod.fst), nodup_firsts _, fun k => ?_, ?_⟩
  · rw [mem_firsts]
    unfold keysEntries
    simp only [List.mem_map, List.mem_flatMap]
    constructor
    · rintro ⟨e, ⟨item, hi, he⟩, rfl⟩
      cases hk : keys item with
      | none => rw [hk] at he; cases he
      | some ks =>
          rw [hk] at he
          simp only [List.mem_flatMap] at he
          obtain ⟨k, hks, he⟩ := he
          split at he
          · next ht =>
              rw [List.mem_singleton] at he
              subst he
              exact ⟨ht, item, hi, by rw [hk]; exact hks⟩
          · cases he
    · rintro ⟨ht, item, hi, hk⟩
      cases h : keys item with
      | none => rw [h] at hk; cases hk
      | some ks =>
          rw [h] at hk
          refine ⟨(k, item), ⟨item, hi, ?_⟩, rfl⟩
          rw [h]
          simp only [List.mem_flatMap]
          exact ⟨k, hk, by rw [if_pos ht]; simp⟩
  · unfold mergedPairs pairsFromBuckets
    rw [bucketsOf_eq, List.map_map, List.flatMap_map, List.length_flatMap]
    simp only [Function.comp_def, hlen]
    congr 1
    refine List.map_congr_left fun k hk => ?_
    congr 1
    have ht : truthy k = true := by
      rw [mem_firsts] at hk
      unfold keysEntries at hk
      simp only [List.mem_map, List.mem_flatMap] at hk
      obtain ⟨e, ⟨item, _, he⟩, rfl⟩ := hk
      cases hk : keys item with
      | none => rw [hk] at he; cases he
      | some ks =>
          rw [hk] at he
          simp only [List.mem_flatMap] at he
          obtain ⟨k, _, he⟩ := he
          split at he
          · next ht => rw [List.mem_singleton] at he; subst he; exact ht
          · cases he
    have hks : ∀ (ks : List κ) (item : α), (under (ks.flatMap fun k => if truthy k then [(k, item)] else []) k).length = ks.count k := by
      intro ks item
      induction ks with
      | nil => rfl
      | cons k' ks ih =>
          rw [List.flatMap_cons, under_append, List.length_append, ih, List.count_cons]
          by_cases hkk : k' = k
          · subst hkk; simp [ht, under, Nat.add_comm]
          · by_cases ht' : truthy k' <;> simp [ht', under, hkk]
    clear hk
    induction data with
    | nil => rfl
    | cons item data ih =>
        have hcons : keysEntries truthy keys (item :: data) =
            (match keys item with | none => [] | some ks => ks.flatMap fun k => if truthy k then [(k, item)] else []) ++ keysEntries truthy keys data :=
          List.flatMap_cons
        rw [hcons, under_append, List.length_append, ih, List.map_cons, List.sum_cons]
        congr 1
        cases keys item with
        | none => rfl
        | some ks => exact hks ks item

/-- C157 is false: when all items share one key, as many pairs are read as there are pairs of items. -/
theorem key_collision_pairs_many (truthy : κ → Bool) (k : κ) (hk : truthy k = true) (data : List α) :
    (mergedPairs truthy (fun _ => some [k]) data).length = data.length.choose 2 := by
  have h := length_buckets_same [k] (by simp) data
  have e : keysEntries truthy (fun _ : α => some [k]) data = data.flatMap fun item => [k].map fun b => (b, item) := by
    unfold keysEntries
    simp [hk]
  unfold mergedPairs pairsFromBuckets
  rw [e, h]
  simp

/-- Three words by their first and last letters: two share `a`, and all end by `e`. -/
example : mergedPairs (fun _ : Char => true) (fun s : String => some [s.toList.headD ' ', s.toList.getLastD ' ']) ["ane", "axe", "cue"] =
    [("ane", "axe"), ("ane", "axe"), ("ane", "cue"), ("axe", "cue")] := by decide +kernel

end Fog.Props
