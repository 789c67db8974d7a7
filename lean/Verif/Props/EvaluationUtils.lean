import Verif.Model.EvaluationUtils
import Verif.Lemmas.Buckets
import Mathlib.Data.List.Nodup

/-!
# C44: labels and clusters
-/

namespace Fog.Props

open EvaluationUtils Spec KeyCollision

variable {ι lbl κ α : Type _} [DecidableEq lbl] [DecidableEq κ]

theorem labelsToClusters_eq_buckets (iterator : List (ι × lbl)) :
    labelsToClusters iterator = (bucketsOf (iterator.map fun p => (p.2, p.1))).map Prod.snd := by
  unfold labelsToClusters bucketsOf
  simp only [List.foldl_map]
  congr 2
  funext clusters p
  unfold Dict.update
  cases h : Dict.get? clusters p.2 <;> rfl

/-- **C44**: `labels_to_clusters` gives, for each label, in order of first appearance, the items having this label, in order. -/
theorem labels_to_clusters_eq (iterator : List (ι × lbl)) :
    labelsToClusters iterator =
      (firsts (iterator.map Prod.snd)).map fun l => (iterator.filter fun p => p.2 = l).map Prod.fst := by
  rw [labelsToClusters_eq_buckets, bucketsOf_eq, List.map_map, List.map_map]
  apply List.map_congr_left
  intro l _
  simp only [Function.comp, under]
  rw [List.filter_map, List.map_map]
  rfl

/-- **C44**: two items, each with one label, are in the same cluster exactly when they have the same label. -/
theorem labels_to_clusters_same {iterator : List (ι × lbl)} (hn : (iterator.map Prod.fst).Nodup) {i j : ι} {a b : lbl}
    (hi : (i, a) ∈ iterator) (hj : (j, b) ∈ iterator) :
    (∃ c ∈ labelsToClusters iterator, i ∈ c ∧ j ∈ c) ↔ a = b := by
  have huniq : ∀ {x : ι} {l l' : lbl}, (x, l) ∈ iterator → (x, l') ∈ iterator → l = l' := by
    intro x l l' h h'
    have := (List.nodup_map_iff_inj_on (List.Nodup.of_map _ hn)).mp hn _ h _ h' rfl
    exact congrArg Prod.snd this
  rw [labels_to_clusters_eq]
  constructor
  · rintro ⟨c, hc, h1, h2⟩
    obtain ⟨l, _, rfl⟩ := List.mem_map.mp hc
    obtain ⟨⟨_, l1⟩, hp1, rfl⟩ := List.mem_map.mp h1
    obtain ⟨⟨_, l2⟩, hp2, rfl⟩ := List.mem_map.mp h2
    rw [List.mem_filter] at hp1 hp2
    have e1 := of_decide_eq_true hp1.2
    have e2 := of_decide_eq_true hp2.2
    rw [huniq hi hp1.1, huniq hj hp2.1]
    exact e1.trans e2.symm
  · rintro rfl
    refine ⟨_, List.mem_map.mpr ⟨a, mem_firsts.mpr (List.mem_map.mpr ⟨_, hi, rfl⟩), rfl⟩, ?_, ?_⟩
    · exact List.mem_map.mpr ⟨_, List.mem_filter.mpr ⟨hi, by simp⟩, rfl⟩
    · exact List.mem_map.mpr ⟨_, List.mem_filter.mpr ⟨hj, by simp⟩, rfl⟩

/-- **C44**: no item is lost nor added, and no cluster is empty. -/
theorem labels_to_clusters_items (iterator : List (ι × lbl)) :
    (∀ i, (∃ c ∈ labelsToClusters iterator, i ∈ c) ↔ i ∈ iterator.map Prod.fst) ∧ ∀ c ∈ labelsToClusters iterator, c ≠ [] := by
  rw [labels_to_clusters_eq]
  constructor
  · intro i
    simp only [List.mem_map, mem_firsts]
    constructor
    · rintro ⟨_, ⟨l, _, rfl⟩, h⟩
      obtain ⟨p, hp, rfl⟩ := List.mem_map.mp h
      exact ⟨p, (List.mem_filter.mp hp).1, rfl⟩
    · rintro ⟨p, hp, rfl⟩
      exact ⟨_, ⟨p.2, ⟨p, hp, rfl⟩, rfl⟩, List.mem_map.mpr ⟨p, List.mem_filter.mpr ⟨hp, by simp⟩, rfl⟩⟩
  · intro c hc
    obtain ⟨l, hl, rfl⟩ := List.mem_map.mp hc
    obtain ⟨p, hp, rfl⟩ := List.mem_map.mp (mem_firsts.mp hl)
    intro h
    have : p.1 ∈ (iterator.filter fun q => q.2 = p.2).map Prod.fst :=
      List.mem_map.mpr ⟨p, List.mem_filter.mpr ⟨hp, by simp⟩, rfl⟩
    rw [h] at this
    simp at this

/-- The labels of the items of a partition. -/
def partitionLabels (key : α → κ) (clusters : List (List α)) (k : Nat) : List (κ × Nat) :=
  (clusters.zipIdx k).flatMap fun p => p.1.map fun item => (key item, p.2)

theorem set_append {ν : Type _} (d : Dict κ ν) (k : κ) (v : ν) (h : k ∉ Dict.keys d) : d.set k v = d ++ [(k, v)] := by
  induction d with
  | nil => rfl
  | cons x d ih =>
      obtain ⟨k', v'⟩ := x
      simp only [Dict.keys, List.map_cons, List.mem_cons, not_or] at h
      rw [Dict.set, if_neg (Ne.symm h.1), ih h.2]
      rfl

theorem fold_set_append (key : α → κ) (n : Nat) : ∀ (cluster : List α) (d : Dict κ Nat),
    (Dict.keys d ++ cluster.map key).Nodup →
    cluster.foldl (fun labels item => Dict.set labels (key item) n) d = d ++ cluster.map fun item => (key item, n) := by
  intro cluster
  induction cluster with
  | nil => intro d _; simp
  | cons a cluster ih =>
      intro d h
      rw [List.foldl_cons]
      have hna : key a ∉ Dict.keys d := by
        intro hc
        rw [List.nodup_append] at h
        exact h.2.2 _ hc _ (by simp) rfl
      rw [set_append d _ n hna, ih]
      · simp
      · simpa [Dict.keys] using h

/-- On a partition, the labels are those of the clusters in order. -/
theorem clustersToLabels_eq {key : α → κ} : ∀ {clusters : List (List α)}, (clusters.flatten.map key).Nodup →
    clustersToLabels key clusters = partitionLabels key clusters 0 := by
  have main : ∀ (clusters : List (List α)) (k : Nat) (d : Dict κ Nat), (Dict.keys d ++ clusters.flatten.map key).Nodup →
      (clusters.zipIdx k).foldl (fun labels p => p.1.foldl (fun labels item => Dict.set labels (key item) p.2) labels) d =
        d ++ partitionLabels key clusters k := by
    intro clusters
    induction clusters with
    | nil => intro k d _; simp [partitionLabels]
    | cons c clusters ih =>
        intro k d h
        rw [List.zipIdx_cons, List.foldl_cons]
        rw [List.flatten_cons, List.map_append, ← List.append_assoc] at h
        rw [fold_set_append key k c d (List.nodup_append.mp h).1, ih]
        · simp [partitionLabels, List.zipIdx_cons, List.append_assoc]
        · have hk : Dict.keys (d ++ c.map fun item => (key item, k)) = Dict.keys d ++ c.map key := by
            simp [Dict.keys]
          rw [hk]; exact h
  intro clusters h
  have := main clusters 0 [] (by simpa [Dict.keys] using h)
  simpa [clustersToLabels] using this

omit [DecidableEq κ] in
theorem mem_partitionLabels {key : α → κ} {clusters : List (List α)} {x : κ} {n k : Nat} :
    (x, n) ∈ partitionLabels key clusters k ↔ k ≤ n ∧ ∃ c, clusters[n - k]? = some c ∧ x ∈ c.map key := by
  unfold partitionLabels
  simp only [List.mem_flatMap, List.mem_map, Prod.mk.injEq, Prod.exists]
  constructor
  · rintro ⟨c, i, hc, item, h1, rfl, rfl⟩
    rw [List.mem_zipIdx_iff_le_and_getElem?_sub] at hc
    exact ⟨hc.1, c, hc.2, item, h1, rfl⟩
  · rintro ⟨hk, c, hc, item, h1, rfl⟩
    exact ⟨c, n, List.mem_zipIdx_iff_le_and_getElem?_sub.mpr ⟨hk, hc⟩, item, h1, rfl, rfl⟩

omit [DecidableEq κ] in
theorem keys_partitionLabels (key : α → κ) (clusters : List (List α)) (k : Nat) :
    Dict.keys (partitionLabels key clusters k) = clusters.flatten.map key := by
  unfold partitionLabels Dict.keys
  induction clusters generalizing k with
  | nil => rfl
  | cons c clusters ih =>
      rw [List.zipIdx_cons, List.flatMap_cons, List.map_append, ih, List.flatten_cons, List.map_append, List.map_map]
      rfl

/-- **C44**: on a partition, `clusters_to_labels` gives each item the number of its cluster: two items have the same label exactly
when they are in the same cluster. -/
theorem clusters_to_labels_eq {key : α → κ} {clusters : List (List α)} (h : (clusters.flatten.map key).Nodup) (x : κ) (n : Nat) :
    (clustersToLabels key clusters).get? x = some n ↔ ∃ c, clusters[n]? = some c ∧ x ∈ c.map key := by
  rw [clustersToLabels_eq h, ← Dict.mem_iff_get? (by rw [keys_partitionLabels]; exact h), mem_partitionLabels]
  simp

theorem firsts_replicate {β : Type _} [DecidableEq β] (n : β) : ∀ (m : Nat) (l : List β), n ∉ l →
    firsts (List.replicate m n ++ l) = if m = 0 then firsts l else n :: firsts l := by
  intro m
  induction m with
  | zero => intro l _; simp
  | succ m ih =>
      intro l hl
      rw [List.replicate_succ, List.cons_append, firsts, ih l hl, if_neg (Nat.succ_ne_zero m)]
      have hf : ∀ l : List β, n ∉ l → (firsts l).filter (fun b => b ≠ n) = firsts l := by
        intro l hl
        rw [List.filter_eq_self]
        intro b hb
        have := mem_firsts.mp hb
        simp only [ne_eq, decide_not, Bool.not_eq_eq_eq_not, Bool.not_true, decide_eq_false_iff_not]
        rintro rfl
        exact hl this
      split
      · rw [hf l hl]
      · rw [List.filter_cons_of_neg (by simp), hf l hl]

/-- **C44**: from clusters to labels and back, a partition is kept as it is, without its empty clusters. -/
theorem clusters_round_trip [DecidableEq α] {clusters : List (List α)} (h : clusters.flatten.Nodup) :
    labelsToClusters (clustersToLabels id clusters) = clusters.filter fun c => c ≠ [] := by
  rw [clustersToLabels_eq (by simpa using h), labels_to_clusters_eq]
  have main : ∀ (clusters : List (List α)) (k : Nat),
      (firsts ((partitionLabels id clusters k).map Prod.snd)).map
        (fun l => ((partitionLabels id clusters k).filter fun p => p.2 = l).map Prod.fst) = clusters.filter fun c => c ≠ [] := by
    intro clusters
    induction clusters with
    | nil => intro k; rfl
    | cons c clusters ih =>
        intro k
        have hcons : partitionLabels id (c :: clusters) k = (c.map fun x => (x, k)) ++ partitionLabels id clusters (k + 1) := by
          simp [partitionLabels, List.zipIdx_cons]
        have hge : ∀ p ∈ partitionLabels id clusters (k + 1), k + 1 ≤ p.2 := by
          intro p hp
          exact (mem_partitionLabels (x := p.1) (n := p.2).mp hp).1
        have hnot : k ∉ (partitionLabels id clusters (k + 1)).map Prod.snd := by
          intro hc
          obtain ⟨p, hp, hpk⟩ := List.mem_map.mp hc
          have := hge p hp
          omega
        have hsnd : ((c.map fun x => (x, k)).map Prod.snd) = List.replicate c.length k := by
          rw [List.map_map]
          exact List.map_const' ..
        have hrest : ∀ l ∈ firsts ((partitionLabels id clusters (k + 1)).map Prod.snd),
            ((partitionLabels id (c :: clusters) k).filter fun p => p.2 = l).map Prod.fst =
            ((partitionLabels id clusters (k + 1)).filter fun p => p.2 = l).map Prod.fst := by
          intro l hl
          rw [hcons, List.filter_append]
          have : (c.map fun x => (x, k)).filter (fun p => p.2 = l) = [] := by
            rw [List.filter_eq_nil_iff]
            intro p hp
            obtain ⟨x, _, rfl⟩ := List.mem_map.mp hp
            simp only [decide_eq_true_eq]
            rintro rfl
            exact hnot (mem_firsts.mp hl)
          rw [this, List.nil_append]
        rw [show (partitionLabels id (c :: clusters) k).map Prod.snd = List.replicate c.length k ++
          (partitionLabels id clusters (k + 1)).map Prod.snd by rw [hcons, List.map_append, hsnd],
          firsts_replicate k _ _ hnot]
        by_cases hc : c = []
        · subst hc
          rw [if_pos List.length_nil, List.map_congr_left hrest, ih (k + 1), List.filter_cons_of_neg (by simp)]
        · rw [if_neg (by simpa using hc), List.map_cons, List.map_congr_left hrest, ih (k + 1),
            List.filter_cons_of_pos (by simpa using hc)]
          congr 1
          rw [hcons, List.filter_append]
          have h1 : (c.map fun x => (x, k)).filter (fun p => p.2 = k) = c.map fun x => (x, k) := by
            rw [List.filter_eq_self]
            intro p hp
            obtain ⟨x, _, rfl⟩ := List.mem_map.mp hp
            simp
          have h2 : (partitionLabels id clusters (k + 1)).filter (fun p => p.2 = k) = [] := by
            rw [List.filter_eq_nil_iff]
            intro p hp
            have := hge p hp
            simp; omega
          rw [h1, h2, List.append_nil, List.map_map]
          exact List.map_id c
  exact main clusters 0

theorem flat_fold : ∀ (d : Dict Nat Nat) (flat : List Int), (Dict.keys d).Nodup → (∀ i ∈ Dict.keys d, i < flat.length) →
    ∃ r, d.foldlM (fun (flat_labels : List Int) p =>
        if p.1 < flat_labels.length then (Except.ok (flat_labels.set p.1 p.2) : Py (List Int)) else .error .indexError) flat = .ok r ∧
      r.length = flat.length ∧ (∀ i l, (i, l) ∈ d → r[i]? = some (l : Int)) ∧ ∀ i, i ∉ Dict.keys d → r[i]? = flat[i]? := by
  intro d
  induction d with
  | nil => intro flat _ _; exact ⟨flat, rfl, rfl, by simp, by simp⟩
  | cons x d ih =>
      obtain ⟨k, v⟩ := x
      intro flat hn hlt
      have hk : k < flat.length := hlt k (by simp [Dict.keys])
      have hn' : k ∉ Dict.keys d ∧ (Dict.keys d).Nodup := by simpa [Dict.keys] using hn
      obtain ⟨r, hr, hlen, hin, hout⟩ := ih (flat.set k v) hn'.2 (by
        intro i hi
        rw [List.length_set]
        exact hlt i (by simp only [Dict.keys, List.map_cons, List.mem_cons] at hi ⊢; exact Or.inr hi))
      refine ⟨r, ?_, by rw [hlen, List.length_set], ?_, ?_⟩
      · rw [List.foldlM_cons]
        simp only [hk, if_true]
        exact hr
      · intro i l h
        rcases List.mem_cons.mp h with h | h
        · injection h with h1 h2
          subst h1 h2
          rw [hout _ hn'.1]
          simp [hk]
        · exact hin i l h
      · intro i hi
        have : i ≠ k ∧ i ∉ Dict.keys d := by simpa [Dict.keys] using hi
        rw [hout i this.2, List.getElem?_set_ne (Ne.symm this.1)]

/-- **C44**: flat labels of a partition of `0, …, n - 1` are the numbers of the clusters of `0, …, n - 1`. -/
theorem flat_labels_eq {key : α → Nat} {clusters : List (List α)} {n : Nat} (h : (clusters.flatten.map key).Perm (List.range n)) :
    ∃ flat, clustersToFlatLabels key clusters = .ok flat ∧ flat.length = n ∧
      ∀ (i m : Nat), flat[i]? = some (m : Int) ↔ ∃ c, clusters[m]? = some c ∧ i ∈ c.map key := by
  have hn : (clusters.flatten.map key).Nodup := h.nodup_iff.mpr List.nodup_range
  have hkeys : Dict.keys (clustersToLabels key clusters) = clusters.flatten.map key := by
    rw [clustersToLabels_eq hn, keys_partitionLabels]
  have hlen : (clustersToLabels key clusters).length = n := by
    have := congrArg List.length hkeys
    rw [h.length_eq, List.length_range] at this
    simpa [Dict.keys] using this
  obtain ⟨r, hr, hrl, hin, _⟩ := flat_fold (clustersToLabels key clusters)
    (List.replicate (clustersToLabels key clusters).length (-1)) (by rw [hkeys]; exact hn) (by
      intro i hi
      rw [hkeys, h.mem_iff, List.mem_range] at hi
      rw [List.length_replicate, hlen]; exact hi)
  rw [List.length_replicate, hlen] at hrl
  refine ⟨r, hr, hrl, fun i m => ?_⟩
  rw [← clusters_to_labels_eq hn, ← Dict.mem_iff_get? (by rw [hkeys]; exact hn)]
  constructor
  · intro hi
    have hlt : i < n := by
      rw [← hrl]
      exact (List.getElem?_eq_some_iff.mp hi).1
    have : i ∈ Dict.keys (clustersToLabels key clusters) := by
      rw [hkeys, h.mem_iff, List.mem_range]; exact hlt
    obtain ⟨⟨i', l⟩, hm, rfl⟩ := List.mem_map.mp this
    have := hin _ _ hm
    rw [hi] at this
    injection this with this
    have : m = l := by exact_mod_cast this
    rw [this]; exact hm
  · intro hm
    exact hin i m hm

-- Other partitions do not have flat labels.
example : clustersToFlatLabels id [[5]] = .error .indexError ∧ clustersToFlatLabels id [[2, 0], [1]] = .ok [0, 1, 0] := by decide

example : ([[2, 0], [1]].flatten.map id).Perm (List.range 3) := by decide

example : labelsToClusters (clustersToLabels id [[3, 1], [], [2]]) = [[3, 1], [2]] ∧
    labelsToClusters (enumerate ['a', 'b', 'a']) = [[0, 2], [1]] := by decide

end Fog.Props
