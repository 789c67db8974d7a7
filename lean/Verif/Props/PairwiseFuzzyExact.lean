import Verif.Props.Pairwise
import Verif.Props.FuzzyExact

/-!
# C18: exactly the fuzzy clusters of pairs, for any number of processes
-/

namespace Fog.Props

open Fog.ClusteringUtils Fog.Pairwise Fog.Spec

variable {β γ : Type _}

theorem worker_order (similarity : γ → γ → Bool) (c : Chunk γ) :
    (pairwiseWorker similarity c).Pairwise fun p q => p.1 < q.1 ∨ (p.1 = q.1 ∧ p.2 < q.2) := by
  have key : ∀ (J : List γ) (i j : Nat) (x : Nat × Nat),
      (match c.I[i]?, J[j]? with
        | some A, some B => if similarity A B then some (c.i_offset + i, c.j_offset + j) else none
        | _, _ => none) = some x → x = (c.i_offset + i, c.j_offset + j) := by
    intro J i j x h
    split at h
    · split at h
      · injection h with h; exact h.symm
      · cases h
    · cases h
  unfold pairwiseWorker
  rw [List.pairwise_flatMap]
  constructor
  · intro i _
    rw [List.pairwise_filterMap]
    unfold pyRange
    refine (List.pairwise_lt_range' _).imp ?_
    intro j k hjk x hx y hy
    rw [key _ _ _ _ hx, key _ _ _ _ hy]
    exact Or.inr ⟨rfl, by simpa using hjk⟩
  · refine List.pairwise_lt_range.imp ?_
    intro i k hik x hx y hy
    obtain ⟨_, _, hx⟩ := List.mem_filterMap.mp hx
    obtain ⟨_, _, hy⟩ := List.mem_filterMap.mp hy
    rw [key _ _ _ _ hx, key _ _ _ _ hy]
    exact Or.inl (by simpa using hik)

/-- The order of the pairs found by the workers. -/
theorem workers_order (similarity : γ → γ → Bool) (data : List γ) (cs : Nat) (h : 0 < cs) :
    ∃ results, workerResults similarity data cs = .ok results ∧ results.flatten.Pairwise (ReadBefore cs) := by
  unfold workerResults
  rw [chunks_eq data cs h]
  refine ⟨_, rfl, ?_⟩
  rw [← List.flatMap_def, List.flatMap_assoc, List.pairwise_flatMap]
  simp only [List.flatMap_map]
  constructor
  · intro j _
    rw [List.pairwise_flatMap]
    constructor
    · intro i hi
      rw [List.mem_range] at hi
      refine (worker_order similarity _).imp_of_mem ?_
      intro p q hp hq hpq
      obtain ⟨h1, h2, _⟩ := (mem_worker similarity data cs i j h (by omega) p.1 p.2).mp hp
      obtain ⟨h3, h4, _⟩ := (mem_worker similarity data cs i j h (by omega) q.1 q.2).mp hq
      exact Or.inr ⟨h2.trans h4.symm, Or.inr ⟨h1.trans h3.symm, hpq⟩⟩
    · refine List.pairwise_lt_range.imp_of_mem ?_
      intro i k hi hk hik p hp q hq
      rw [List.mem_range] at hi hk
      obtain ⟨h1, h2, _⟩ := (mem_worker similarity data cs i j h (by omega) p.1 p.2).mp hp
      obtain ⟨h3, h4, _⟩ := (mem_worker similarity data cs k j h (by omega) q.1 q.2).mp hq
      exact Or.inr ⟨h2.trans h4.symm, Or.inl (by omega)⟩
  · refine List.pairwise_lt_range.imp ?_
    intro j k hjk p hp q hq
    obtain ⟨i, hi, hp⟩ := List.mem_flatMap.mp hp
    obtain ⟨i', hi', hq⟩ := List.mem_flatMap.mp hq
    rw [List.mem_range] at hi hi'
    obtain ⟨h1, h2, _⟩ := (mem_worker similarity data cs i j h (by omega) p.1 p.2).mp hp
    obtain ⟨h3, h4, _⟩ := (mem_worker similarity data cs i' k h (by omega) q.1 q.2).mp hq
    exact Or.inl (by omega)

/-- The partners of a position come in order, whatever the chunks. -/
theorem partners_increase {cs : Nat} {pairs : List (Nat × Nat)} (hr : pairs.Pairwise (ReadBefore cs)) (hlt : ∀ p ∈ pairs, p.1 < p.2) (a : Nat) :
    (partnersOf pairs a).Pairwise (· < ·) := by
  unfold partnersOf bothWays
  rw [List.filterMap_flatMap, List.pairwise_flatMap]
  have mem : ∀ (p : Nat × Nat) (x : Nat), x ∈ List.filterMap (fun p => if p.1 = a then some p.2 else none) [(p.1, p.2), (p.2, p.1)] ↔
      (p.1 = a ∧ x = p.2) ∨ (p.2 = a ∧ x = p.1) := by
    intro p x
    simp only [List.mem_filterMap, List.mem_cons, List.not_mem_nil, or_false]
    constructor
    · rintro ⟨q, rfl | rfl, h⟩
      · split at h
        · next e => injection h with h; exact Or.inl ⟨e, h.symm⟩
        · cases h
      · split at h
        · next e => injection h with h; exact Or.inr ⟨e, h.symm⟩
        · cases h
    · rintro (⟨e, rfl⟩ | ⟨e, rfl⟩)
      · exact ⟨_, Or.inl rfl, if_pos e⟩
      · exact ⟨_, Or.inr rfl, if_pos e⟩
  constructor
  · intro p hp
    have := hlt p hp
    by_cases h1 : p.1 = a
    · have h2 : p.2 ≠ a := by omega
      simp [h1, h2]
    · by_cases h2 : p.2 = a <;> simp [h1, h2]
  · refine hr.imp_of_mem ?_
    intro p q hp hq hpq x hx y hy
    have hp := hlt p hp
    have hq := hlt q hq
    rw [mem] at hx hy
    have up : ∀ u v : Nat, u / cs < v / cs → u < v := fun u v h => Nat.lt_of_div_lt_div h
    have dn : ∀ u v : Nat, u < v → u / cs ≤ v / cs := fun u v h => Nat.div_le_div_right (Nat.le_of_lt h)
    have m1 := dn _ _ hp
    have m2 := dn _ _ hq
    rcases hx with ⟨e1, rfl⟩ | ⟨e1, rfl⟩ <;> rcases hy with ⟨e2, rfl⟩ | ⟨e2, rfl⟩
    · rcases hpq with h | ⟨_, h | ⟨_, h | ⟨_, h⟩⟩⟩
      · exact up _ _ h
      · have := up _ _ h; omega
      · omega
      · exact h
    · exfalso
      rw [← e2] at e1
      rw [e1] at m1
      rw [← e1] at m2
      rcases hpq with h | ⟨h0, h | ⟨_, h | ⟨h, _⟩⟩⟩
      · omega
      · have := up _ _ h; omega
      · omega
      · omega
    · omega
    · rcases hpq with h | ⟨_, h | ⟨_, h | ⟨h, h'⟩⟩⟩
      · have := up _ _ h; omega
      · exact up _ _ h
      · exact h
      · omega

/-- **C18**, exactly: the clusters are those of leaders taken in the order in which pairs are read, which depends on the chunks, one process reading
them as a single chunk. Each leader is followed by the positions similar to it, in order. -/
theorem pairwise_fuzzy_exact (similarity : γ → γ → Bool) (data : List β) (keys : List γ) (min : Nat) (max : Option Nat)
    (processes chunk_size : Nat) (hc : 0 < chunk_size) :
    ∃ (pairs : List (Nat × Nat)) (leaders : List Nat) (near : Nat → List Nat),
      pairwiseFuzzyClusters similarity data keys min max processes chunk_size =
        .ok (leaders.map fun a => (a :: near a).filterMap fun i => data[i]?) ∧
      pairs.Pairwise (ReadBefore (if processes = 1 then keys.length + 1 else chunk_size)) ∧
      (∀ i j, (i, j) ∈ pairs ↔ i < j ∧ SimilarPositions similarity keys i j) ∧
      (∀ a, (near a).Pairwise (· < ·) ∧ ∀ x, x ∈ near a ↔ SimilarPositions similarity keys a x) ∧
      IsLeaders (firsts (pairs.flatMap fun p => [p.1, p.2])) near (SizeBetween min max) leaders := by
  have main : ∀ cs, 0 < cs → ∀ results, workerResults similarity keys cs = .ok results →
      ∃ leaders near, fuzzyFromPairs data results.flatten min max = (leaders.map fun a => (a :: near a).filterMap fun i => data[i]?) ∧
        results.flatten.Pairwise (ReadBefore cs) ∧
        (∀ i j, (i, j) ∈ results.flatten ↔ i < j ∧ SimilarPositions similarity keys i j) ∧
        (∀ a, (near a).Pairwise (· < ·) ∧ ∀ x, x ∈ near a ↔ SimilarPositions similarity keys a x) ∧
        IsLeaders (firsts (results.flatten.flatMap fun p => [p.1, p.2])) near (SizeBetween min max) leaders := by
    intro cs hcs results hres
    obtain ⟨r1, e1, hord⟩ := workers_order similarity keys cs hcs
    obtain ⟨r2, e2, _, hmem⟩ := workers_spec similarity keys cs hcs
    rw [hres] at e1 e2
    injection e1 with e1
    injection e2 with e2
    subst e1
    subst e2
    obtain ⟨leaders, h1, h2⟩ := fuzzy_clusters_exact (fun _ l => l) results.flatten min max false
    simp only [Bool.false_eq_true, if_false] at h1 h2
    refine ⟨leaders, partnersOf results.flatten, ?_, hord, ?_, ?_, h2⟩
    · unfold fuzzyFromPairs
      injection h1 with h1
      rw [h1, List.map_map]
      rfl
    · intro i j
      rw [hmem]
      unfold SimilarPositions
      rw [similarAt_iff]
      constructor
      · rintro ⟨h, h'⟩; exact ⟨h, Or.inl ⟨h, h'⟩⟩
      · rintro ⟨h, ⟨_, h'⟩ | ⟨h', _⟩⟩
        · exact ⟨h, h'⟩
        · omega
    · intro a
      refine ⟨partners_increase hord (fun p hp => ((hmem p.1 p.2).mp hp).1) a, ?_⟩
      intro x
      rw [← Exact.linked (pairs := results.flatten) hmem]
      unfold partnersOf bothWays Linked
      simp only [List.mem_filterMap, List.mem_flatMap, List.mem_cons, List.not_mem_nil, or_false]
      constructor
      · rintro ⟨q, ⟨p, hp, rfl | rfl⟩, h⟩
        · split at h
          · next e => injection h with h; left; rw [← e, ← h]; exact hp
          · cases h
        · split at h
          · next e => injection h with h; right; rw [← e, ← h]; exact hp
          · cases h
      · rintro (h | h)
        · exact ⟨_, ⟨_, h, Or.inl rfl⟩, if_pos rfl⟩
        · exact ⟨_, ⟨_, h, Or.inr rfl⟩, if_pos rfl⟩
  by_cases hp : processes = 1
  · have h1 := pairwise_fuzzy_one_chunk_partial similarity data keys min max 2 (keys.length + 1) (by omega) (by omega)
    obtain ⟨results, e, _⟩ := workers_order similarity keys (keys.length + 1) (by omega)
    obtain ⟨leaders, near, h2, h3, h4, h5, h6⟩ := main _ (by omega) results e
    refine ⟨results.flatten, leaders, near, ?_, by rw [if_pos hp]; exact h3, h4, h5, h6⟩
    have h7 : pairwiseFuzzyClusters similarity data keys min max processes chunk_size =
        pairwiseFuzzyClusters similarity data keys min max 1 (keys.length + 1) := by
      unfold pairwiseFuzzyClusters
      rw [if_pos hp, if_pos rfl]
    rw [h7, ← h1]
    unfold pairwiseFuzzyClusters
    rw [if_neg (by decide), e]
    show Except.ok _ = _
    rw [h2]
  · obtain ⟨results, e, _⟩ := workers_order similarity keys chunk_size hc
    obtain ⟨leaders, near, h2, h3, h4, h5, h6⟩ := main _ hc results e
    refine ⟨results.flatten, leaders, near, ?_, by rw [if_neg hp]; exact h3, h4, h5, h6⟩
    unfold pairwiseFuzzyClusters
    rw [if_neg hp, e]
    show Except.ok _ = _
    rw [h2]

/-- What is read in a given order is determined. -/
theorem read_unique {cs : Nat} {l l' : List (Nat × Nat)} (h : l.Pairwise (ReadBefore cs)) (h' : l'.Pairwise (ReadBefore cs))
    (hm : ∀ p, p ∈ l ↔ p ∈ l') : l = l' := by
  have irrefl : ∀ p : Nat × Nat, ¬ ReadBefore cs p p := by
    intro p hp; unfold ReadBefore at hp; omega
  have asymm : ∀ p q : Nat × Nat, ReadBefore cs p q → ¬ ReadBefore cs q p := by
    intro p q h1 h2; unfold ReadBefore at h1 h2; omega
  have nd : ∀ {l : List (Nat × Nat)}, l.Pairwise (ReadBefore cs) → l.Nodup := by
    intro l h
    unfold List.Nodup
    refine h.imp ?_
    rintro p q hpq rfl
    exact irrefl p hpq
  refine List.Perm.eq_of_pairwise ?_ h h' ((List.perm_ext_iff_of_nodup (nd h) (nd h')).mpr hm)
  intro p q _ _ h1 h2
  exact absurd h2 (asymm p q h1)

-- With chunks of one item, (2, 3) is read before (1, 5), so that 2 leads 5.
example : ReadBefore 1 (2, 3) (1, 5) ∧ ¬ ReadBefore 7 (2, 3) (1, 5) := by
  unfold ReadBefore; decide

example : ∃ leaders : List Nat, ∃ near : Nat → List Nat,
    pairwiseFuzzyClusters witnessSimilarity [0, 1, 2, 3, 4, 5] [0, 1, 2, 3, 4, 5] 2 none 2 1 =
      .ok (leaders.map fun a => (a :: near a).filterMap fun i => [0, 1, 2, 3, 4, 5][i]?) := by
  obtain ⟨_, leaders, near, h, _⟩ := pairwise_fuzzy_exact witnessSimilarity [0, 1, 2, 3, 4, 5] [0, 1, 2, 3, 4, 5] 2 none 2 1 (by decide)
  exact ⟨leaders, near, h⟩

end Fog.Props
