import Verif.Model.PairwiseCalls
import Verif.Props.Pairwise
import Mathlib.Data.Finset.Prod
import Mathlib.Data.Finset.Card
import Mathlib.Tactic.Ring
import Mathlib.Tactic.Linarith

/-!
# How many times pairwise clustering calls the similarity (C145)
-/

namespace Fog.Props

open Fog.ClusteringUtils Fog.Pairwise Fog.Spec

variable {β γ : Type _}

/-! ### The models which list the calls compute what the models do -/

theorem leaderLoopCalls_snd (similarity : β → β → Bool) (data : List β) (max_size : Option Nat) (i : Nat) (js cluster visited : List Nat) :
    (leaderLoopCalls similarity data max_size i js cluster visited).2 = leaderLoop similarity data max_size i js cluster visited := by
  induction js generalizing cluster visited with
  | nil => rfl
  | cons j js ih =>
      rw [leaderLoopCalls, leaderLoop]
      split
      · exact ih ..
      · dsimp only
        split
        · cases max_size with
          | none => exact ih ..
          | some m =>
              dsimp only
              by_cases h : (if cluster = [] then [i, j] else cluster ++ [j]).length > m
              · rw [if_pos h, if_pos h]
              · rw [if_neg h, if_neg h]; exact ih ..
        · exact ih ..

theorem leaderOuterCalls_snd (similarity : β → β → Bool) (data : List β) (min : Nat) (max_size : Option Nat) (is visited : List Nat) :
    (leaderOuterCalls similarity data min max_size is visited).2 = leaderOuter similarity data min max_size is visited := by
  induction is generalizing visited with
  | nil => rfl
  | cons i is ih =>
      rw [leaderOuterCalls, leaderOuter]
      split
      · exact ih ..
      · have h := leaderLoopCalls_snd similarity data max_size i (pyRange (i + 1) data.length) [] visited
        rcases hc : leaderLoopCalls similarity data max_size i (pyRange (i + 1) data.length) [] visited with ⟨calls, r⟩
        rw [hc] at h
        dsimp only at h
        rw [← h]
        cases r with
        | error e => rfl
        | ok r =>
            obtain ⟨cluster, visited'⟩ := r
            dsimp only
            rw [ih]
            rfl

/-- C145. The model of `pairwise_leader` which lists the calls of the similarity yields what the other one does. -/
theorem leader_calls_same (similarity : β → β → Bool) (data : List β) (min : Nat) (max_size : Option Nat) :
    (leaderPositionsCalls similarity data min max_size).2 = leaderPositions similarity data min max_size :=
  leaderOuterCalls_snd ..

theorem serialPairsCalls_eq (similarity : β → β → Bool) (keys : List β) :
    serialPairsCalls similarity keys = (upperPairs keys.length, serialPairs similarity keys) := by
  have gen : ∀ (l a b : List (Nat × Nat)), l.foldl (fun s p =>
      (s.1 ++ [p], if similarAt similarity keys p.1 p.2 then s.2 ++ [p] else s.2)) (a, b) =
      (a ++ l, b ++ l.filter fun p => similarAt similarity keys p.1 p.2) := by
    intro l
    induction l with
    | nil => intro a b; simp
    | cons p l ih =>
        intro a b
        rw [List.foldl_cons, ih, List.filter_cons]
        split <;> simp
  unfold serialPairsCalls serialPairs
  rw [gen]
  simp

theorem worker_calls_answers (similarity : β → β → Bool) (c : Chunk β) :
    ((pairwiseWorkerCalls similarity c).filter Prod.snd).map Prod.fst = pairwiseWorker similarity c := by
  unfold pairwiseWorkerCalls pairwiseWorker
  dsimp only
  rw [List.filter_flatMap, List.map_flatMap]
  congr 1
  funext i
  generalize pyRange _ _ = js
  induction js with
  | nil => rfl
  | cons j js ih =>
      rw [List.filterMap_cons, List.filterMap_cons]
      rcases hA : c.I[i]? with _ | A
      · simp only [hA] at ih ⊢; exact ih
      · rcases hB : (if c.i_offset = c.j_offset then c.I else c.J)[j]? with _ | B
        · simp only [hA] at ih ⊢; exact ih
        · simp only [hA] at ih ⊢
          cases hs : similarity A B <;> simp [hs, ih]

theorem worker_calls_pairs (similarity : β → β → Bool) (c : Chunk β) :
    (pairwiseWorkerCalls similarity c).map Prod.fst = pairwiseWorker (fun _ _ => true) c := by
  unfold pairwiseWorkerCalls pairwiseWorker
  dsimp only
  rw [List.map_flatMap]
  congr 1
  funext i
  rw [List.map_filterMap]
  congr 1
  funext j
  rcases c.I[i]? with _ | A
  · rfl
  · rcases (if c.i_offset = c.j_offset then c.I else c.J)[j]? with _ | B <;> rfl

theorem serialUnionsCalls_snd {σ : Type _} (uf : UnionFind σ) (similarity : β → β → Bool) (keys : List β) :
    (serialUnionsCalls uf similarity keys).2 = serialUnions uf similarity keys := by
  unfold serialUnionsCalls serialUnions
  have gen : ∀ (l a : List (Nat × Nat)) (s : σ), (l.foldl (fun s p =>
      if uf.connected s.2 p.1 p.2 then s
      else (s.1 ++ [p], if similarAt similarity keys p.1 p.2 then uf.union s.2 p.1 p.2 else s.2)) (a, s)).2 =
      l.foldl (fun sets p =>
        if uf.connected sets p.1 p.2 then sets
        else if similarAt similarity keys p.1 p.2 then uf.union sets p.1 p.2 else sets) s := by
    intro l
    induction l with
    | nil => intro a s; rfl
    | cons p l ih =>
        intro a s
        rw [List.foldl_cons, List.foldl_cons]
        dsimp only
        split
        · exact ih ..
        · exact ih ..
  exact gen ..

/-! ### Counts -/

theorem card_lt_pairs (L : Finset Nat) : 2 * ((L ×ˢ L).filter fun p => p.1 < p.2).card + L.card = L.card * L.card := by
  have hswap : ((L ×ˢ L).filter fun p => p.1 < p.2).card = ((L ×ˢ L).filter fun p => p.2 < p.1).card := by
    refine Finset.card_bij (fun p _ => (p.2, p.1)) ?_ ?_ ?_
    · intro p hp
      simp only [Finset.mem_filter, Finset.mem_product] at hp ⊢
      exact ⟨⟨hp.1.2, hp.1.1⟩, hp.2⟩
    · rintro ⟨a, b⟩ _ ⟨c, d⟩ _ h
      simp only [Prod.mk.injEq] at h
      rw [h.1, h.2]
    · rintro ⟨a, b⟩ hp
      simp only [Finset.mem_filter, Finset.mem_product] at hp
      exact ⟨(b, a), by simp only [Finset.mem_filter, Finset.mem_product]; exact ⟨⟨hp.1.2, hp.1.1⟩, hp.2⟩, rfl⟩
  have hdiag : ((L ×ˢ L).filter fun p => p.1 = p.2).card = L.card := by
    refine (Finset.card_bij (fun a _ => (a, a)) ?_ ?_ ?_).symm
    · intro a ha; simp [ha]
    · intro a _ b _ h; simpa using h
    · rintro ⟨a, b⟩ hp
      simp only [Finset.mem_filter, Finset.mem_product] at hp
      obtain ⟨⟨h1, _⟩, rfl⟩ := hp
      exact ⟨a, h1, rfl⟩
  have h1 := Finset.card_filter_add_card_filter_not (s := L ×ˢ L) (fun p => p.1 < p.2)
  have h2 := Finset.card_filter_add_card_filter_not (s := (L ×ˢ L).filter fun p => ¬ p.1 < p.2) (fun p => p.1 = p.2)
  rw [Finset.filter_filter, Finset.filter_filter] at h2
  have e1 : ((L ×ˢ L).filter fun p => ¬ p.1 < p.2 ∧ p.1 = p.2) = (L ×ˢ L).filter fun p => p.1 = p.2 := by
    apply Finset.filter_congr; intro p _; omega
  have e2 : ((L ×ˢ L).filter fun p => ¬ p.1 < p.2 ∧ ¬ p.1 = p.2) = (L ×ˢ L).filter fun p => p.2 < p.1 := by
    apply Finset.filter_congr; intro p _; omega
  rw [e1, e2, hdiag, ← hswap] at h2
  rw [Finset.card_product] at h1
  omega

theorem upperPairs_length (n : Nat) : 2 * (upperPairs n).length + n = n * n := by
  have h := card_lt_pairs (Finset.range n)
  have e : (upperPairs n).toFinset = (Finset.range n ×ˢ Finset.range n).filter fun p => p.1 < p.2 := by
    ext ⟨a, b⟩
    rw [List.mem_toFinset, mem_upperPairs]
    simp only [Finset.mem_filter, Finset.mem_product, Finset.mem_range]
    omega
  rw [← e, List.toFinset_card_of_nodup (nodup_upperPairs n), Finset.card_range] at h
  exact h

/-- C145. `pairwise_fuzzy_clusters` with one process compares each pair of positions once: `n (n - 1) / 2` calls. -/
theorem fuzzy_calls_serial (similarity : β → β → Bool) (keys : List β) :
    (serialPairsCalls similarity keys).2 = serialPairs similarity keys ∧ (serialPairsCalls similarity keys).1.Nodup ∧
      (∀ p q, (p, q) ∈ (serialPairsCalls similarity keys).1 ↔ p < q ∧ q < keys.length) ∧
      (serialPairsCalls similarity keys).1.length = keys.length * (keys.length - 1) / 2 := by
  rw [serialPairsCalls_eq]
  refine ⟨rfl, nodup_upperPairs _, mem_upperPairs _, ?_⟩
  have h := upperPairs_length keys.length
  rw [Nat.mul_sub_one]
  dsimp only
  omega

/-- C145. The workers of several processes compare each pair of positions once in all, whatever the similarity and the size of the chunks, in
`pairwise_fuzzy_clusters` and in `pairwise_connected_components`: `n (n - 1) / 2` calls. -/
theorem workers_calls (similarity : β → β → Bool) (keys : List β) (chunk_size : Nat) (h : 0 < chunk_size) :
    ∃ calls, workersCalls similarity keys chunk_size = .ok calls ∧
      workerResults similarity keys chunk_size = .ok (calls.map fun c => (c.filter Prod.snd).map Prod.fst) ∧
      (calls.flatten.map Prod.fst).Nodup ∧ (∀ p q, (p, q) ∈ calls.flatten.map Prod.fst ↔ p < q ∧ q < keys.length) ∧
      calls.flatten.length = keys.length * (keys.length - 1) / 2 := by
  obtain ⟨results, h1, h2, h3⟩ := chunks_cover_upper_triangle_once keys chunk_size h
  unfold workerResults at h1
  cases hc : upperTriangularMatrixChunkIter keys chunk_size with
  | error e => rw [hc] at h1; exact absurd h1 (by simp [bind, Except.bind])
  | ok chunks =>
      rw [hc] at h1
      have h1' : chunks.map (pairwiseWorker fun _ _ => true) = results := by simpa [bind, Except.bind] using h1
      have hflat : (chunks.map (pairwiseWorkerCalls similarity)).flatten.map Prod.fst = results.flatten := by
        rw [List.map_flatten, List.map_map, ← h1']
        congr 1
        apply List.map_congr_left
        intro c _
        exact worker_calls_pairs similarity c
      refine ⟨chunks.map (pairwiseWorkerCalls similarity), ?_, ?_, ?_, ?_, ?_⟩
      · unfold workersCalls; rw [hc]; rfl
      · unfold workerResults
        rw [hc]
        show Except.ok _ = _
        rw [List.map_map]
        congr 1
        apply List.map_congr_left
        intro c _
        exact (worker_calls_answers similarity c).symm
      · rw [hflat]; exact h2
      · intro p q; rw [hflat]; exact h3 p q
      · have hp : results.flatten.Perm (upperPairs keys.length) := by
          rw [List.perm_ext_iff_of_nodup h2 (nodup_upperPairs _)]
          rintro ⟨p, q⟩
          rw [h3, mem_upperPairs]
        have hl := hp.length_eq
        rw [← hflat, List.length_map] at hl
        have := upperPairs_length keys.length
        rw [hl, Nat.mul_sub_one]
        omega

/-! ### Connected components -/

theorem upperPairs_sorted (n : Nat) : (upperPairs n).Pairwise fun p q => p.1 < q.1 ∨ (p.1 = q.1 ∧ p.2 < q.2) := by
  unfold upperPairs
  rw [List.pairwise_flatMap]
  refine ⟨?_, ?_⟩
  · intro i _
    rw [List.pairwise_map]
    unfold pyRange
    exact (List.pairwise_lt_range' (s := i + 1) (n := n - (i + 1)) (step := 1)).imp fun h => Or.inr ⟨rfl, h⟩
  · refine List.pairwise_lt_range.imp ?_
    intro i j hij p hp q hq
    rw [List.mem_map] at hp hq
    obtain ⟨x, _, rfl⟩ := hp
    obtain ⟨y, _, rfl⟩ := hq
    exact Or.inl hij

theorem before_iff {n : Nat} {pre post : List (Nat × Nat)} {p : Nat × Nat} (h : upperPairs n = pre ++ p :: post) (q : Nat × Nat) :
    q ∈ pre ↔ q ∈ upperPairs n ∧ (q.1 < p.1 ∨ (q.1 = p.1 ∧ q.2 < p.2)) := by
  have hs := upperPairs_sorted n
  rw [h, List.pairwise_append, List.pairwise_cons] at hs
  rw [h]
  constructor
  · intro hq
    exact ⟨by simp [hq], hs.2.2 q hq p (by simp)⟩
  · rintro ⟨hq, hlt⟩
    rw [List.mem_append, List.mem_cons] at hq
    rcases hq with hq | rfl | hq
    · exact hq
    · omega
    · have := hs.2.1.1 q hq; omega

theorem calls_foldl {σ : Type _} (uf : UnionFind σ) (similarity : β → β → Bool) (keys : List β) (l a : List (Nat × Nat)) (s : σ) (hl : l.Nodup)
    (p : Nat × Nat) :
    p ∈ (l.foldl (fun s p =>
      if uf.connected s.2 p.1 p.2 then s
      else (s.1 ++ [p], if similarAt similarity keys p.1 p.2 then uf.union s.2 p.1 p.2 else s.2)) (a, s)).1 ↔
    p ∈ a ∨ ∃ pre post, l = pre ++ p :: post ∧ uf.connected (pre.foldl (fun sets p =>
        if uf.connected sets p.1 p.2 then sets
        else if similarAt similarity keys p.1 p.2 then uf.union sets p.1 p.2 else sets) s) p.1 p.2 = false := by
  induction l generalizing a s with
  | nil => simp
  | cons q l ih =>
      rw [List.nodup_cons] at hl
      rw [List.foldl_cons]
      dsimp only
      have hsplit : (∃ pre post, q :: l = pre ++ p :: post ∧ uf.connected (pre.foldl (fun sets p =>
          if uf.connected sets p.1 p.2 then sets
          else if similarAt similarity keys p.1 p.2 then uf.union sets p.1 p.2 else sets) s) p.1 p.2 = false) ↔
          (q = p ∧ uf.connected s q.1 q.2 = false) ∨ ∃ pre post, l = pre ++ p :: post ∧ uf.connected (pre.foldl (fun sets p =>
          if uf.connected sets p.1 p.2 then sets
          else if similarAt similarity keys p.1 p.2 then uf.union sets p.1 p.2 else sets)
            (if uf.connected s q.1 q.2 then s else if similarAt similarity keys q.1 q.2 then uf.union s q.1 q.2 else s)) p.1 p.2 = false := by
        constructor
        · rintro ⟨pre, post, h1, h2⟩
          cases pre with
          | nil =>
              simp only [List.nil_append, List.cons.injEq] at h1
              left
              refine ⟨h1.1, ?_⟩
              rw [h1.1]; exact h2
          | cons r pre =>
              simp only [List.cons_append, List.cons.injEq] at h1
              right
              refine ⟨pre, post, h1.2, ?_⟩
              rw [h1.1]; exact h2
        · rintro (⟨h1, h2⟩ | ⟨pre, post, h1, h2⟩)
          · exact ⟨[], l, by simp [h1], by rw [← h1]; exact h2⟩
          · exact ⟨q :: pre, post, by simp [h1], h2⟩
      rw [hsplit]
      by_cases hc : uf.connected s q.1 q.2 = true
      · simp only [hc, if_true]
        rw [ih a s hl.2]
        simp
      · simp only [hc, Bool.false_eq_true, if_false]
        rw [ih _ _ hl.2, List.mem_append, List.mem_singleton]
        simp only [Bool.not_eq_true] at hc
        simp only [and_true, eq_comm (a := q)]
        rw [or_assoc]

theorem calls_sublist {σ : Type _} (uf : UnionFind σ) (similarity : β → β → Bool) (keys : List β) (l a : List (Nat × Nat)) (s : σ) :
    ∃ b, (l.foldl (fun s p =>
      if uf.connected s.2 p.1 p.2 then s
      else (s.1 ++ [p], if similarAt similarity keys p.1 p.2 then uf.union s.2 p.1 p.2 else s.2)) (a, s)).1 = a ++ b ∧ b.Sublist l := by
  induction l generalizing a s with
  | nil => exact ⟨[], by simp, .slnil⟩
  | cons q l ih =>
      rw [List.foldl_cons]
      dsimp only
      split
      · obtain ⟨b, h1, h2⟩ := ih a s
        exact ⟨b, h1, h2.cons _⟩
      · obtain ⟨b, h1, h2⟩ := ih (a ++ [q]) (if similarAt similarity keys q.1 q.2 then uf.union s q.1 q.2 else s)
        exact ⟨q :: b, by rw [h1]; simp, h2.cons₂ _⟩

/-- C145. With one process, `pairwise_connected_components` calls the similarity on a pair of positions if and only if the similar pairs read
before do not connect them, at most once, and at most `n (n - 1) / 2` times. -/
theorem components_calls_exact {σ : Type _} (uf : UnionFind σ) (huf : uf.Lawful) (similarity : β → β → Bool) (keys : List β) :
    (serialUnionsCalls uf similarity keys).2 = serialUnions uf similarity keys ∧ (serialUnionsCalls uf similarity keys).1.Nodup ∧
      (∀ p q, (p, q) ∈ (serialUnionsCalls uf similarity keys).1 ↔
        p < q ∧ q < keys.length ∧ ¬ Connected (SimilarBefore similarity keys (p, q)) p q) ∧
      (serialUnionsCalls uf similarity keys).1.length ≤ keys.length * (keys.length - 1) / 2 := by
  obtain ⟨b, hb1, hb2⟩ := calls_sublist uf similarity keys (upperPairs keys.length) [] (uf.init keys.length)
  rw [List.nil_append] at hb1
  have hb : (serialUnionsCalls uf similarity keys).1 = b := hb1
  refine ⟨serialUnionsCalls_snd uf similarity keys, ?_, ?_, ?_⟩
  · rw [hb]; exact hb2.nodup (nodup_upperPairs _)
  · intro p q
    have hmem := calls_foldl uf similarity keys (upperPairs keys.length) [] (uf.init keys.length) (nodup_upperPairs _) (p, q)
    have hmem' : (p, q) ∈ (serialUnionsCalls uf similarity keys).1 ↔ _ := hmem
    rw [hmem']
    simp only [List.not_mem_nil, false_or]
    have key : ∀ pre post, upperPairs keys.length = pre ++ (p, q) :: post →
        (uf.connected (pre.foldl (fun sets p =>
          if uf.connected sets p.1 p.2 then sets
          else if similarAt similarity keys p.1 p.2 then uf.union sets p.1 p.2 else sets) (uf.init keys.length)) p q = false ↔
        ¬ Connected (SimilarBefore similarity keys (p, q)) p q) := by
      intro pre post hpre
      have hlt : ∀ r ∈ pre, r.1 < keys.length ∧ r.2 < keys.length := by
        intro r hr
        have := (mem_upperPairs keys.length r.1 r.2).mp (by rw [hpre]; simp [hr])
        omega
      have hpq := (mem_upperPairs keys.length p q).mp (by rw [hpre]; simp)
      obtain ⟨vs, h1, h2, h3⟩ := serial_fold huf similarity keys keys.length pre hlt [] [] (by simp) (fun _ _ => Iff.rfl)
      have h2' : pre.foldl (fun sets p =>
          if uf.connected sets p.1 p.2 then sets
          else if similarAt similarity keys p.1 p.2 then uf.union sets p.1 p.2 else sets) (uf.init keys.length) =
          vs.foldl (fun s p => uf.union s p.1 p.2) (uf.init keys.length) := h2
      rw [h2', ← Bool.not_eq_true, huf.connected keys.length vs h1 p q (by omega) (by omega), h3, List.nil_append]
      have hR : ∀ a b, Linked (pre.filter fun p => similarAt similarity keys p.1 p.2) a b ↔ SimilarBefore similarity keys (p, q) a b := by
        intro a b
        unfold Linked SimilarBefore SimilarPositions
        simp only [List.mem_filter, before_iff hpre, mem_upperPairs, ← similarAt_iff]
        constructor
        · rintro (⟨⟨h4, h5⟩, h6⟩ | ⟨⟨h4, h5⟩, h6⟩)
          · refine ⟨Or.inl ⟨h4.1, h6⟩, ?_⟩
            rw [show Nat.min a b = a from Nat.min_eq_left (by omega), show Nat.max a b = b from Nat.max_eq_right (by omega)]
            exact h5
          · refine ⟨Or.inr ⟨h4.1, h6⟩, ?_⟩
            rw [show Nat.min a b = b from Nat.min_eq_right (by omega), show Nat.max a b = a from Nat.max_eq_left (by omega)]
            exact h5
        · rintro ⟨h4 | h4, h5⟩
          · rw [show Nat.min a b = a from Nat.min_eq_left (by omega), show Nat.max a b = b from Nat.max_eq_right (by omega)] at h5
            exact Or.inl ⟨⟨⟨h4.1, (similarAt_lt h4.2).2⟩, h5⟩, h4.2⟩
          · rw [show Nat.min a b = b from Nat.min_eq_right (by omega), show Nat.max a b = a from Nat.max_eq_left (by omega)] at h5
            exact Or.inr ⟨⟨⟨h4.1, (similarAt_lt h4.2).2⟩, h5⟩, h4.2⟩
      exact not_congr ⟨Connected.mono fun a b h => (hR a b).mp h, Connected.mono fun a b h => (hR a b).mpr h⟩
    constructor
    · rintro ⟨pre, post, h1, h2⟩
      have hpq := (mem_upperPairs keys.length p q).mp (by rw [h1]; simp)
      exact ⟨hpq.1, hpq.2, (key pre post h1).mp h2⟩
    · rintro ⟨h1, h2, h3⟩
      obtain ⟨pre, post, h4⟩ := List.append_of_mem ((mem_upperPairs keys.length p q).mpr ⟨h1, h2⟩)
      exact ⟨pre, post, h4, (key pre post h4).mpr h3⟩
  · have h1 := upperPairs_length keys.length
    have h2 := hb2.length_le
    rw [hb, Nat.mul_sub_one]
    omega

/-- C145. All pairs of positions of different components are compared. -/
theorem components_calls_across {σ : Type _} (uf : UnionFind σ) (huf : uf.Lawful) (similarity : β → β → Bool) (keys : List β) (p q : Nat)
    (hpq : p < q) (hq : q < keys.length) (h : ¬ Connected (SimilarPositions similarity keys) p q) :
    (p, q) ∈ (serialUnionsCalls uf similarity keys).1 := by
  rw [(components_calls_exact uf huf similarity keys).2.2.1]
  exact ⟨hpq, hq, fun hc => h (hc.mono fun _ _ h => h.1)⟩

/-- Items similar only to the last one. -/
theorem star_calls {σ : Type _} (uf : UnionFind σ) (huf : uf.Lawful) (m : Nat) :
    IsComponents (SimilarPositions (fun _ b : Nat => b == m) (List.range (m + 1))) (fun i => i < (List.range (m + 1)).length) (fun _ => True)
      [List.range (m + 1)] ∧
    (serialUnionsCalls uf (fun _ b : Nat => b == m) (List.range (m + 1))).1.length = (m + 1) * m / 2 := by
  have hsim : ∀ a b, SimilarPositions (fun _ b : Nat => b == m) (List.range (m + 1)) a b ↔ (a < b ∧ b = m) ∨ (b < a ∧ a = m) := by
    intro a b
    unfold SimilarPositions
    constructor
    · rintro (⟨h, x, y, _, hy, hs⟩ | ⟨h, x, y, _, hy, hs⟩)
      · obtain ⟨h1, h2⟩ := List.getElem?_eq_some_iff.mp hy
        simp at h2 hs; omega
      · obtain ⟨h1, h2⟩ := List.getElem?_eq_some_iff.mp hy
        simp at h2 hs; omega
    · rintro (⟨h, rfl⟩ | ⟨h, rfl⟩)
      · exact Or.inl ⟨h, a, b, by rw [List.getElem?_range (by omega)], by rw [List.getElem?_range (by omega)], by simp⟩
      · exact Or.inr ⟨h, b, a, by rw [List.getElem?_range (by omega)], by rw [List.getElem?_range (by omega)], by simp⟩
  have hcon : ∀ a, a < m + 1 → Connected (SimilarPositions (fun _ b : Nat => b == m) (List.range (m + 1))) a m := by
    intro a ha
    by_cases h : a = m
    · rw [h]; exact .refl _
    · exact Connected.single ((hsim a m).mpr (Or.inl ⟨by omega, rfl⟩))
  have hstay : ∀ a b, Connected (SimilarPositions (fun _ b : Nat => b == m) (List.range (m + 1))) a b → a < m + 1 → b < m + 1 := by
    intro a b h
    induction h with
    | refl => exact id
    | step h1 _ ih => intro _; exact ih (by have := (hsim _ _).mp h1; omega)
  refine ⟨⟨?_, ?_, by simp⟩, ?_⟩
  · intro c hc
    rw [List.mem_singleton] at hc
    subst hc
    refine ⟨trivial, m, by simp, List.nodup_range, ?_⟩
    intro x
    rw [List.mem_range]
    exact ⟨fun h => (hcon x h).symm SimilarPositions.symm, fun h => hstay m x h (by omega)⟩
  · intro a ha l _ _
    exact ⟨_, List.mem_singleton.mpr rfl, by simpa using ha⟩
  · obtain ⟨_, h2, h3, _⟩ := components_calls_exact uf huf (fun _ b : Nat => b == m) (List.range (m + 1))
    have hp : (serialUnionsCalls uf (fun _ b : Nat => b == m) (List.range (m + 1))).1.Perm (upperPairs (m + 1)) := by
      rw [List.perm_ext_iff_of_nodup h2 (nodup_upperPairs _)]
      rintro ⟨p, q⟩
      rw [h3, mem_upperPairs, List.length_range]
      refine ⟨fun h => ⟨h.1, h.2.1⟩, fun h => ⟨h.1, h.2, ?_⟩⟩
      intro hc
      cases hc with
      | refl => omega
      | @step _ b _ h1 _ =>
          obtain ⟨h4, h5⟩ := h1
          rw [hsim] at h4
          rcases h4 with h4 | h4
          · rw [show Nat.min p b = p from Nat.min_eq_left (by omega), show Nat.max p b = b from Nat.max_eq_right (by omega)] at h5
            simp only at h5; omega
          · omega
    have := upperPairs_length (m + 1)
    rw [hp.length_eq]
    have e : (m + 1) * (m + 1) = (m + 1) * m + (m + 1) := by ring
    omega

/-- C145 is false of `pairwise_connected_components`: the number of calls is not bounded by a multiple of `n c`, `n` being the number of items and
`c` the number of components. There are `n` items in a single component for which all `n (n - 1) / 2` pairs are compared. -/
theorem components_calls_unbounded {σ : Type _} (uf : UnionFind σ) (huf : uf.Lawful) (K : Nat) :
    ∃ (similarity : Nat → Nat → Bool) (keys : List Nat) (components : List (List Nat)),
      IsComponents (SimilarPositions similarity keys) (fun i => i < keys.length) (fun _ => True) components ∧
      K * (keys.length * components.length) < (serialUnionsCalls uf similarity keys).1.length := by
  obtain ⟨h1, h2⟩ := star_calls uf huf (2 * K + 2)
  refine ⟨_, _, _, h1, ?_⟩
  rw [h2, List.length_range, List.length_singleton]
  have e : (2 * K + 2 + 1) * (2 * K + 2) / 2 = (2 * K + 3) * (K + 1) := by
    rw [show (2 * K + 2 + 1) * (2 * K + 2) = ((2 * K + 3) * (K + 1)) * 2 by ring]
    exact Nat.mul_div_cancel _ (by omega)
  rw [e]
  nlinarith

/-! ### Leaders -/

theorem leaderLoopCalls_none (similarity : β → β → Bool) (data : List β) (i : Nat) (js cluster visited : List Nat) (hjs : js.Nodup) :
    (leaderLoopCalls similarity data none i js cluster visited).1 = (js.filter fun j => decide (j ∉ visited)).map fun j => (i, j) := by
  induction js generalizing cluster visited with
  | nil => rfl
  | cons j js ih =>
      rw [List.nodup_cons] at hjs
      rw [leaderLoopCalls]
      by_cases hj : j ∈ visited
      · rw [if_pos hj, ih _ _ hjs.2, List.filter_cons]; simp [hj]
      · have hf : (j :: js).filter (fun j => decide (j ∉ visited)) = j :: js.filter fun j => decide (j ∉ visited) := by
          rw [List.filter_cons, if_pos (by simpa using hj)]
        rw [if_neg hj, hf, List.map_cons]
        dsimp only
        split
        · rw [ih _ _ hjs.2]
          congr 2
          apply List.filter_congr
          intro x hx
          have : x ≠ j := by rintro rfl; exact hjs.1 hx
          simp [this]
        · rw [ih _ _ hjs.2]

theorem leaderLoopCalls_some (similarity : β → β → Bool) (data : List β) (m i : Nat) (js cluster visited : List Nat) :
    (∃ e, (leaderLoopCalls similarity data (some m) i js cluster visited).2 = .error e ∧
      (leaderLoopCalls similarity data (some m) i js cluster visited).1 <+: (leaderLoopCalls similarity data none i js cluster visited).1) ∨
    leaderLoopCalls similarity data (some m) i js cluster visited = leaderLoopCalls similarity data none i js cluster visited := by
  induction js generalizing cluster visited with
  | nil => exact Or.inr rfl
  | cons j js ih =>
      rw [leaderLoopCalls, leaderLoopCalls]
      by_cases hj : j ∈ visited
      · rw [if_pos hj, if_pos hj]; exact ih ..
      · rw [if_neg hj, if_neg hj]
        by_cases hs : similarAt similarity data i j = true
        · simp only [hs, if_true]
          by_cases hm : (if cluster = [] then [i, j] else cluster ++ [j]).length > m
          · left
            rw [if_pos hm]
            exact ⟨_, rfl, by simp⟩
          · rw [if_neg hm]
            rcases ih (if cluster = [] then [i, j] else cluster ++ [j]) (j :: visited) with ⟨e, h1, h2⟩ | h
            · exact Or.inl ⟨e, h1, by simpa using h2⟩
            · right; rw [h]
        · simp only [hs]
          rcases ih cluster visited with ⟨e, h1, h2⟩ | h
          · exact Or.inl ⟨e, h1, by simpa using h2⟩
          · right; simp [h]

theorem leaderLoopCalls_none_ok (similarity : β → β → Bool) (data : List β) (i : Nat) (js cluster visited : List Nat) (hjs : js.Nodup) :
    ∃ r, (leaderLoopCalls similarity data none i js cluster visited).2 = .ok r := by
  obtain ⟨v, h, _⟩ := leaderLoop_none similarity data i js cluster visited hjs
  rw [leaderLoopCalls_snd, h]
  exact ⟨_, rfl⟩

theorem leaderOuterCalls_some (similarity : β → β → Bool) (data : List β) (min m : Nat) (is visited : List Nat) :
    (leaderOuterCalls similarity data min (some m) is visited).1 <+: (leaderOuterCalls similarity data min none is visited).1 := by
  induction is generalizing visited with
  | nil => exact List.prefix_rfl
  | cons i is ih =>
      rw [leaderOuterCalls, leaderOuterCalls]
      split
      · exact ih ..
      · obtain ⟨r, hr⟩ := leaderLoopCalls_none_ok similarity data i (pyRange (i + 1) data.length) [] visited (nodup_pyRange _ _)
        rcases hn : leaderLoopCalls similarity data none i (pyRange (i + 1) data.length) [] visited with ⟨cn, rn⟩
        rw [hn] at hr
        simp only at hr
        subst hr
        rcases leaderLoopCalls_some similarity data m i (pyRange (i + 1) data.length) [] visited with ⟨e, h1, h2⟩ | h
        · rcases hs : leaderLoopCalls similarity data (some m) i (pyRange (i + 1) data.length) [] visited with ⟨cs, rs⟩
          rw [hs] at h1 h2
          rw [hn] at h2
          simp only at h1 h2
          subst h1
          obtain ⟨c, v⟩ := r
          exact h2.trans (List.prefix_append _ _)
        · rw [h, hn]
          obtain ⟨c, v⟩ := r
          exact (List.prefix_append_right_inj _).mpr (ih v)

theorem leaderOuterCalls_spec (similarity : β → β → Bool) (data : List β) (min : Nat) (lead : Nat → Option Nat)
    (hl : IsLeaderAssignment (fun i j => similarAt similarity data i j = true) data.length lead) (k : Nat)
    (hk : k ≤ data.length) (visited : List Nat)
    (hv : ∀ j, j < data.length → (j ∈ visited ↔ ∃ i, i < k ∧ lead j = some i)) :
    (leaderOuterCalls similarity data min none (pyRange k data.length) visited).1 =
      ((pyRange k data.length).filter fun i => decide (lead i = none)).flatMap fun i =>
        ((pyRange (i + 1) data.length).filter fun j => (lead j).all fun l => decide (i ≤ l)).map fun j => (i, j) := by
  induction hd : data.length - k generalizing k visited with
  | zero =>
      have : pyRange k data.length = [] := by unfold pyRange; rw [hd]; rfl
      rw [this]; rfl
  | succ d ih =>
      have hr : pyRange k data.length = k :: pyRange (k + 1) data.length := by
        unfold pyRange
        rw [hd, show data.length - (k + 1) = d by omega]; rfl
      rw [hr, leaderOuterCalls, List.filter_cons]
      by_cases hki : k ∈ visited
      · rw [if_pos hki]
        obtain ⟨i, hi, hlead⟩ := (hv k (by omega)).mp hki
        have hne : ¬ lead k = none := by rw [hlead]; simp
        rw [if_neg (by simpa using hne)]
        refine ih (k + 1) (by omega) visited ?_ (by omega)
        intro j hj
        rw [hv j hj]
        constructor
        · rintro ⟨i, hi, h⟩; exact ⟨i, by omega, h⟩
        · rintro ⟨i, hi', h⟩
          rcases Nat.lt_or_ge i k with h1 | h1
          · exact ⟨i, h1, h⟩
          · obtain rfl : i = k := by omega
            exact absurd (hl.leads j hj i h).2.1 hne
      · rw [if_neg hki]
        have hnone : lead k = none := by
          cases hlk : lead k with
          | none => rfl
          | some i => exact absurd ((hv k (by omega)).mpr ⟨i, (hl.leads k (by omega) i hlk).1, hlk⟩) hki
        rw [if_pos (by simpa using hnone), List.flatMap_cons]
        have h0 := leaderLoopCalls_none similarity data k (pyRange (k + 1) data.length) [] visited (nodup_pyRange _ _)
        obtain ⟨v, h1, h2⟩ := leaderLoop_none similarity data k (pyRange (k + 1) data.length) [] visited (nodup_pyRange _ _)
        rw [← leaderLoopCalls_snd] at h1
        rcases hc : leaderLoopCalls similarity data none k (pyRange (k + 1) data.length) [] visited with ⟨calls, r⟩
        rw [hc] at h0 h1
        simp only at h0 h1
        subst h1
        dsimp only
        rw [ih (k + 1) (by omega) v ?_ (by omega), h0]
        · congr 2
          apply List.filter_congr
          intro j hj
          rw [mem_pyRange] at hj
          have hj' := hv j (by omega)
          rw [Bool.eq_iff_iff, decide_eq_true_eq, hj']
          cases hlj : lead j with
          | none => simp
          | some l => simp
        · intro j hj
          rw [h2 j, hv j hj, List.mem_filter, mem_pyRange]
          simp only [Bool.and_eq_true, decide_eq_true_eq]
          constructor
          · rintro (⟨i, hi, h⟩ | ⟨⟨h3, h4⟩, h5, h6⟩)
            · exact ⟨i, by omega, h⟩
            · rw [hv j hj] at h5
              cases hlj : lead j with
              | none => exact absurd h6 (hl.free j hj hlj k (by omega) hnone)
              | some l =>
                  refine ⟨l, ?_, rfl⟩
                  by_contra hlk
                  exact (hl.leads j hj l hlj).2.2.2 k (by omega) hnone h6
          · rintro ⟨i, hi, h⟩
            rcases Nat.lt_or_ge i k with h3 | h3
            · exact Or.inl ⟨i, h3, h⟩
            · obtain rfl : i = k := by omega
              have h4 := hl.leads j hj i h
              refine Or.inr ⟨⟨h4.1, hj⟩, ?_, h4.2.2.1⟩
              rw [hv j hj]
              rintro ⟨l, hl1, hl2⟩
              rw [h] at hl2
              simp at hl2
              omega

/-- C145. Let `lead` give the leader of each position. Without a maximum size, `pairwise_leader` compares the positions `i < j` if and only if `i`
has no leader, and the leader of `j`, if it has one, is not before `i`. Each pair is compared at most once. With a maximum size, the calls are the
first of these ones. -/
theorem leader_calls_exact (similarity : β → β → Bool) (data : List β) (min : Nat) (lead : Nat → Option Nat)
    (hl : IsLeaderAssignment
      (fun i j => ∃ a b, data[i]? = some a ∧ data[j]? = some b ∧ similarity a b = true) data.length lead) :
    (leaderPositionsCalls similarity data min none).1.Nodup ∧
      (∀ i j, (i, j) ∈ (leaderPositionsCalls similarity data min none).1 ↔
        i < j ∧ j < data.length ∧ lead i = none ∧ ∀ l, lead j = some l → i ≤ l) ∧
      ∀ m, (leaderPositionsCalls similarity data min (some m)).1 <+: (leaderPositionsCalls similarity data min none).1 := by
  have hl' : IsLeaderAssignment (fun i j => similarAt similarity data i j = true) data.length lead := by
    have : (fun i j => similarAt similarity data i j = true) =
        (fun i j => ∃ a b, data[i]? = some a ∧ data[j]? = some b ∧ similarity a b = true) := by
      funext i j; exact propext (similarAt_iff similarity data i j)
    rw [this]; exact hl
  have h := leaderOuterCalls_spec similarity data min lead hl' 0 (by omega) [] (by intro j _; simp)
  have h0 : pyRange 0 data.length = List.range data.length := by
    unfold pyRange; rw [List.range_eq_range']; simp
  rw [h0] at h
  have h' : (leaderPositionsCalls similarity data min none).1 = _ := h
  refine ⟨?_, ?_, fun m => leaderOuterCalls_some similarity data min m _ _⟩
  · rw [h']
    refine nodup_flatMap_of (List.nodup_range.filter _) ?_ (fun x : Nat × Nat => x.1) (fun i => i) (fun _ _ _ _ h => h) ?_
    · intro i _
      rw [List.Nodup, List.pairwise_map]
      exact ((nodup_pyRange (i + 1) data.length).filter _).imp (fun h e => h (by simpa using e))
    · intro i _ x hx
      rw [List.mem_map] at hx
      obtain ⟨j, _, rfl⟩ := hx
      rfl
  · intro i j
    rw [h']
    simp only [List.mem_flatMap, List.mem_filter, List.mem_range, decide_eq_true_eq, List.mem_map, mem_pyRange, Prod.mk.injEq]
    constructor
    · rintro ⟨i', ⟨h1, h2⟩, j', ⟨h3, h4⟩, rfl, rfl⟩
      refine ⟨h3.1, h3.2, h2, ?_⟩
      intro l hlj
      rw [hlj] at h4
      simpa using h4
    · rintro ⟨h1, h2, h3, h4⟩
      refine ⟨i, ⟨by omega, h3⟩, j, ⟨⟨h1, h2⟩, ?_⟩, rfl, rfl⟩
      cases hlj : lead j with
      | none => rfl
      | some l => simpa using h4 l hlj

/-- C145. Let `c` be the number of positions without a leader, that is of clusters when those of one item are counted. `pairwise_leader` makes at
least `(n - c) + c (c - 1) / 2` calls and at most `c n - c (c + 1) / 2`. -/
theorem leader_calls_bounds (similarity : β → β → Bool) (data : List β) (min : Nat) (lead : Nat → Option Nat)
    (hl : IsLeaderAssignment
      (fun i j => ∃ a b, data[i]? = some a ∧ data[j]? = some b ∧ similarity a b = true) data.length lead) (c : Nat)
    (hc : c = ((List.range data.length).filter fun i => decide (lead i = none)).length) :
    2 * (data.length - c) + c * (c - 1) ≤ 2 * (leaderPositionsCalls similarity data min none).1.length ∧
    2 * (leaderPositionsCalls similarity data min none).1.length + c * (c + 1) ≤ 2 * (c * data.length) := by
  obtain ⟨h1, h2, _⟩ := leader_calls_exact similarity data min lead hl
  generalize (leaderPositionsCalls similarity data min none).1 = calls at h1 h2
  rw [← List.toFinset_card_of_nodup h1]
  obtain ⟨L, hL⟩ : ∃ L, L = (Finset.range data.length).filter fun i => lead i = none := ⟨_, rfl⟩
  have hLc : L.card = c := by
    rw [hc, hL, ← List.toFinset_card_of_nodup (List.nodup_range.filter _)]
    congr 1
    ext x
    simp
  have hmem : ∀ x, x ∈ L ↔ x < data.length ∧ lead x = none := by intro x; rw [hL]; simp
  have hpairs := card_lt_pairs L
  rw [hLc] at hpairs
  constructor
  · -- each position which is led is compared with its leader, and the leaders are compared with one another
    have hled : ∀ j ∈ (Finset.range data.length).filter (fun i => ¬ lead i = none), ∃ l, lead j = some l := by
      intro j hj
      rw [Finset.mem_filter] at hj
      exact Option.ne_none_iff_exists'.mp hj.2
    have hF : ((Finset.range data.length).filter fun i => ¬ lead i = none).card = data.length - c := by
      have := Finset.card_filter_add_card_filter_not (s := Finset.range data.length) (fun i => lead i = none)
      rw [Finset.card_range, ← hL, hLc] at this
      omega
    have hsub : ((L ×ˢ L).filter fun p => p.1 < p.2) ∪
        ((Finset.range data.length).filter fun i => ¬ lead i = none).image (fun j => ((lead j).getD 0, j)) ⊆ calls.toFinset := by
      intro p hp
      rw [Finset.mem_union, Finset.mem_filter, Finset.mem_product, hmem, hmem, Finset.mem_image] at hp
      rw [List.mem_toFinset]
      rcases hp with ⟨⟨h3, h4⟩, h5⟩ | ⟨j, hj, rfl⟩
      · refine (h2 p.1 p.2).mpr ⟨h5, h4.1, h3.2, ?_⟩
        intro l hlp; rw [h4.2] at hlp; simp at hlp
      · obtain ⟨l, hlj⟩ := hled j hj
        rw [Finset.mem_filter, Finset.mem_range] at hj
        have := hl.leads j hj.1 l hlj
        rw [hlj, Option.getD_some, h2]
        refine ⟨this.1, hj.1, this.2.1, ?_⟩
        intro l' hl'
        rw [hlj] at hl'
        simp at hl'
        omega
    have hdisj : Disjoint ((L ×ˢ L).filter fun p => p.1 < p.2)
        (((Finset.range data.length).filter fun i => ¬ lead i = none).image (fun j => ((lead j).getD 0, j))) := by
      rw [Finset.disjoint_left]
      intro p hp hq
      rw [Finset.mem_filter, Finset.mem_product, hmem, hmem] at hp
      rw [Finset.mem_image] at hq
      obtain ⟨j, hj, rfl⟩ := hq
      rw [Finset.mem_filter] at hj
      exact hj.2 hp.1.2.2
    have hcard := Finset.card_le_card hsub
    rw [Finset.card_union_of_disjoint hdisj, Finset.card_image_of_injective _ (fun a b h => by simpa using (Prod.mk.inj h).2), hF] at hcard
    rw [Nat.mul_sub_one]
    omega
  · -- a leader is not compared with the leaders before it nor with itself
    have hsub : calls.toFinset ∪ ((L ×ˢ L).filter fun p => ¬ p.1 < p.2) ⊆ L ×ˢ Finset.range data.length := by
      rintro ⟨i, j⟩ hp
      rw [Finset.mem_union, List.mem_toFinset, h2, Finset.mem_filter, Finset.mem_product] at hp
      rw [Finset.mem_product, Finset.mem_range]
      rcases hp with h | ⟨⟨h3, h4⟩, _⟩
      · exact ⟨(hmem i).mpr ⟨by omega, h.2.2.1⟩, h.2.1⟩
      · exact ⟨h3, ((hmem j).mp h4).1⟩
    have hdisj : Disjoint calls.toFinset ((L ×ˢ L).filter fun p => ¬ p.1 < p.2) := by
      rw [Finset.disjoint_left]
      rintro ⟨i, j⟩ hp hq
      rw [List.mem_toFinset, h2] at hp
      rw [Finset.mem_filter] at hq
      exact hq.2 hp.1
    have hcard := Finset.card_le_card hsub
    have hnot := Finset.card_filter_add_card_filter_not (s := L ×ˢ L) (fun p => p.1 < p.2)
    rw [Finset.card_union_of_disjoint hdisj, Finset.card_product, Finset.card_range, hLc] at hcard
    rw [Finset.card_product, hLc] at hnot
    rw [Nat.mul_add_one]
    omega

/-- C145. With two clusters or more, `pairwise_leader` makes at most `4 n (c - 1) / 2` calls. -/
theorem leader_calls_documented_partial (similarity : β → β → Bool) (data : List β) (min : Nat) (lead : Nat → Option Nat)
    (hl : IsLeaderAssignment
      (fun i j => ∃ a b, data[i]? = some a ∧ data[j]? = some b ∧ similarity a b = true) data.length lead) (c : Nat)
    (hc : c = ((List.range data.length).filter fun i => decide (lead i = none)).length) (h2 : 2 ≤ c) (max_size : Option Nat) :
    2 * (leaderPositionsCalls similarity data min max_size).1.length ≤ 4 * (data.length * (c - 1)) := by
  have h := (leader_calls_bounds similarity data min lead hl c hc).2
  have hp : (leaderPositionsCalls similarity data min max_size).1.length ≤ (leaderPositionsCalls similarity data min none).1.length := by
    cases max_size with
    | none => exact Nat.le_refl _
    | some m => exact ((leader_calls_exact similarity data min lead hl).2.2 m).length_le
  obtain ⟨d, rfl⟩ : ∃ d, c = d + 2 := ⟨c - 2, by omega⟩
  rw [show d + 2 - 1 = d + 1 by omega]
  nlinarith

/-- C145 is false of `pairwise_leader` too: with a single cluster `n (c - 1) / 2` is zero, and there are `n - 1` calls. -/
theorem leader_calls_one (similarity : β → β → Bool) (data : List β) (min : Nat) (lead : Nat → Option Nat)
    (hl : IsLeaderAssignment
      (fun i j => ∃ a b, data[i]? = some a ∧ data[j]? = some b ∧ similarity a b = true) data.length lead)
    (hc : ((List.range data.length).filter fun i => decide (lead i = none)).length = 1) :
    (leaderPositionsCalls similarity data min none).1.length = data.length - 1 := by
  have h := leader_calls_bounds similarity data min lead hl 1 hc.symm
  omega

/-! ### Examples -/

/-- Four items similar to the last one only: all six pairs are compared, though there is one component. -/
example : IsComponents (SimilarPositions (fun _ b : Nat => b == 3) (List.range 4)) (fun i => i < (List.range 4).length) (fun _ => True)
      [List.range 4] ∧ (serialUnionsCalls searchUnionFind (fun _ b : Nat => b == 3) (List.range 4)).1.length = 6 :=
  star_calls searchUnionFind searchUnionFind_lawful 3

/-- Two leaders, the positions 0 and 1, and four calls. -/
example : (leaderPositionsCalls (fun a b : Nat => a % 2 == b % 2) [2, 3, 4, 5] 2 none).1 = [(0, 1), (0, 2), (0, 3), (1, 3)] := by rfl

/-- A single cluster. -/
example : (leaderPositionsCalls (fun _ _ : Nat => true) [2, 3, 4, 5] 2 none).1 = [(0, 1), (0, 2), (0, 3)] ∧
    IsLeaderAssignment (fun i j => ∃ a b, [2, 3, 4, 5][i]? = some a ∧ [2, 3, 4, 5][j]? = some b ∧ (fun _ _ : Nat => true) a b = true) 4
      (fun i => if i = 0 then none else some 0) := by
  refine ⟨by rfl, ?_, ?_⟩
  · intro j hj i hi
    by_cases h : j = 0
    · simp [h] at hi
    · simp [h] at hi
      subst hi
      refine ⟨by omega, by simp, ⟨2, _, rfl, List.getElem?_eq_getElem (by simpa using hj), rfl⟩, ?_⟩
      intro k hk; omega
  · intro j hj hn i hi
    by_cases h : j = 0
    · omega
    · simp [h] at hn

/-- The maximum size stops the calls. -/
example : leaderPositionsCalls (fun _ _ : Nat => true) [2, 3, 4, 5] 2 (some 2) = ([(0, 1), (0, 2)], .error .attributeError) := by rfl

example : (workersCalls (fun a b : Nat => a == b) [7, 8, 7] 2).map (fun l => l.flatten) =
    .ok [((0, 1), false), ((0, 2), true), ((1, 2), false)] := by rfl

end Fog.Props
