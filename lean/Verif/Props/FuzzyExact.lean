import Verif.Props.FuzzyModes
import Mathlib.Data.List.Sublists
import Mathlib.Data.Finset.Prod
import Mathlib.Data.Finset.Card

/-!
# C14 and C90: exactly the fuzzy clusters, with repeated items
-/

namespace Fog.Props

open Fog.ClusteringUtils Fog.KeyCollision Fog.Blocking Fog.Spec

variable {α κ : Type _} [DecidableEq α] [DecidableEq κ]

/-- The graph made of entries added one by one. -/
def collect (fuzzy : Bool) (entries : List (α × α)) : Dict α (List α) :=
  entries.foldl (fun g e => g.update e.1 [] fun c => add fuzzy c e.2) []

theorem makeGraph_collect (fuzzy : Bool) (pairs : List (α × α)) : makeGraph fuzzy pairs = collect fuzzy (bothWays pairs) := by
  unfold makeGraph collect bothWays
  rw [List.foldl_flatMap]
  rfl

theorem add_kept (fuzzy : Bool) (l : List α) (a : α) :
    add fuzzy (if fuzzy then firsts l else l) a = if fuzzy then firsts (l ++ [a]) else l ++ [a] := by
  unfold add
  cases fuzzy with
  | false => simp
  | true =>
      simp only [Bool.true_and, decide_eq_true_eq, if_true, firsts_append_singleton, mem_firsts]

theorem collect_eq (fuzzy : Bool) (entries : List (α × α)) :
    collect fuzzy entries = (firsts (entries.map Prod.fst)).map fun k =>
      (k, if fuzzy then firsts (under entries k) else under entries k) := by
  have main : (collect fuzzy entries).keys = firsts (entries.map Prod.fst) ∧
      ∀ k, (collect fuzzy entries).get? k = if k ∈ entries.map Prod.fst then
        some (if fuzzy then firsts (under entries k) else under entries k) else none := by
    induction entries using snoc_ind with
    | nil => simp [collect, Dict.keys, firsts, Dict.get?]
    | snoc entries e ih =>
        have hs : collect fuzzy (entries ++ [e]) = (collect fuzzy entries).update e.1 [] fun c => add fuzzy c e.2 := by
          simp [collect]
        rw [hs, List.map_append, List.map_singleton, firsts_append_singleton]
        constructor
        · rw [Dict.keys_update, ih.1]
          simp only [mem_firsts]
        · intro k
          rw [Dict.get?_update]
          by_cases hk : e.1 = k
          · subst hk
            rw [if_pos rfl, if_pos (by simp), ih.2, under_append]
            congr 1
            have h1 : under [e] e.1 = [e.2] := by simp [under]
            rw [h1, ← add_kept]
            by_cases hm : e.1 ∈ entries.map Prod.fst
            · rw [if_pos hm]; rfl
            · rw [if_neg hm, under_eq_nil hm]
              cases fuzzy <;> rfl
          · rw [if_neg hk, ih.2, under_append]
            have : under [e] k = [] := by simp [under, hk]
            rw [this, List.append_nil]
            have : k ∈ entries.map Prod.fst ++ [e.1] ↔ k ∈ entries.map Prod.fst := by
              rw [List.mem_append, List.mem_singleton]
              exact ⟨fun h => h.resolve_right fun h => hk h.symm, Or.inl⟩
            simp only [this]
  have hkeys : Dict.keys ((firsts (entries.map Prod.fst)).map fun k =>
      (k, if fuzzy then firsts (under entries k) else under entries k)) = firsts (entries.map Prod.fst) := by
    simp [Dict.keys, Function.comp_def]
  refine Dict.ext_get? (by rw [main.1, hkeys]) (by rw [main.1]; exact nodup_firsts _) ?_
  intro k
  rw [main.2]
  by_cases hm : k ∈ entries.map Prod.fst
  · rw [if_pos hm]
    refine (Dict.get?_of_mem (by rw [hkeys]; exact nodup_firsts _) ?_).symm
    exact List.mem_map.mpr ⟨k, mem_firsts.mpr hm, rfl⟩
  · rw [if_neg hm]
    refine ((Dict.get?_eq_none_iff _ _).mpr ?_).symm
    rw [hkeys, mem_firsts]; exact hm

theorem under_partners (pairs : List (α × α)) (a : α) : under (bothWays pairs) a = partnersOf pairs a := by
  unfold under partnersOf
  induction bothWays pairs with
  | nil => rfl
  | cons p l ih =>
      by_cases h : p.1 = a
      · simp only [List.filter_cons, h, decide_true, if_true, List.map_cons, List.filterMap_cons]
        exact congrArg _ (by simpa using ih)
      · simp only [List.filter_cons, h, decide_false, Bool.false_eq_true, if_false, List.filterMap_cons]
        simpa using ih

/-- The leaders found by the loop. -/
def leadersOf (ok : Nat → Bool) (others : α → List α) : List α → List α → List α
  | [], _ => []
  | a :: nodes, visited =>
      if a ∈ visited then leadersOf ok others nodes visited
      else if ok ((others a).length + 1) then a :: leadersOf ok others nodes (others a ++ visited)
      else leadersOf ok others nodes visited

theorem fuzzyClusters_leadersOf (fuzzy : Bool) (ord : α → List α → List α) (min : Nat) (max : Option Nat) (others : α → List α)
    (nodes visited : List α) : fuzzyClusters fuzzy ord min max (nodes.map fun a => (a, others a)) visited =
      (leadersOf (sizeOk min max) others nodes visited).map fun a => a :: iterate fuzzy ord a (others a) := by
  induction nodes generalizing visited with
  | nil => rfl
  | cons a nodes ih =>
      rw [List.map_cons, fuzzyClusters, leadersOf]
      split
      · exact ih _
      · split
        · rw [List.map_cons, ih]
        · exact ih _

theorem leadersOf_sublist (ok : Nat → Bool) (others : α → List α) (nodes visited : List α) :
    (leadersOf ok others nodes visited).Sublist nodes := by
  induction nodes generalizing visited with
  | nil => exact .slnil
  | cons a nodes ih =>
      rw [leadersOf]
      split
      · exact (ih _).cons _
      · split
        · exact (ih _).cons_cons _
        · exact (ih _).cons _

theorem mem_leadersOf (ok : Nat → Bool) (others : α → List α) {nodes : List α} (hn : nodes.Nodup) (visited : List α) :
    ∀ before a after, nodes = before ++ a :: after → (a ∈ leadersOf ok others nodes visited ↔
      ok ((others a).length + 1) = true ∧ a ∉ visited ∧ ∀ b ∈ leadersOf ok others nodes visited, b ∈ before → a ∉ others b) := by
  induction nodes generalizing visited with
  | nil => intro before a after h; simp at h
  | cons x nodes ih =>
      intro before a after h
      obtain ⟨hx, hn⟩ := List.nodup_cons.mp hn
      have hsub := fun v => (leadersOf_sublist ok others nodes v).subset
      cases before with
      | nil =>
          simp only [List.nil_append, List.cons.injEq] at h
          obtain ⟨rfl, rfl⟩ := h
          have hx' : ∀ v, x ∉ leadersOf ok others nodes v := fun v hm => hx (hsub v hm)
          rw [leadersOf]
          split
          · next hv => simp [hv, hx']
          · next hv =>
              split
              · next ho => simp [hv, ho]
              · next ho => simp [ho, hx']
      | cons y before =>
          simp only [List.cons_append, List.cons.injEq] at h
          obtain ⟨rfl, rfl⟩ := h
          have hax : a ≠ x := by
            rintro rfl
            exact hx (by simp)
          have drop : ∀ v, (∀ b ∈ leadersOf ok others (before ++ a :: after) v, b ∈ x :: before → a ∉ others b) ↔
              ∀ b ∈ leadersOf ok others (before ++ a :: after) v, b ∈ before → a ∉ others b := by
            intro v
            refine ⟨fun h b hb hm => h b hb (List.mem_cons_of_mem _ hm), fun h b hb hm => ?_⟩
            rcases List.mem_cons.mp hm with rfl | hm
            · exact absurd (hsub v hb) hx
            · exact h b hb hm
          rw [leadersOf]
          split
          · rw [drop]
            exact ih hn _ _ _ _ rfl
          · split
            · rw [List.mem_cons, ih hn _ _ _ _ rfl]
              simp only [hax, false_or, List.mem_append, not_or, List.forall_mem_cons, List.mem_cons_self, forall_const]
              rw [drop]
              constructor
              · rintro ⟨h1, ⟨h2, h3⟩, h4⟩; exact ⟨h1, h3, h2, h4⟩
              · rintro ⟨h1, h3, h2, h4⟩; exact ⟨h1, ⟨h2, h3⟩, h4⟩
            · rw [drop]
              exact ih hn _ _ _ _ rfl

/-- **C14**: exactly the fuzzy clusters. The items which are paired are taken in the order in which they first appear; each leader is followed
by its partners, in the order of the pairs and as many times as it is paired with them, or once each, in any order, when `fuzzy=True`. -/
theorem fuzzy_clusters_exact (ord : α → List α → List α) (pairs : List (α × α)) (min : Nat) (max : Option Nat) (fuzzy : Bool) :
    ∃ leaders, clustersFromPairs ord pairs min max .fuzzyClusters fuzzy = .ok (leaders.map fun a =>
        a :: if fuzzy then ord a (firsts (partnersOf pairs a)) else partnersOf pairs a) ∧
      IsLeaders (firsts (pairs.flatMap fun p => [p.1, p.2])) (fun a => if fuzzy then firsts (partnersOf pairs a) else partnersOf pairs a)
        (SizeBetween min max) leaders := by
  have hn : (bothWays pairs).map Prod.fst = pairs.flatMap fun p => [p.1, p.2] := by
    simp [bothWays, List.map_flatMap]
  refine ⟨leadersOf (sizeOk min max) (fun a => if fuzzy then firsts (partnersOf pairs a) else partnersOf pairs a)
    (firsts (pairs.flatMap fun p => [p.1, p.2])) [], ?_, leadersOf_sublist .., ?_⟩
  · show Except.ok _ = _
    rw [makeGraph_collect, collect_eq, hn]
    simp only [under_partners]
    rw [fuzzyClusters_leadersOf]
    cases fuzzy <;> rfl
  · intro before a after h
    rw [mem_leadersOf _ _ (nodup_firsts _) _ _ _ _ h]
    simp only [List.not_mem_nil, not_false_eq_true, true_and]
    rw [sizeOk_iff]

/-- The leaders are determined. -/
theorem leaders_unique {nodes : List α} (hn : nodes.Nodup) {others : α → List α} {size : Nat → Prop} {l l' : List α}
    (h : IsLeaders nodes others size l) (h' : IsLeaders nodes others size l') : l = l' := by
  have key : ∀ before after, nodes = before ++ after → ∀ a ∈ before, (a ∈ l ↔ a ∈ l') := by
    intro before
    induction before using snoc_ind with
    | nil => intro _ _ a ha; simp at ha
    | snoc before x ih =>
        intro after e a ha
        have e' : nodes = before ++ x :: after := by simpa using e
        have ih := ih _ e'
        rcases List.mem_append.mp ha with ha | ha
        · exact ih a ha
        · obtain rfl := List.mem_singleton.mp ha
          rw [h.mem _ _ _ e', h'.mem _ _ _ e']
          refine and_congr_right fun _ => ⟨fun g b hb hm => g b ((ih b hm).mpr hb) hm, fun g b hb hm => g b ((ih b hm).mp hb) hm⟩
  have hmem : ∀ a, a ∈ l ↔ a ∈ l' := by
    intro a
    by_cases ha : a ∈ nodes
    · exact key nodes [] (by simp) a ha
    · exact ⟨fun g => absurd (h.sub.subset g) ha, fun g => absurd (h'.sub.subset g) ha⟩
  have e : ∀ {m : List α}, m.Sublist nodes → m = nodes.filter fun a => decide (a ∈ m) := by
    clear key hmem h h'
    intro m hm
    induction hm with
    | slnil => rfl
    | cons x hm ih =>
        obtain ⟨hx, hn⟩ := List.nodup_cons.mp hn
        rw [List.filter_cons_of_neg (by simpa using fun g => hx (hm.subset g))]
        exact ih hn
    | cons_cons x hm ih =>
        obtain ⟨hx, hn⟩ := List.nodup_cons.mp hn
        rw [List.filter_cons_of_pos (by simp)]
        refine congrArg _ ((ih hn).trans (List.filter_congr fun a ha => ?_))
        have : a ≠ x := fun g => hx (g ▸ ha)
        simp [this]
  rw [e h.sub, e h'.sub]
  exact List.filter_congr fun a _ => by simp [hmem a]

-- A repeated pair: the second item is followed by nothing since it is in the first cluster; the third leads.
example : clustersFromPairs (fun _ l => l) [(1, 2), (3, 2), (2, 1)] 2 none .fuzzyClusters false = .ok [[1, 2, 2], [3, 2]] ∧
    partnersOf [(1, 2), (3, 2), (2, 1)] 1 = [2, 2] := by decide +kernel

theorem count_partners (pairs : List (α × α)) (a x : α) :
    (partnersOf pairs a).count x = pairs.count (a, x) + pairs.count (x, a) := by
  induction pairs with
  | nil => rfl
  | cons p pairs ih =>
      obtain ⟨b, c⟩ := p
      have h : partnersOf ((b, c) :: pairs) a = (if b = a then [c] else []) ++ (if c = a then [b] else []) ++ partnersOf pairs a := by
        unfold partnersOf bothWays
        simp only [List.flatMap_cons, List.cons_append, List.nil_append, List.filterMap_cons]
        split <;> split <;> simp_all
      rw [h, List.count_append, List.count_append, ih, List.count_cons, List.count_cons]
      simp only [beq_iff_eq, Prod.mk.injEq]
      by_cases h1 : b = a <;> by_cases h2 : c = a <;> by_cases h3 : b = x <;> by_cases h4 : c = x <;>
        simp [h1, h2, h3, h4, List.count_cons] <;> grind

/-- How many times an item is in a cluster after its leader, when `fuzzy=False`. -/
theorem fuzzy_clusters_counts (ord : α → List α → List α) (pairs : List (α × α)) (min : Nat) (max : Option Nat) :
    ∃ cs, clustersFromPairs ord pairs min max .fuzzyClusters false = .ok cs ∧ ∀ c ∈ cs, ∃ item rest, c = item :: rest ∧
      ∀ x, rest.count x = pairs.count (item, x) + pairs.count (x, item) := by
  obtain ⟨leaders, h, _⟩ := fuzzy_clusters_exact ord pairs min max false
  refine ⟨_, h, fun c hc => ?_⟩
  obtain ⟨a, _, rfl⟩ := List.mem_map.mp hc
  exact ⟨a, _, rfl, fun x => count_partners pairs a x⟩

/-! ### Blocking -/

omit [DecidableEq κ] in
theorem count_bucketPairs (l : List α) (a b : α) : (bucketPairs l).count (a, b) = (l.sublistsLen 2).count [a, b] := by
  induction l with
  | nil => rfl
  | cons c l ih =>
      rw [bucketPairs, List.count_append, ih, List.sublistsLen_succ_cons, List.count_append, Nat.add_comm]
      congr 1
      rw [List.sublistsLen_one, List.map_map]
      have h1 : ∀ m : List α, (m.map fun b => (c, b)).count (a, b) = if c = a then m.count b else 0 := by
        intro m
        induction m with
        | nil => simp
        | cons d m ih =>
            rw [List.map_cons, List.count_cons, List.count_cons, ih]
            by_cases h1 : c = a <;> by_cases h2 : d = b <;> simp [h1, h2]
      have h2 : ∀ m : List α, (m.map (List.cons c ∘ fun x => [x])).count [a, b] = if c = a then m.count b else 0 := by
        intro m
        induction m with
        | nil => simp
        | cons d m ih =>
            rw [List.map_cons, List.count_cons, List.count_cons, ih]
            by_cases h1 : c = a <;> by_cases h2 : d = b <;> simp [h1, h2]
      rw [h1, h2, List.count_reverse]

omit [DecidableEq κ] in
theorem count_bucketPairs_filter (p : α → Bool) (l : List α) {a b : α} (ha : p a = true) (hb : p b = true) :
    (bucketPairs (l.filter p)).count (a, b) = (bucketPairs l).count (a, b) := by
  induction l with
  | nil => rfl
  | cons c l ih =>
      have h1 : ∀ (d : α) (m : List α), (m.map fun b => (d, b)).count (a, b) = if d = a then m.count b else 0 := by
        intro d m
        induction m with
        | nil => simp
        | cons e m ih =>
            rw [List.map_cons, List.count_cons, List.count_cons, ih]
            by_cases h1 : d = a <;> by_cases h2 : e = b <;> simp [h1, h2]
      by_cases hc : p c = true
      · rw [List.filter_cons_of_pos hc, bucketPairs, bucketPairs, List.count_append, List.count_append, ih, h1, h1,
          List.count_filter hb]
      · rw [List.filter_cons_of_neg hc, bucketPairs, List.count_append, ih, h1, if_neg, Nat.zero_add]
        rintro rfl
        exact hc ha

theorem count_flatMap_single {ι β : Type _} [BEq β] [LawfulBEq β] (keys : List ι) (hk : keys.Nodup) (g : ι → List β) (k : ι) (x : β)
    (h : ∀ k' ∈ keys, k' ≠ k → x ∉ g k') (hm : k ∈ keys ∨ x ∉ g k) : (keys.flatMap g).count x = (g k).count x := by
  induction keys with
  | nil =>
      rw [List.flatMap_nil, List.count_nil, List.count_eq_zero_of_not_mem]
      exact hm.resolve_left (by simp)
  | cons k' keys ih =>
      obtain ⟨hk', hk⟩ := List.nodup_cons.mp hk
      rw [List.flatMap_cons, List.count_append]
      by_cases e : k' = k
      · subst e
        rw [show (keys.flatMap g).count x = 0 from ?_, Nat.add_zero]
        refine List.count_eq_zero_of_not_mem fun hx => ?_
        obtain ⟨j, hj, hx⟩ := List.mem_flatMap.mp hx
        exact h j (List.mem_cons_of_mem _ hj) (fun e => hk' (e ▸ hj)) hx
      · rw [List.count_eq_zero_of_not_mem (h k' List.mem_cons_self e), Nat.zero_add]
        refine ih hk (fun j hj => h j (List.mem_cons_of_mem _ hj)) (hm.imp_left fun g => ?_)
        rcases List.mem_cons.mp g with g | g
        · exact absurd g.symm e
        · exact g

/-- How many pairs of places hold two similar items of one block. -/
def pairsInBlock (f : α → κ) (similarity : α → α → Bool) (data : List α) (a b : α) : Nat :=
  if f a = f b ∧ similarity a b = true then (data.sublistsLen 2).count [a, b] else 0

theorem count_blocks (setOrd : List κ → List κ) (data : List α) (f : α → κ) (similarity : α → α → Bool)
    (keep : List α → Bool) (hkeep : ∀ l, keep l = false → l.length < 2) (graph : Option (Dict α (List α)))
    (hg : ∀ a b, known graph a b = false) (a b : α) :
    ((((bucketsOf (blockEntries setOrd data (.block f))).map Prod.snd).filter keep).flatMap
      fun bucket => blockWorker similarity bucket graph).count (a, b) = pairsInBlock f similarity data a b := by
  rw [bucketsOf_eq, List.map_map, List.filter_map, List.flatMap_map]
  have hsmall : ∀ l : List α, l.length < 2 → bucketPairs l = [] := by
    intro l hl
    match l, hl with
    | [], _ => rfl
    | [_], _ => rfl
  have hmem : ∀ k, (a, b) ∈ blockWorker similarity (under (blockEntries setOrd data (.block f)) k) graph → f a = k ∧ f b = k ∧
      similarity a b = true ∧ a ∈ data := by
    intro k h
    rw [under_block] at h
    unfold blockWorker at h
    obtain ⟨h1, h2⟩ := List.mem_filter.mp h
    have h3 := (mem_bucketPairs.mp h1).subset (show a ∈ [a, b] by simp)
    have h4 := (mem_bucketPairs.mp h1).subset (show b ∈ [a, b] by simp)
    simp only [List.mem_filter, decide_eq_true_eq] at h3 h4
    simp only [hg, Bool.not_false, Bool.true_and] at h2
    exact ⟨h3.2, h4.2, h2, h3.1⟩
  refine (count_flatMap_single _ ((nodup_firsts _).filter _)
    (fun k => blockWorker similarity (under (blockEntries setOrd data (.block f)) k) graph) (f a) (a, b)
    (fun k _ hne hm => hne (hmem k hm).1.symm) ?_).trans ?_
  · by_cases hm : (a, b) ∈ blockWorker similarity (under (blockEntries setOrd data (.block f)) (f a)) graph
    · refine Or.inl (List.mem_filter.mpr ⟨mem_firsts.mpr ?_, ?_⟩)
      · have := (hmem _ hm).2.2.2
        simp only [blockEntries, List.map_map, List.mem_map, Function.comp]
        exact ⟨a, this, rfl⟩
      · simp only [Function.comp]
        cases hk : keep (under (blockEntries setOrd data (.block f)) (f a)) with
        | true => rfl
        | false =>
            have := hsmall _ (hkeep _ hk)
            unfold blockWorker at hm
            rw [this] at hm
            simp at hm
    · exact Or.inr hm
  · unfold pairsInBlock
    by_cases h : f a = f b ∧ similarity a b = true
    · rw [if_pos h]
      unfold blockWorker
      rw [List.count_filter (by simp [hg, h.2]), under_block, count_bucketPairs_filter, count_bucketPairs]
      · simp
      · simp [h.1]
    · rw [if_neg h]
      refine List.count_eq_zero_of_not_mem fun hm => h ?_
      obtain ⟨_, h2, h3, _⟩ := hmem _ hm
      exact ⟨h2.symm, h3⟩

/-- **C90**, blocking with one block by item, in one process, for any data: an item is in a cluster, after its leader, as many times as there
are two places holding the two similar items in one block. -/
theorem blocking_fuzzy_repeats (ord : α → List α → List α) (setOrd : List κ → List κ) (data : List α) (f : α → κ)
    (similarity : α → α → Bool) (min : Nat) (max : Option Nat) :
    ∃ cs, blockingSerial ord setOrd data (.block f) similarity min max .fuzzyClusters = .ok cs ∧
      ∀ c ∈ cs, ∃ item rest, c = item :: rest ∧ ∀ x, rest.count x =
        pairsInBlock f similarity data item x + pairsInBlock f similarity data x item := by
  obtain ⟨cs, h1, h2⟩ := fuzzy_clusters_counts ord ((((bucketsOf (blockEntries setOrd data (.block f))).map Prod.snd).filter
    fun bucket => ¬ bucket.length < 2).flatMap fun bucket => blockWorker similarity bucket (workerGraph (.block f))) min max
  refine ⟨cs, h1, fun c hc => ?_⟩
  obtain ⟨item, rest, e, h3⟩ := h2 c hc
  refine ⟨item, rest, e, fun x => ?_⟩
  rw [h3, count_blocks setOrd data f similarity _ (by simp) _ (fun a b => rfl),
    count_blocks setOrd data f similarity _ (by simp) _ (fun a b => rfl)]

/-- **C90**, the same in several processes. -/
theorem blocking_parallel_fuzzy_repeats (ord : α → List α → List α) (setOrd : List κ → List κ)
    (arrival : List (List (α × α)) → List (List (α × α))) (harr : ∀ l, (arrival l).Perm l) (data : List α) (f : α → κ)
    (similarity : α → α → Bool) (min : Nat) (max : Option Nat) :
    ∃ cs, blockingParallel ord setOrd arrival data (.block f) similarity min max .fuzzyClusters = .ok cs ∧
      ∀ c ∈ cs, ∃ item rest, c = item :: rest ∧ ∀ x, rest.count x =
        pairsInBlock f similarity data item x + pairsInBlock f similarity data x item := by
  obtain ⟨cs, h1, h2⟩ := fuzzy_clusters_counts ord (arrival ((((bucketsOf (blockEntries setOrd data (.block f))).map Prod.snd).filter
    fun bucket => bucket.length > 1).map fun bucket => blockWorker similarity bucket none)).flatten min max
  refine ⟨cs, h1, fun c hc => ?_⟩
  obtain ⟨item, rest, e, h3⟩ := h2 c hc
  refine ⟨item, rest, e, fun x => ?_⟩
  have hp := fun p => (harr ((((bucketsOf (blockEntries setOrd data (.block f))).map Prod.snd).filter
    fun bucket => bucket.length > 1).map fun bucket => blockWorker similarity bucket none)).flatten.count_eq p
  rw [h3, hp, hp, ← List.flatMap_def, count_blocks setOrd data f similarity _ (by simp; omega) _ (fun a b => rfl),
    count_blocks setOrd data f similarity _ (by simp; omega) _ (fun a b => rfl)]

-- Two places for 2.
example : pairsInBlock (fun n : Nat => n / 5) (fun a b => decide (a < b)) [1, 2, 2] 1 2 = 2 := by decide +kernel

/-! ### Sorted neighborhood -/

section
open Fog.SortedNeighborhood

/-- How many pairs of places within a window hold two similar items. -/
def pairsInWindow (similarity : α → α → Bool) (window : Nat) (S : List α) (a b : α) : Nat :=
  if similarity a b = true then
    ((Finset.range S.length ×ˢ Finset.range S.length).filter fun q =>
      q.1 < q.2 ∧ q.2 < q.1 + window ∧ S[q.1]? = some a ∧ S[q.2]? = some b).card
  else 0

omit [DecidableEq κ] in
theorem count_windowPairs (similarity : α → α → Bool) (window : Nat) (S : List α) (a b : α) :
    (windowPairs similarity window S).count (a, b) = pairsInWindow similarity window S a b := by
  have hpos : windowPairs similarity window S = ((List.range S.length).flatMap fun i =>
      (pyRange (i + 1) (min S.length (i + window))).map (Prod.mk i)).filterMap fun q =>
        match S[q.1]?, S[q.2]? with
        | some A, some B => if similarity A B then some (A, B) else none
        | _, _ => none := by
    unfold windowPairs
    rw [List.filterMap_flatMap]
    simp only [List.filterMap_map]
    rfl
  have hnd : ((List.range S.length).flatMap fun i => (pyRange (i + 1) (min S.length (i + window))).map (Prod.mk i)).Nodup := by
    rw [List.nodup_flatMap]
    refine ⟨fun i _ => ?_, ?_⟩
    · exact List.Nodup.map (fun x y h => (Prod.mk.inj h).2) List.nodup_range'
    · refine List.Pairwise.imp ?_ List.nodup_range
      rintro i j hne ⟨x, y⟩ h1 h2
      simp only [List.mem_map, Prod.mk.injEq] at h1 h2
      obtain ⟨_, _, rfl, _⟩ := h1
      obtain ⟨_, _, h2, _⟩ := h2
      exact hne h2.symm
  rw [hpos, List.count_filterMap]
  have hiff : ∀ q : Nat × Nat, ((match S[q.1]?, S[q.2]? with
      | some A, some B => if similarity A B then some (A, B) else none
      | _, _ => (none : Option (α × α))) == some (a, b)) = true ↔
      similarity a b = true ∧ S[q.1]? = some a ∧ S[q.2]? = some b := by
    intro q
    rw [beq_iff_eq]
    cases S[q.1]? <;> cases S[q.2]? <;> simp
    grind
  unfold pairsInWindow
  rw [List.countP_congr fun q _ => (hiff q).trans (decide_eq_true_iff).symm]
  split
  · next hs =>
      rw [List.countP_eq_length_filter, ← List.toFinset_card_of_nodup (hnd.filter _)]
      congr 1
      ext ⟨i, j⟩
      simp only [List.mem_toFinset, List.mem_filter, List.mem_flatMap, List.mem_range, List.mem_map, pyRange, List.mem_range'_1, Prod.mk.injEq,
        decide_eq_true_eq, hs, true_and, Finset.mem_filter, Finset.mem_product, Finset.mem_range]
      constructor
      · rintro ⟨⟨i', h1, j', h2, rfl, rfl⟩, h3, h4⟩
        exact ⟨⟨h1, by omega⟩, by omega, by omega, h3, h4⟩
      · rintro ⟨⟨h1, h2⟩, h3, h4, h5, h6⟩
        exact ⟨⟨i, h1, j, by omega, rfl, rfl⟩, h5, h6⟩
  · next hs => simp [hs]

/-- **C90**, sorted neighborhood with one key, for any data: an item is in a cluster, after its leader, as many times as there are two places
within the window holding the two similar items. -/
theorem sorted_neighborhood_fuzzy_repeats (ord : α → List α → List α) (oneShot : Bool) (data : List α) (le : α → α → Bool)
    (similarity : α → α → Bool) (window min : Nat) (max : Option Nat) :
    ∃ cs, sortedNeighborhood ord oneShot data (.key le) similarity window min max .fuzzyClusters = .ok cs ∧
      ∀ c ∈ cs, ∃ item rest, c = item :: rest ∧ ∀ x, rest.count x =
        pairsInWindow similarity window (pySorted data le) item x + pairsInWindow similarity window (pySorted data le) x item := by
  have hp : snmPairs oneShot data (.key le) similarity window = windowPairs similarity window (pySorted data le) := by
    simp [snmPairs, Keys.multipass, passes]
  unfold sortedNeighborhood
  rw [hp]
  obtain ⟨cs, h1, h2⟩ := fuzzy_clusters_counts ord (windowPairs similarity window (pySorted data le)) min max
  refine ⟨cs, h1, fun c hc => ?_⟩
  obtain ⟨item, rest, e, h3⟩ := h2 c hc
  refine ⟨item, rest, e, fun x => ?_⟩
  rw [h3, count_windowPairs, count_windowPairs]

-- A window of two places: only the first of the two places of 2 is next to 1.
example : pairsInWindow (fun a b : Nat => decide (a < b)) 2 [1, 2, 2] 1 2 = 1 := by decide +kernel

end

omit [DecidableEq κ] in
/-- **C21**: whatever the graph handed to the worker, a pair of a block is found as many times as it has places in the block, when it
is similar and the graph does not link it already. -/
theorem block_worker_exact (similarity : α → α → Bool) (block : List α) (graph : Option (Dict α (List α))) (a b : α) :
    (similarity a b = true → (∀ g ns, graph = some g → g.get? a = some ns → b ∉ ns) →
      (blockWorker similarity block graph).count (a, b) = (block.sublistsLen 2).count [a, b]) ∧
    ((similarity a b = false ∨ ∃ g ns, graph = some g ∧ g.get? a = some ns ∧ b ∈ ns) →
      (a, b) ∉ blockWorker similarity block graph) := by
  have hk : known graph a b = true ↔ ∃ g ns, graph = some g ∧ g.get? a = some ns ∧ b ∈ ns := by
    unfold known
    cases graph with
    | none => simp
    | some g =>
        cases h : g.get? a with
        | none => simp [h]
        | some ns => simp [h]
  constructor
  · intro hs hg
    have : known graph a b = false := by
      rw [Bool.eq_false_iff, Ne, hk]
      rintro ⟨g, ns, h1, h2, h3⟩
      exact hg g ns h1 h2 h3
    rw [blockWorker, List.count_filter (by simp [this, hs]), count_bucketPairs]
  · intro h hm
    have hm := (List.mem_filter.mp hm).2
    simp only [Bool.and_eq_true, Bool.not_eq_true'] at hm
    rcases h with h | h
    · rw [h] at hm; simp at hm
    · rw [hk.mpr h] at hm; simp at hm

example : blockWorker (fun a b => decide (a + b < 8)) [1, 2, 4, 1] (some [(1, [4])]) = [(1, 2), (1, 1), (2, 4), (2, 1), (4, 1)] := by decide +kernel

end Fog.Props
