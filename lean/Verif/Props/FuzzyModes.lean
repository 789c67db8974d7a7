import Verif.Props.KeyCollision
import Verif.Props.SortedNeighborhood
import Verif.Props.Laesa
import Verif.Props.Quickjoin
import Verif.Props.IntersectionIndex
import Verif.Props.ClusteringUtils
import Verif.Spec.Stars

/-!
# C90: the fuzzy mode of the clustering algorithms
-/

namespace Fog.Props

open Fog.ClusteringUtils Fog.KeyCollision Fog.Blocking Fog.Spec

variable {α κ : Type _} [DecidableEq α] [DecidableEq κ]

/-- The fuzzy clusters of pairs which stand for a relation. -/
theorem stars_of_relation {ord : α → List α → List α} (hord : ∀ a l, (ord a l).Perm l) (pairs : List (α × α)) (R : α → α → Prop)
    (hR : ∀ a b, Linked pairs a b ↔ R a b) (hirr : ∀ a, ¬ R a a) (min : Nat) (max : Option Nat) (fuzzy : Bool)
    (hd : fuzzy = true ∨ (pairs.Nodup ∧ ∀ a b, (a, b) ∈ pairs → (b, a) ∉ pairs)) :
    ∃ cs, clustersFromPairs ord pairs min max .fuzzyClusters fuzzy = .ok cs ∧ IsStars R (SizeBetween min max) cs := by
  have hs : ∀ p ∈ pairs, p.1 ≠ p.2 := by
    rintro ⟨a, b⟩ hp heq
    simp only at heq
    subst heq
    exact hirr a ((hR a a).mp (Or.inl hp))
  have hd' : fuzzy = true ∨ pairs.Pairwise (fun p q => p ≠ q ∧ p ≠ (q.2, q.1)) := by
    rcases hd with h | ⟨h1, h2⟩
    · exact Or.inl h
    · refine Or.inr (List.Pairwise.imp_of_mem ?_ h1)
      rintro ⟨a, b⟩ ⟨c, d⟩ hp hq hne
      refine ⟨hne, fun heq => ?_⟩
      simp only [Prod.mk.injEq] at heq
      obtain ⟨rfl, rfl⟩ := heq
      exact h2 _ _ hp hq
  obtain ⟨cs, h1, h2, h3⟩ := fuzzy_clusters_are_stars ord hord pairs min max fuzzy
  obtain ⟨cs', h4, h5⟩ := fuzzy_clusters_nodup_partial ord hord pairs min max fuzzy hs hd'
  rw [h1] at h4
  obtain rfl := Except.ok.inj h4
  refine ⟨cs, h1, ⟨fun c hc => ?_, ?_, ?_⟩⟩
  · obtain ⟨g1, item, rest, g2, g3, g4⟩ := h2 c hc
    exact ⟨g1, h5 c hc, item, rest, g2, g3, fun x => (g4 x).trans (hR item x)⟩
  · refine h3.imp ?_
    intro c d h item hitem hm
    obtain ⟨g1, g2⟩ := h item hitem
    cases c with
    | nil => simp at hm
    | cons x c =>
        rcases List.mem_cons.mp hm with rfl | hm
        · simp at g2
        · exact g1 hm
  · intro hsz a b hab
    have hg := represents_makeGraph fuzzy pairs
    obtain ⟨l, hl⟩ := (hg.node a).mpr ⟨b, (hR a b).mpr hab⟩
    have := fuzzyClusters_cover (fuzzy := fuzzy) hord (min := min) (max := max) (makeGraph fuzzy pairs) [] ?_ (a, l)
      (Dict.mem_of_get? hl)
    · obtain rfl : _ = cs := Except.ok.inj h1
      simpa using this
    · intro p hp
      have h1 := Dict.get?_of_mem hg.nodup hp
      obtain ⟨c, hc⟩ := (hg.node p.1).mp ⟨p.2, h1⟩
      have h2 := (hg.nb p.1 p.2 h1 c).mpr hc
      have := List.length_pos_of_mem h2
      exact (sizeOk_iff ..).mpr (hsz _ (by omega))

theorem sublist_pair_asymm {l : List α} (hl : l.Nodup) {a b : α} (h1 : [a, b].Sublist l) (h2 : [b, a].Sublist l) : False := by
  induction l with
  | nil => simp at h1
  | cons c l ih =>
      obtain ⟨hc, hl⟩ := List.nodup_cons.mp hl
      cases h1 with
      | cons _ h1 =>
          cases h2 with
          | cons _ h2 => exact ih hl h1 h2
          | cons_cons _ h2 => exact hc (h1.subset (by simp))
      | cons_cons _ h1 =>
          cases h2 with
          | cons _ h2 => exact hc (h2.subset (by simp))
          | cons_cons _ h2 => exact hc (h2.subset (by simp))

theorem sublist_pair_ne {l : List α} (hl : l.Nodup) {a b : α} (h : [a, b].Sublist l) : a ≠ b := by
  have := hl.sublist h
  simpa using this

omit [DecidableEq α] in
theorem nodup_bucketPairs {l : List α} (hl : l.Nodup) : (bucketPairs l).Nodup := by
  induction l with
  | nil => simp [bucketPairs]
  | cons a l ih =>
      obtain ⟨ha, hl⟩ := List.nodup_cons.mp hl
      rw [bucketPairs, List.nodup_append]
      refine ⟨hl.map fun x y h => (Prod.mk.inj h).2, ih hl, ?_⟩
      rintro p hp q hq rfl
      obtain ⟨b, _, rfl⟩ := List.mem_map.mp hp
      exact ha ((mem_bucketPairs.mp hq).subset (by simp))

/-! ### Blocking -/

theorem under_block (setOrd : List κ → List κ) (f : α → κ) (data : List α) (k : κ) :
    under (blockEntries setOrd data (.block f)) k = data.filter fun a => decide (f a = k) := by
  unfold under blockEntries
  simp only
  induction data with
  | nil => rfl
  | cons a data ih =>
      rw [List.map_cons, List.filter_cons, List.filter_cons]
      by_cases h : f a = k
      · simp only [h, decide_true, if_true, List.map_cons, List.cons.injEq, true_and]
        simpa [h] using ih
      · simp only [h, decide_false, Bool.false_eq_true, if_false]
        simpa using ih

theorem nodup_blocks (setOrd : List κ → List κ) {data : List α} (hdata : data.Nodup) (f : α → κ) (similarity : α → α → Bool)
    (keep : List α → Bool) (graph : Option (Dict α (List α))) :
    ((((bucketsOf (blockEntries setOrd data (.block f))).map Prod.snd).filter keep).flatMap
      fun bucket => blockWorker similarity bucket graph).Nodup := by
  rw [bucketsOf_eq, List.map_map, List.filter_map, List.flatMap_map, List.nodup_flatMap]
  refine ⟨fun k _ => ?_, ?_⟩
  · simp only [Function.comp, under_block]
    exact (nodup_bucketPairs (hdata.filter _)).filter _
  · refine List.Pairwise.imp ?_ ((nodup_firsts _).filter _)
    intro k k' hne
    simp only [Function.onFun, Function.comp, under_block]
    rintro ⟨a, b⟩ h1 h2
    unfold blockWorker at h1 h2
    have h3 := (mem_bucketPairs.mp (List.mem_filter.mp h1).1).subset (show a ∈ [a, b] by simp)
    have h4 := (mem_bucketPairs.mp (List.mem_filter.mp h2).1).subset (show a ∈ [a, b] by simp)
    simp only [List.mem_filter, decide_eq_true_eq] at h3 h4
    exact hne (h3.2.symm.trans h4.2)

/-- C90, blocking in one process. -/
theorem blocking_fuzzy_serial (ord : α → List α → List α) (hord : ∀ a l, (ord a l).Perm l)
    (setOrd : List κ → List κ) (hset : ∀ l, (setOrd l).Perm l) (data : List α) (hdata : data.Nodup) (fn : BlockFn α κ)
    (similarity : α → α → Bool) (min : Nat) (max : Option Nat) :
    ∃ cs, blockingSerial ord setOrd data fn similarity min max .fuzzyClusters = .ok cs ∧
      IsStars (fun a b => SimilarInBlock fn similarity data a b ∨ SimilarInBlock fn similarity data b a) (SizeBetween min max) cs := by
  unfold blockingSerial
  refine stars_of_relation hord _ _ (fun a b => ?_) (fun a h => ?_) min max _ ?_
  · unfold Linked
    rw [mem_blocking_serial setOrd hset, mem_blocking_serial setOrd hset]
  · rcases h with h | h <;> exact sublist_pair_ne hdata h.1 rfl
  · cases fn with
    | blocks f => exact Or.inl rfl
    | block f =>
        refine Or.inr ⟨nodup_blocks setOrd hdata f similarity _ _, fun a b h1 h2 => ?_⟩
        rw [mem_blocking_serial setOrd hset] at h1 h2
        exact sublist_pair_asymm hdata h1.1 h2.1

/-- C90, blocking in several processes. -/
theorem blocking_fuzzy_parallel (ord : α → List α → List α) (hord : ∀ a l, (ord a l).Perm l)
    (setOrd : List κ → List κ) (hset : ∀ l, (setOrd l).Perm l)
    (arrival : List (List (α × α)) → List (List (α × α))) (harr : ∀ l, (arrival l).Perm l) (data : List α) (hdata : data.Nodup)
    (fn : BlockFn α κ) (similarity : α → α → Bool) (min : Nat) (max : Option Nat) :
    ∃ cs, blockingParallel ord setOrd arrival data fn similarity min max .fuzzyClusters = .ok cs ∧
      IsStars (fun a b => SimilarInBlock fn similarity data a b ∨ SimilarInBlock fn similarity data b a) (SizeBetween min max) cs := by
  unfold blockingParallel
  refine stars_of_relation hord _ _ (fun a b => ?_) (fun a h => ?_) min max _ ?_
  · unfold Linked
    rw [mem_blocking_parallel setOrd hset arrival harr, mem_blocking_parallel setOrd hset arrival harr]
  · rcases h with h | h <;> exact sublist_pair_ne hdata h.1 rfl
  · cases fn with
    | blocks f => exact Or.inl rfl
    | block f =>
        refine Or.inr ⟨?_, fun a b h1 h2 => ?_⟩
        · rw [(harr _).flatten.nodup_iff, ← List.flatMap_def]
          exact nodup_blocks setOrd hdata f similarity _ _
        · rw [mem_blocking_parallel setOrd hset arrival harr] at h1 h2
          exact sublist_pair_asymm hdata h1.1 h2.1

/-! ### Sorted neighborhood -/

section
open Fog.SortedNeighborhood

theorem nodup_windowPairs {S : List α} (hS : S.Nodup) (similarity : α → α → Bool) (window : Nat) :
    (windowPairs similarity window S).Nodup := by
  have key : ∀ (i j : Nat) (a b : α), (match S[i]?, S[j]? with
      | some A, some B => if similarity A B then some (A, B) else none
      | _, _ => (none : Option (α × α))) = some (a, b) → S[i]? = some a ∧ S[j]? = some b := by
    intro i j a b h
    cases hi : S[i]? <;> cases hj : S[j]? <;> simp only [hi, hj, reduceCtorEq] at h
    split at h
    · simp only [Option.some.injEq, Prod.mk.injEq] at h
      exact ⟨by rw [h.1], by rw [h.2]⟩
    · cases h
  have inj : ∀ {i j : Nat} {a : α}, S[i]? = some a → S[j]? = some a → i = j := by
    intro i j a hi hj
    obtain ⟨h1, h2⟩ := List.getElem?_eq_some_iff.mp hi
    obtain ⟨h3, h4⟩ := List.getElem?_eq_some_iff.mp hj
    exact (hS.getElem_inj_iff).mp (h2.trans h4.symm)
  unfold windowPairs
  rw [List.nodup_flatMap]
  refine ⟨fun i _ => ?_, ?_⟩
  · refine List.Nodup.filterMap ?_ List.nodup_range'
    rintro j j' ⟨a, b⟩ h1 h2
    exact inj (key i j a b h1).2 (key i j' a b h2).2
  · refine List.Pairwise.imp ?_ List.nodup_range
    rintro i i' hne ⟨a, b⟩ h1 h2
    obtain ⟨j, _, h1⟩ := List.mem_filterMap.mp h1
    obtain ⟨j', _, h2⟩ := List.mem_filterMap.mp h2
    exact hne (inj (key i j a b h1).1 (key i' j' a b h2).1)

omit [DecidableEq α] in
theorem inWindow_ne {S : List α} (hS : S.Nodup) {similarity : α → α → Bool} {window : Nat} {a b : α}
    (h : InWindow similarity window S a b) : a ≠ b := by
  rintro rfl
  obtain ⟨i, j, h1, _, hi, hj, _⟩ := h
  obtain ⟨h2, h3⟩ := List.getElem?_eq_some_iff.mp hi
  obtain ⟨h4, h5⟩ := List.getElem?_eq_some_iff.mp hj
  have := (hS.getElem_inj_iff).mp (h3.trans h5.symm)
  omega

/-- C90, sorted neighborhood with one key. -/
theorem sorted_neighborhood_fuzzy_one_key (ord : α → List α → List α) (hord : ∀ a l, (ord a l).Perm l) (oneShot : Bool)
    (data : List α) (hdata : data.Nodup) (le : α → α → Bool) (similarity : α → α → Bool) (window min : Nat) (max : Option Nat) :
    ∃ cs, sortedNeighborhood ord oneShot data (.key le) similarity window min max .fuzzyClusters = .ok cs ∧
      IsStars (fun a b => InWindow similarity window (pySorted data le) a b ∨ InWindow similarity window (pySorted data le) b a)
        (SizeBetween min max) cs := by
  have hS : (pySorted data le).Nodup := (List.mergeSort_perm _ _).nodup_iff.mpr hdata
  have hp : snmPairs oneShot data (.key le) similarity window = windowPairs similarity window (pySorted data le) := by
    simp [snmPairs, Keys.multipass, passes]
  unfold sortedNeighborhood
  rw [hp]
  refine stars_of_relation hord _ _ (fun a b => ?_) (fun a h => ?_) min max _
    (Or.inr ⟨nodup_windowPairs hS similarity window, fun a b h1 h2 => ?_⟩)
  · unfold Linked
    rw [mem_windowPairs, mem_windowPairs]
  · rcases h with h | h <;> exact inWindow_ne hS h rfl
  · rw [mem_windowPairs] at h1 h2
    obtain ⟨i, j, g1, _, g3, g4, _⟩ := h1
    obtain ⟨i', j', k1, _, k3, k4, _⟩ := h2
    obtain ⟨e1, e2⟩ := List.getElem?_eq_some_iff.mp g3
    obtain ⟨e3, e4⟩ := List.getElem?_eq_some_iff.mp g4
    obtain ⟨e5, e6⟩ := List.getElem?_eq_some_iff.mp k3
    obtain ⟨e7, e8⟩ := List.getElem?_eq_some_iff.mp k4
    have := (hS.getElem_inj_iff).mp (e2.trans e8.symm)
    have := (hS.getElem_inj_iff).mp (e4.trans e6.symm)
    omega

/-- C90, sorted neighborhood with several keys, when the data is not an iterator. -/
theorem sorted_neighborhood_fuzzy_several_keys (ord : α → List α → List α) (hord : ∀ a l, (ord a l).Perm l)
    (data : List α) (hdata : data.Nodup) (les : List (α → α → Bool)) (similarity : α → α → Bool) (window min : Nat) (max : Option Nat) :
    ∃ cs, sortedNeighborhood ord false data (.keys les) similarity window min max .fuzzyClusters = .ok cs ∧
      IsStars (fun a b => ∃ le ∈ les, InWindow similarity window (pySorted data le) a b ∨ InWindow similarity window (pySorted data le) b a)
        (SizeBetween min max) cs := by
  unfold sortedNeighborhood
  refine stars_of_relation hord _ _ (sorted_neighborhood_linked data les similarity window) ?_ min max _ (Or.inl rfl)
  rintro a ⟨le, _, h | h⟩ <;> exact inWindow_ne ((List.mergeSort_perm _ _).nodup_iff.mpr hdata) h rfl

end

/-! ### Intersection index -/

section
open Fog.IntersectionIndex

variable {τ : Type _} [DecidableEq τ]

/-- C90, intersection index, for a positive radius: the positions. -/
theorem intersection_index_fuzzy {β : Type _} (ord : List τ → List τ) (hord : ∀ l, (ord l).Perm l) (data : List β)
    (items : List (List τ)) (metric : Metric) (hm : metric ≠ .unknown) (radius : ℚ)
    (hr : 0 < radius) (min : ℕ) (max : Option ℕ) :
    ∃ ps : List (List ℕ), intersectionIndex ord data items metric radius min max .fuzzyClusters =
        .ok (ps.map fun c => c.filterMap fun i => data[i]?) ∧
      IsStars (SimilarPositions (fun A B => decide (radius ≤ similarityOf metric A.toFinset B.toFinset)) items)
        (SizeBetween min max) ps := by
  obtain ⟨pairs, h1, h2, h3⟩ := intersection_pairs_positive_radius ord hord items metric radius hr
  obtain ⟨cs, h4, h5⟩ := stars_of_relation (ord := fun _ l => l) (fun _ _ => List.Perm.refl _) pairs _
    (intersection_linked h3) (fun a h => by rcases h with ⟨h, _⟩ | ⟨h, _⟩ <;> omega) min max false
    (Or.inr ⟨h2, fun a b g1 g2 => by
      obtain ⟨_, _, _, _, k1, _⟩ := (h3 a b).mp g1
      obtain ⟨_, _, _, _, k2, _⟩ := (h3 b a).mp g2
      omega⟩)
  refine ⟨cs, ?_, h5⟩
  unfold intersectionIndex
  rw [if_neg hm, h1]
  simp [bind, Except.bind, h4]

end

/-! ### Quickjoin -/

section
open Fog.Quickjoin

variable {K : Type _} [Field K] [LinearOrder K]

/-- C90, quickjoin, whenever it ends. -/
theorem quickjoin_fuzzy [IsStrictOrderedRing K] (ord : α → List α → List α) (hord : ∀ a l, (ord a l).Perm l)
    (arrival : List (List (α × α)) → List (List (α × α))) (harr : ∀ l, (arrival l).Perm l) (data : List α) (hdata : data.Nodup) (radius : K)
    (distance : α → α → K) (hd : IsPseudoMetric distance) (block_size min : Nat) (max : Option Nat) (pivots : Pivots α)
    (beta : K) (solver : Solver α K) (hv : solver.vp_tree = false) (fuel : Nat) (result : Py (List (List α)))
    (h : quickjoin ord arrival data radius distance block_size min max .fuzzyClusters pivots beta solver fuel = some result) :
    ∃ cs, result = .ok cs ∧ IsStars (fun a b => TwoItems data a b ∧ distance a b ≤ radius) (SizeBetween min max) cs := by
  unfold quickjoin at h
  rw [Option.map_eq_some_iff] at h
  obtain ⟨bs, hbs, rfl⟩ := h
  refine stars_of_relation hord _ _ (quickjoin_linked arrival harr hd hv hbs) ?_ min max _ (Or.inl rfl)
  rintro a ⟨h1 | h1, _⟩ <;> exact sublist_pair_ne hdata h1 rfl

end

/-! ### Laesa -/

section
open Fog.Laesa

variable {K : Type _} [Field K] [LinearOrder K]

/-- C90, laesa. -/
theorem laesa_fuzzy (start : Nat) (ord : List Nat → List Nat) (hord : ∀ l, (ord l).Perm l)
    (gord : α → List α → List α) (hgord : ∀ a l, (gord a l).Perm l) (data : List α) (hdata : data.Nodup) (distance : α → α → K) (radius : K)
    (pivots : Option Nat) (min : Nat) (max : Option Nat) (cs : List (List α))
    (h : laesa start ord gord data distance radius pivots min max .fuzzyClusters = .ok cs) :
    ∃ p D, pivotSelection start ord data (pivots.getD (Nat.clog 2 data.length)) distance = .ok (p, D) ∧
      let Found := fun a b => ∃ i k : Nat, i < k ∧ data[i]? = some a ∧ data[k]? = some b ∧ distance a b ≤ radius ∧
        ∀ x y, IsPivot data p x → IsPivot data p y → |distance x a - distance x b| ≤ distance y a
      IsStars (fun a b => Found a b ∨ Found b a) (SizeBetween min max) cs := by
  obtain ⟨p, D, hp, _, hc⟩ := laesa_some hord h
  refine ⟨p, D, hp, ?_⟩
  have hD := (pivotSelection_ok hord hp).2
  have inj : ∀ {i j : Nat} {a : α}, data[i]? = some a → data[j]? = some a → i = j := by
    intro i j a hi hj
    obtain ⟨h1, h2⟩ := List.getElem?_eq_some_iff.mp hi
    obtain ⟨h3, h4⟩ := List.getElem?_eq_some_iff.mp hj
    exact (hdata.getElem_inj_iff).mp (h2.trans h4.symm)
  have hz : ∀ {x : α} {i : Nat}, (x, i) ∈ data.zipIdx → data[i]? = some x := fun h => List.mem_zipIdx_iff_getElem?.mp h
  have hnd : (clustering distance radius data p.length p D).Nodup := by
    have hzn : data.zipIdx.Nodup := by
      refine List.Nodup.of_map Prod.fst ?_
      rw [List.zipIdx_map_fst]; exact hdata
    have key : ∀ {x a b : α} {i : Nat} {q : α × Nat}, (if compute D (dStar distance data p p.length x) i q.2 then
        (if distance x q.1 ≤ radius then some (x, q.1) else none) else none) = some (a, b) → x = a ∧ q.1 = b := by
      intro x a b i q h
      split at h
      · split at h
        · simpa using h
        · cases h
      · cases h
    unfold clustering
    rw [List.nodup_flatMap]
    refine ⟨?_, ?_⟩
    · rintro ⟨x, i⟩ _
      simp only
      generalize hl : data.zipIdx.drop (i + 1) = l
      have hl1 : l.Nodup := by rw [← hl]; exact hzn.sublist (List.drop_sublist _ _)
      have hl2 : ∀ q ∈ l, q ∈ data.zipIdx := by rw [← hl]; exact fun q hq => List.mem_of_mem_drop hq
      clear hl
      induction l with
      | nil => simp
      | cons q l ih =>
          obtain ⟨hq, hl1⟩ := List.nodup_cons.mp hl1
          have ih := ih hl1 fun q' hq' => hl2 q' (List.mem_cons_of_mem _ hq')
          rw [List.filterMap_cons]
          split
          · exact ih
          · rename_i r hr
            obtain ⟨a, b⟩ := r
            rw [List.nodup_cons]
            refine ⟨fun hm => ?_, ih⟩
            obtain ⟨q', hq', h2⟩ := List.mem_filterMap.mp hm
            have e1 := (key hr).2
            have e2 := (key h2).2
            have h3 := hz (hl2 q List.mem_cons_self)
            have h4 := hz (hl2 q' (List.mem_cons_of_mem _ hq'))
            rw [e1] at h3
            rw [e2] at h4
            have h5 := inj h3 h4
            exact hq ((Prod.ext (e1.trans e2.symm) h5 : q = q') ▸ hq')
    · refine List.Pairwise.imp_of_mem ?_ hzn
      rintro ⟨x, i⟩ ⟨x', i'⟩ hx hx' hne ⟨a, b⟩ h1 h2
      obtain ⟨q, _, h1⟩ := List.mem_filterMap.mp h1
      obtain ⟨q', _, h2⟩ := List.mem_filterMap.mp h2
      have e1 := (key h1).1
      have e2 := (key h2).1
      have h3 := hz hx
      have h4 := hz hx'
      rw [e1] at h3
      rw [e2] at h4
      exact hne (Prod.ext (e1.trans e2.symm) (inj h3 h4))
  obtain ⟨cs', h1, h2⟩ := stars_of_relation hgord (clustering distance radius data p.length p D) _
    (fun a b => by unfold Linked; rw [mem_clustering hD, mem_clustering hD]) (fun a h => by
      rcases h with ⟨i, k, hik, hi, hk, _⟩ | ⟨i, k, hik, hi, hk, _⟩ <;> (have := inj hi hk; omega)) min max false
    (Or.inr ⟨hnd, fun a b g1 g2 => by
      rw [mem_clustering hD] at g1 g2
      obtain ⟨i, k, hik, hi, hk, _⟩ := g1
      obtain ⟨i', k', hik', hi', hk', _⟩ := g2
      have := inj hi hk'
      have := inj hk hi'
      omega⟩)
  rw [hc] at h1
  obtain rfl := Except.ok.inj h1
  exact h2

end

-- Three items in two blocks: the second one is in the cluster of the first, and in that of the third.
example : blockingSerial (fun _ l => l) (fun l => l) [1, 2, 3] (.blocks fun n : Nat => [n / 2, (n + 1) / 2]) (fun a b => b ≤ a + 1) 2 none
    .fuzzyClusters = .ok [[1, 2], [3, 2]] := by decide +kernel

-- A repeated item is repeated in the cluster.
example : blockingSerial (fun _ l => l) (fun l => l) [1, 2, 2] (.block fun n : Nat => n / 5) (fun a b => decide (a < b)) 2 none
    .fuzzyClusters = .ok [[1, 2, 2]] := by decide +kernel

end Fog.Props
