import Verif.Props.Passjoin
import Verif.Props.PassjoinCount
import Verif.Props.FuzzyExact
import Verif.Spec.Pieces

/-!
# C27: how many times passjoin finds a pair
-/

namespace Fog.Props

open Fog.ClusteringUtils Fog.KeyCollision Fog.Passjoin Fog.Spec

variable {α : Type _} [DecidableEq α]

/-! ### The index, in order -/

theorem get?_foldl_update_eq (keys : List (Nat × List α)) (hk : keys.Nodup) (A : List α) (d : Dict (Nat × List α) (List (List α)))
    (key : Nat × List α) :
    ((keys.foldl (fun Ll key => Ll.update key [] fun bucket => bucket ++ [A]) d).get? key).getD [] =
      (d.get? key).getD [] ++ if key ∈ keys then [A] else [] := by
  induction keys generalizing d with
  | nil => simp
  | cons x keys ih =>
      obtain ⟨hx, hk⟩ := List.nodup_cons.mp hk
      rw [List.foldl_cons, ih hk, Dict.get?_update]
      by_cases h : x = key
      · subst h
        simp [hx]
      · simp only [h, if_false, List.mem_cons, Ne.symm h, false_or]

theorem segments_nodup (k : Nat) (s : List α) : (segments k s).Nodup := by
  rw [segments_eq]
  refine List.Nodup.map_on ?_ List.nodup_range
  intro i _ j _ h
  exact (Prod.mk.inj h).1

/-- `L` is the index of the strings `prev`, in order. -/
def IndexesInOrder (k : Nat) (prev : List (List α)) (L : Index α) : Prop :=
  ∀ l key, lookup L l key = prev.filter fun B => decide (B.length = l ∧ key ∈ segments k B)

theorem indexesInOrder_snoc {k : Nat} {prev : List (List α)} {L : Index α} (h : IndexesInOrder k prev L) (A : List α) :
    IndexesInOrder k (prev ++ [A]) (indexString k L A) := by
  intro l key
  have h1 := h l key
  rw [List.filter_append, ← h1]
  simp only [lookup]
  unfold indexString
  rw [Dict.get?_update]
  by_cases hl : A.length = l
  · simp only [hl, if_true, Option.bind_some]
    rw [get?_foldl_update_eq _ (segments_nodup k A)]
    congr 1
    · cases hLl : L.get? l with
      | none => simp [Dict.get?]
      | some Ll => simp
    · by_cases hs : key ∈ segments k A <;> simp [hs, hl]
  · simp [hl]

/-! ### The runs of a substring -/

theorem count_skipRepeats (f : Nat → List α) (x : List α) : ∀ (n a : Nat) (current : Option (List α)),
    (skipRepeats current ((List.range' a n).map f)).count x =
      (List.range' a n).countP fun j => decide (f j = x ∧ if j = a then current ≠ some x else f (j - 1) ≠ x)
  | 0, _, _ => rfl
  | n + 1, a, current => by
      rw [List.range'_succ, List.map_cons, skipRepeats, List.countP_cons]
      have e : (skipRepeats (some (f a)) ((List.range' (a + 1) n).map f)).count x =
          (List.range' (a + 1) n).countP fun j => decide (f j = x ∧ if j = a then current ≠ some x else f (j - 1) ≠ x) := by
        rw [count_skipRepeats f x n (a + 1) (some (f a))]
        refine List.countP_congr fun j hj => ?_
        rw [List.mem_range'_1] at hj
        simp only [decide_eq_true_eq]
        by_cases h : j = a + 1
        · subst h; simp
        · rw [if_neg h, if_neg (by omega)]
      by_cases h : some (f a) = current
      · subst h
        rw [if_pos rfl, e]
        simp
      · rw [if_neg h, List.count_cons, e]
        congr 1
        by_cases hx : f a = x
        · subst hx; simp [Ne.symm h]
        · simp [hx]

theorem countP_range' (P : Nat → Bool) {a n N : Nat} (h : a + n ≤ N) (hP : ∀ j, P j = true → a ≤ j ∧ j < a + n) :
    (List.range N).countP P = (List.range' a n).countP P := by
  obtain ⟨m, rfl⟩ := Nat.exists_eq_add_of_le h
  have h1 : (List.range' 0 a).countP P = 0 := List.countP_eq_zero.mpr fun j hj hp => by
    rw [List.mem_range'_1] at hj
    have := hP j hp
    omega
  have h2 : (List.range' (0 + (a + n)) m).countP P = 0 := List.countP_eq_zero.mpr fun j hj hp => by
    rw [List.mem_range'_1] at hj
    have := hP j hp
    omega
  rw [List.range_eq_range', ← List.range'_append_1, List.countP_append, h2, ← List.range'_append_1, List.countP_append, h1, Nat.zero_add,
    Nat.zero_add, Nat.add_zero]

theorem cut_eq (k n i : Nat) : cut (k + 1) n i = segStart k n i := rfl

omit [DecidableEq α] in
theorem piece_eq (k : Nat) (s : List α) (i : Nat) :
    piece (k + 1) s i = slice s (segStart k s.length i) (segStart k s.length (i + 1)) := by
  unfold piece slice
  rw [cut_eq, cut_eq, List.drop_take]

omit [DecidableEq α] in
theorem piece_length {k : Nat} {s : List α} {i : Nat} (hi : i ≤ k) :
    (piece (k + 1) s i).length = segStart k s.length (i + 1) - segStart k s.length i := by
  have h1 := segStart_mono (k := k) (l := s.length) (show i + 1 ≤ k + 1 by omega)
  rw [segStart_last] at h1
  rw [piece_eq]
  unfold slice
  rw [List.length_drop, List.length_take]
  omega

open Classical in
/-- How many times the piece is among the substrings selected. -/
theorem count_substrings (k : Nat) (A B : List α) {i : Nat} (hi : i ≤ k) :
    (multiMatchAwareSubstrings k A B.length i (segStart k B.length i) (segStart k B.length (i + 1) - segStart k B.length i)).count
        (piece (k + 1) B i) =
      (List.range (A.length + 1)).countP fun j => decide (FoundAt k A B i j ∧ ∀ j', j = j' + 1 → ¬ FoundAt k A B i j') := by
  generalize hli : segStart k B.length (i + 1) - segStart k B.length i = li
  have hlen : (piece (k + 1) B i).length = li := by rw [piece_length hi, hli]
  generalize hc : segStart k B.length i = c
  generalize hx : piece (k + 1) B i = x at *
  have hF : ∀ j, FoundAt k A B i j ↔ Reachable k A.length B.length i c li j ∧ slice A j (j + li) = x := by
    intro j
    unfold FoundAt HasAt slice
    rw [hx, hlen, cut_eq, hc, List.drop_take, Nat.add_sub_cancel_left]
  unfold multiMatchAwareSubstrings multiMatchAwareInterval
  simp only
  generalize hlo : max (max 0 ((c : Int) - i)) ((c : Int) + ((A.length : Int) - B.length) - (k - i)) = lo
  generalize hhi : min (min ((c : Int) + i) ((c : Int) + ((A.length : Int) - B.length) + (k - i))) ((A.length : Int) - li) = hi'
  have hR : ∀ j : Nat, Reachable k A.length B.length i c li j ↔ lo.toNat ≤ j ∧ j < lo.toNat + (hi' + 1 - lo).toNat := by
    intro j
    unfold Reachable
    omega
  have e : (intRange lo (hi' + 1)).map (fun j => slice A j.toNat (j.toNat + li)) =
      (List.range' lo.toNat (hi' + 1 - lo).toNat).map fun j => slice A j (j + li) := by
    unfold intRange
    rw [List.range'_eq_map_range, List.map_map, List.map_map]
    refine List.map_congr_left fun n _ => ?_
    simp only [Function.comp]
    rw [show (lo + (n : Int)).toNat = lo.toNat + n by omega]
  rw [e, count_skipRepeats]
  by_cases h0 : (hi' + 1 - lo).toNat = 0
  · rw [h0, List.range'_zero, List.countP_nil, eq_comm, List.countP_eq_zero]
    intro j _ hj
    simp only [decide_eq_true_eq, hF, hR, h0] at hj
    omega
  rw [countP_range' (a := lo.toNat) (n := (hi' + 1 - lo).toNat)]
  · refine List.countP_congr fun j hj => ?_
    rw [List.mem_range'_1] at hj
    simp only [decide_eq_true_eq, hF, hR]
    by_cases h : j = lo.toNat
    · simp only [h, if_true, ne_eq, reduceCtorEq, not_false_eq_true, and_true]
      constructor
      · intro h'
        exact ⟨⟨⟨by omega, by omega⟩, h'⟩, fun j' e => by omega⟩
      · rintro ⟨⟨_, h'⟩, _⟩
        exact h'
    · rw [if_neg h]
      constructor
      · rintro ⟨h1, h2⟩
        refine ⟨⟨hj, h1⟩, ?_⟩
        rintro j' rfl ⟨_, h3⟩
        exact h2 h3
      · rintro ⟨⟨_, h1⟩, h2⟩
        refine ⟨h1, fun h3 => h2 (j - 1) (by omega) ⟨⟨by omega, by omega⟩, h3⟩⟩
  · omega
  · intro j hj
    simp only [decide_eq_true_eq, hF, hR] at hj
    exact hj.1.1

/-! ### The pairs -/

theorem matchString_eq (k : Nat) (distance : List α → List α → Nat) (sort : Bool) (L : Index α) (A : List α) :
    matchString k distance sort L A =
      (pyRange (if sort then A.length else A.length - k) (A.length + k + 1)).flatMap fun l =>
        (partition k l).flatMap fun p => (multiMatchAwareSubstrings k A l p.1 p.2.1 p.2.2).flatMap fun substring =>
          (lookup L l (p.1, substring)).filterMap fun B =>
            if (A.length ≤ k ∧ l ≤ k) ∨ distance A B ≤ k then some (A, B) else none := by
  unfold matchString
  refine congrArg (List.flatMap · _) (funext fun l => ?_)
  unfold lookup
  cases hLl : L.get? l with
  | none => simp
  | some Ll =>
      refine congrArg (List.flatMap · _) (funext fun p => ?_)
      obtain ⟨i, start, length⟩ := p
      refine congrArg (List.flatMap · _) (funext fun substring => ?_)
      cases hc : Ll.get? (i, substring) with
      | none => simp [hc]
      | some candidates => simp [hc]

theorem count_filterMap_pair (A B : List α) (P : List α → Prop) [DecidablePred P] (l : List (List α)) :
    (l.filterMap fun B => if P B then some (A, B) else none).count (A, B) = if P B then l.count B else 0 := by
  induction l with
  | nil => simp
  | cons x l ih =>
      rw [List.filterMap_cons]
      by_cases hx : x = B
      · subst hx
        by_cases hp : P x
        · simp only [hp, if_true, List.count_cons_self]; simp only [hp, if_true] at ih; rw [ih]
        · simp only [hp, if_false]; simp only [hp, if_false] at ih; exact ih
      · by_cases hp : P x
        · simp only [hp, if_true]
          rw [List.count_cons_of_ne (by simp [hx]), ih, List.count_cons_of_ne (by simp [hx])]
        · simp only [hp, if_false]
          rw [ih, List.count_cons_of_ne (by simp [hx])]

theorem sum_map_ite_count (l : List (List α)) (x : List α) : (l.map fun y => if y = x then 1 else 0).sum = l.count x := by
  induction l with
  | nil => rfl
  | cons y l ih => rw [List.map_cons, List.sum_cons, ih, List.count_cons]; simp [Nat.add_comm]

/-- How many times a string is paired with an earlier one. -/
theorem count_matchString {k : Nat} {distance : List α → List α → Nat} {sort : Bool} {prev : List (List α)} {L : Index α}
    (h : IndexesInOrder k prev L) (hn : prev.Nodup) {A B : List α} (hB : B ∈ prev) :
    (matchString k distance sort L A).count (A, B) =
      if ((if sort then A.length else A.length - k) ≤ B.length ∧ B.length < A.length + k + 1) ∧
        ((A.length ≤ k ∧ B.length ≤ k) ∨ distance A B ≤ k) then finds k A B else 0 := by
  rw [matchString_eq]
  have hlook : ∀ l key, (lookup L l key).count B = if B.length = l ∧ key ∈ segments k B then 1 else 0 := by
    intro l key
    rw [h l key]
    by_cases hc : B.length = l ∧ key ∈ segments k B
    · rw [List.count_filter (by simpa using hc), if_pos hc, List.count_eq_one_of_mem hn hB]
    · rw [if_neg hc, List.count_eq_zero_of_not_mem]
      intro hm
      rw [List.mem_filter] at hm
      exact hc (by simpa using hm.2)
  have hr : ∀ l, l ∈ pyRange (if sort = true then A.length else A.length - k) (A.length + k + 1) ↔
      (if sort then A.length else A.length - k) ≤ l ∧ l < A.length + k + 1 := by
    intro l
    unfold pyRange
    rw [List.mem_range'_1]
    split <;> omega
  by_cases hl : (if sort then A.length else A.length - k) ≤ B.length ∧ B.length < A.length + k + 1
  · rw [count_flatMap_single _ (by unfold pyRange; exact List.nodup_range') _ B.length]
    · rw [List.count_flatMap, partition_eq, List.map_map]
      simp only [hl, true_and]
      by_cases hcond : (A.length ≤ k ∧ B.length ≤ k) ∨ distance A B ≤ k
      · rw [if_pos hcond]
        unfold finds
        congr 1
        refine List.map_congr_left fun i hi => ?_
        rw [List.mem_range] at hi
        simp only [Function.comp]
        rw [List.count_flatMap, ← count_substrings k A B (by omega), ← sum_map_ite_count]
        congr 1
        refine List.map_congr_left fun sub _ => ?_
        simp only [Function.comp]
        rw [count_filterMap_pair A B (fun B' => (A.length ≤ k ∧ B.length ≤ k) ∨ distance A B' ≤ k), if_pos hcond, hlook]
        have : (i, sub) ∈ segments k B ↔ sub = piece (k + 1) B i := by
          rw [segments_eq, List.mem_map, piece_eq]
          constructor
          · rintro ⟨i', _, e⟩
            obtain ⟨rfl, rfl⟩ := Prod.mk.inj e
            rfl
          · rintro rfl
            exact ⟨i, List.mem_range.mpr hi, rfl⟩
        simp [this]
      · rw [if_neg hcond]
        refine List.sum_eq_zero fun x hx => ?_
        obtain ⟨i, _, rfl⟩ := List.mem_map.mp hx
        simp only [Function.comp]
        refine List.count_eq_zero_of_not_mem fun hm => ?_
        obtain ⟨sub, _, hm⟩ := List.mem_flatMap.mp hm
        obtain ⟨B', _, hm⟩ := List.mem_filterMap.mp hm
        split at hm
        · next hc => cases hm; exact hcond hc
        · cases hm
    · intro l _ hne hm
      obtain ⟨p, _, hm⟩ := List.mem_flatMap.mp hm
      obtain ⟨sub, _, hm⟩ := List.mem_flatMap.mp hm
      obtain ⟨B', hB', hm⟩ := List.mem_filterMap.mp hm
      split at hm
      · cases hm
        rw [h, List.mem_filter] at hB'
        simp only [decide_eq_true_eq] at hB'
        exact hne hB'.2.1.symm
      · cases hm
    · exact Or.inl ((hr _).mpr hl)
  · have e : ∀ {P : Prop} [Decidable P] {n : Nat}, ¬ P → (if P then n else 0) = 0 := fun h => if_neg h
    rw [e (fun g => hl g.1)]
    refine List.count_eq_zero_of_not_mem fun hm => ?_
    obtain ⟨l, hl', hm⟩ := List.mem_flatMap.mp hm
    obtain ⟨p, _, hm⟩ := List.mem_flatMap.mp hm
    obtain ⟨sub, _, hm⟩ := List.mem_flatMap.mp hm
    obtain ⟨B', hB', hm⟩ := List.mem_filterMap.mp hm
    split at hm
    · cases hm
      rw [h, List.mem_filter] at hB'
      simp only [decide_eq_true_eq] at hB'
      obtain ⟨_, rfl, _⟩ := hB'
      exact hl ((hr _).mp hl')
    · cases hm

theorem fst_mem_matchString {k : Nat} {distance : List α → List α → Nat} {sort : Bool} {L : Index α} {A : List α}
    {p : List α × List α} (h : p ∈ matchString k distance sort L A) : p.1 = A := by
  rw [matchString_eq] at h
  obtain ⟨l, _, h⟩ := List.mem_flatMap.mp h
  obtain ⟨_, _, h⟩ := List.mem_flatMap.mp h
  obtain ⟨_, _, h⟩ := List.mem_flatMap.mp h
  obtain ⟨B', _, h⟩ := List.mem_filterMap.mp h
  split at h
  · cases h; rfl
  · cases h

theorem fst_mem_clustering {k : Nat} {distance : List α → List α → Nat} {sort : Bool} {p : List α × List α} :
    ∀ {data : List (List α)} {L : Index α}, p ∈ clustering k distance sort L data → p.1 ∈ data
  | [], _, h => by simp [clustering] at h
  | x :: data, L, h => by
      unfold clustering at h
      rcases List.mem_append.mp h with h | h
      · rw [fst_mem_matchString h]; exact List.mem_cons_self
      · exact List.mem_cons_of_mem _ (fst_mem_clustering h)

theorem count_clustering {k : Nat} {distance : List α → List α → Nat} {sort : Bool} {A B : List α} {post : List (List α)}
    (hpost : A ∉ post) : ∀ (pre : List (List α)) {prev : List (List α)} {L : Index α}, IndexesInOrder k prev L → A ∉ pre →
    ∃ L', IndexesInOrder k (prev ++ pre) L' ∧
      (clustering k distance sort L (pre ++ A :: post)).count (A, B) = (matchString k distance sort L' A).count (A, B)
  | [], prev, L, h, _ => by
      refine ⟨L, by simpa using h, ?_⟩
      rw [List.nil_append, clustering, List.count_append, Nat.add_eq_left]
      exact List.count_eq_zero_of_not_mem fun hm => hpost (fst_mem_clustering hm)
  | x :: pre, prev, L, h, hA => by
      rw [List.mem_cons, not_or] at hA
      obtain ⟨L', h1, h2⟩ := count_clustering hpost pre (indexesInOrder_snoc h x) hA.2
      refine ⟨L', by simpa using h1, ?_⟩
      rw [List.cons_append, clustering, List.count_append, h2, Nat.add_eq_right]
      exact List.count_eq_zero_of_not_mem fun hm => hA.1 (fst_mem_matchString hm)

/-- A string is paired with an earlier one as many times as pieces of the earlier one are found in it, if they are close enough. -/
theorem passjoin_pair_count {k : Nat} {distance : List α → List α → Nat} (hd : ∀ a b, IsEditDistance a b (distance a b)) {sort : Bool}
    {data : List (List α)} (hn : data.Nodup) (hs : sort = true → data.Pairwise fun b a => a.length ≤ b.length) {A B : List α}
    (h : [B, A].Sublist data) :
    (WithinEdits k A B → (clustering k distance sort [] data).count (A, B) = finds k A B) ∧
      (¬ WithinEdits k A B → (clustering k distance sort [] data).count (A, B) = 0) := by
  have hd' : ∀ a b, distance a b = lev a b := fun a b => isEditDistance_iff.mp (hd a b)
  have hlen : sort = true → A.length ≤ B.length := fun e => by simpa using (hs e).sublist h
  have hm := matches_iff (k := k) hd' (sort := sort) hlen
  rw [withinEdits_iff_lev]
  constructor
  · intro hw
    obtain ⟨h1, h2, _, h4⟩ := hm.mpr hw
    obtain ⟨pre, post, rfl⟩ := List.append_of_mem (h.subset (show A ∈ [B, A] by simp))
    rw [List.nodup_append] at hn
    obtain ⟨hn1, hn2, hn3⟩ := hn
    have hA : A ∉ pre := fun g => hn3 A g A (by simp) rfl
    have hB : B ∈ pre := by
      rw [List.sublist_append_iff] at h
      obtain ⟨l1, l2, e, g1, g2⟩ := h
      cases l1 with
      | cons x l1 =>
          injection e with e1 e2
          exact g1.subset (by simp [e1])
      | nil =>
          rw [List.nil_append] at e
          subst e
          exfalso
          have hA' := (List.nodup_cons.mp hn2).1
          cases g2 with
          | cons _ g => exact hA' (g.subset (by simp))
          | cons_cons _ g => exact hA' (g.subset (by simp))
    obtain ⟨L', h5, h6⟩ := count_clustering (k := k) (distance := distance) (sort := sort) (B := B) (List.nodup_cons.mp hn2).1 pre
      (prev := []) (L := []) (by intro l key; simp [lookup, Dict.get?]) hA
    rw [h6, count_matchString h5 (by simpa using hn1) (by simpa using hB), if_pos ⟨⟨h1, h2⟩, h4⟩]
  · intro hw
    refine List.count_eq_zero_of_not_mem fun hmem => ?_
    exact hw (hm.mp ((mem_clustering (indexes_nil k)).mp hmem).2)

/-! ### A lower bound -/

omit [DecidableEq α] in
theorem finds_ge_pieces {k : Nat} {A B : List α} (hl : A.length = B.length) [∀ i, Decidable (piece (k + 1) A i = piece (k + 1) B i)] :
    (List.range (k + 1)).countP (fun i => decide (piece (k + 1) A i = piece (k + 1) B i)) ≤ finds k A B := by
  classical
  have key : ∀ (l : List Nat) (P : Nat → Bool) (g : Nat → Nat), (∀ i ∈ l, P i = true → 1 ≤ g i) → l.countP P ≤ (l.map g).sum := by
    intro l P g h
    induction l with
    | nil => simp
    | cons i l ih =>
        have h1 := ih fun j hj => h j (List.mem_cons_of_mem _ hj)
        have h2 := h i List.mem_cons_self
        rw [List.countP_cons, List.map_cons, List.sum_cons]
        split
        · next hp => have := h2 hp; omega
        · omega
  unfold finds
  refine key _ _ _ fun i hi he => ?_
  rw [List.mem_range] at hi
  simp only [decide_eq_true_eq] at he
  have hpl := piece_length (s := B) (show i ≤ k by omega)
  have h1 := segStart_mono (k := k) (l := B.length) (show i + 1 ≤ k + 1 by omega)
  have h2 := segStart_mono (k := k) (l := B.length) (show i ≤ i + 1 by omega)
  rw [segStart_last] at h1
  have hf : FoundAt k A B i (segStart k B.length i) := by
    refine ⟨?_, ?_⟩
    · unfold Reachable
      rw [cut_eq, hpl, hl]
      omega
    · unfold HasAt
      rw [hpl]
      conv => rhs; rw [← he]
      unfold piece
      rw [cut_eq, cut_eq, hl]
  rw [Nat.succ_le_iff, List.countP_pos_iff]
  have hex : ∃ j, FoundAt k A B i j := ⟨_, hf⟩
  refine ⟨Nat.find hex, ?_, ?_⟩
  · have := Nat.find_min' hex hf
    rw [List.mem_range]
    have : segStart k B.length i ≤ B.length := by omega
    omega
  · rw [decide_eq_true_eq]
    exact ⟨Nat.find_spec hex, fun j' e => Nat.find_min hex (by omega)⟩

theorem pieces_ge {k : Nat} {A B : List α} (hl : A.length = B.length) : ∀ m, m ≤ k + 1 →
    m ≤ (List.range m).countP (fun i => decide (piece (k + 1) A i = piece (k + 1) B i)) +
      (List.range (segStart k B.length m)).countP fun p => decide (A[p]? ≠ B[p]?)
  | 0, _ => Nat.zero_le _
  | m + 1, hm => by
      have ih := pieces_ge (k := k) hl m (by omega)
      have h2 := segStart_mono (k := k) (l := B.length) (show m ≤ m + 1 by omega)
      obtain ⟨d, hd⟩ := Nat.exists_eq_add_of_le h2
      rw [List.range_succ, List.countP_append, hd, List.range_eq_range' (n := _ + d), ← List.range'_append_1, List.countP_append, Nat.zero_add,
        ← List.range_eq_range']
      by_cases he : piece (k + 1) A m = piece (k + 1) B m
      · simp only [List.countP_cons, List.countP_nil, he, decide_true, if_true]
        omega
      · have : 0 < (List.range' (segStart k B.length m) d).countP fun p => decide (A[p]? ≠ B[p]?) := by
          rw [List.countP_pos_iff]
          by_contra hno
          push Not at hno
          apply he
          unfold piece
          simp only [cut_eq, hl, hd, Nat.add_sub_cancel_left]
          refine List.ext_getElem? fun p => ?_
          rw [List.getElem?_take, List.getElem?_take]
          split
          · next hp =>
              rw [List.getElem?_drop, List.getElem?_drop]
              have := hno (segStart k B.length m + p) (by rw [List.mem_range'_1]; omega)
              simpa using this
          · rfl
        omega

/-- Two strings of the same length which differ at `h` places share at least `k + 1 - h` pieces. -/
theorem finds_ge (k : Nat) {A B : List α} (hl : A.length = B.length) :
    k + 1 ≤ finds k A B + (List.range A.length).countP fun p => decide (A[p]? ≠ B[p]?) := by
  have h1 := pieces_ge (k := k) hl (k + 1) (Nat.le_refl _)
  have h2 := finds_ge_pieces (k := k) hl
  rw [segStart_last, ← hl] at h1
  omega

/-! ### The fuzzy clusters -/

/-- **C27**, fuzzy mode: how many times each string is in each cluster. The strings are read by decreasing lengths, or in order. -/
theorem passjoin_fuzzy_counts (ord : List α → List (List α) → List (List α)) (hord : ∀ a l, (ord a l).Perm l)
    (distance : List α → List α → Nat) (hd : ∀ a b, IsEditDistance a b (distance a b)) (lexLe : List α → List α → Bool)
    (htrans : ∀ a b c, lexLe a b = true → lexLe b c = true → lexLe a c = true) (htotal : ∀ a b, (lexLe a b || lexLe b a) = true)
    {data : List (List α)} (hn : data.Nodup) (k : Nat) (sort : Bool) (min : Nat) (max : Option Nat) :
    ∃ read cs, read.Perm data ∧
      (sort = true → read.Pairwise fun b a => a.length < b.length ∨ (a.length = b.length ∧ lexLe b a = true)) ∧ (sort = false → read = data) ∧
      passjoin ord lexLe data k distance sort min max .fuzzyClusters = .ok cs ∧
      (cs.Pairwise fun c d => ∀ item, d.head? = some item → item ∉ c) ∧
      ∀ c ∈ cs, SizeBetween min max c.length ∧ ∃ item rest, c = item :: rest ∧ rest ≠ [] ∧ ∀ x,
        ([x, item].Sublist read → WithinEdits k item x → rest.count x = finds k item x) ∧
        ([item, x].Sublist read → WithinEdits k item x → rest.count x = finds k x item) ∧
        (¬ (TwoItems data item x ∧ WithinEdits k item x) → x ∉ rest) := by
  have hd' : ∀ a b, distance a b = lev a b := fun a b => isEditDistance_iff.mp (hd a b)
  have hsort := passjoin_sorted lexLe htrans htotal data
  generalize hread : (if sort then data.mergeSort (sortKeyLe lexLe) else data) = read
  have hperm : read.Perm data := by
    rw [← hread]
    split
    · exact hsort.1
    · exact List.Perm.refl _
  have hlen : sort = true → read.Pairwise fun b a => a.length ≤ b.length := by
    intro e
    rw [← hread, if_pos e]
    exact hsort.2
  have hnr : read.Nodup := hperm.nodup_iff.mpr hn
  obtain ⟨leaders, h1, _⟩ := fuzzy_clusters_exact ord (clustering k distance sort [] read) min max false
  obtain ⟨cs, h2, h3, h4⟩ := fuzzy_clusters_are_stars ord hord (clustering k distance sort [] read) min max false
  refine ⟨read, cs, hperm, ?_, ?_, ?_, ?_, ?_⟩
  · intro e
    rw [← hread, if_pos e]
    refine (List.pairwise_mergeSort (le := sortKeyLe lexLe) ?_ ?_ data).imp fun {a b} g => by simpa [sortKeyLe] using g
    · intro a b c g1 g2
      simp only [sortKeyLe, Bool.or_eq_true, Bool.and_eq_true, decide_eq_true_eq] at g1 g2 ⊢
      rcases g1 with g1 | ⟨g1, g1'⟩ <;> rcases g2 with g2 | ⟨g2, g2'⟩
      · exact Or.inl (by omega)
      · exact Or.inl (by omega)
      · exact Or.inl (by omega)
      · exact Or.inr ⟨by omega, htrans _ _ _ g1' g2'⟩
    · intro a b
      have := htotal a b
      simp only [sortKeyLe, Bool.or_eq_true, Bool.and_eq_true, decide_eq_true_eq] at this ⊢
      rcases Nat.lt_trichotomy a.length b.length with h | h | h
      · exact Or.inr (Or.inl h)
      · rcases this with h' | h'
        · exact Or.inl (Or.inr ⟨h.symm, h'⟩)
        · exact Or.inr (Or.inr ⟨h, h'⟩)
      · exact Or.inl (Or.inl h)
  · intro e
    rw [← hread, if_neg (by simp [e])]
  · unfold passjoin
    simp only [hread]
    exact h2
  · refine h4.imp ?_
    intro c d h item hitem hm
    obtain ⟨g1, g2⟩ := h item hitem
    cases c with
    | nil => simp at hm
    | cons x c =>
        rcases List.mem_cons.mp hm with rfl | hm
        · simp at g2
        · exact g1 hm
  · intro c hc
    obtain ⟨hz, item, rest, rfl, hne, hmem⟩ := h3 c hc
    rw [h1] at h2
    obtain rfl := Except.ok.inj h2
    obtain ⟨a, _, e⟩ := List.mem_map.mp hc
    simp only [Bool.false_eq_true, if_false] at e
    injection e with e1 e2
    subst e1
    refine ⟨hz, a, rest, rfl, hne, fun x => ?_⟩
    have hcount : rest.count x = (clustering k distance sort [] read).count (a, x) + (clustering k distance sort [] read).count (x, a) := by
      rw [← e2]
      convert count_partners (clustering k distance sort [] read) a x
    refine ⟨fun hx hw => ?_, fun hx hw => ?_, fun hno hx => hno ?_⟩
    · rw [hcount, (passjoin_pair_count hd hnr hlen hx).1 hw, Nat.add_eq_left]
      refine List.count_eq_zero_of_not_mem fun hm => ?_
      have := ((mem_clustering (indexes_nil k)).mp hm).1
      simp only [List.not_mem_nil, false_and, false_or] at this
      exact sublist_pair_asymm hnr hx this
    · have hw' : WithinEdits k x a := by
        rw [withinEdits_iff_lev] at hw ⊢
        rwa [lev_comm]
      rw [hcount, (passjoin_pair_count hd hnr hlen hx).1 hw', Nat.add_eq_right]
      refine List.count_eq_zero_of_not_mem fun hm => ?_
      have := ((mem_clustering (indexes_nil k)).mp hm).1
      simp only [List.not_mem_nil, false_and, false_or] at this
      exact sublist_pair_asymm hnr hx this
    · have := passjoin_linked distance hd lexLe htrans htotal data k sort a x
      rw [hread] at this
      exact this.mp ((hmem x).mp hx)

/-- **C27** fails in fuzzy mode for all close strings: two strings of the same length which differ at fewer than `k` places are listed
several times. Here `h` is the number of places at which they differ. -/
theorem passjoin_fuzzy_repeats_close (ord : List α → List (List α) → List (List α)) (hord : ∀ a l, (ord a l).Perm l)
    (distance : List α → List α → Nat) (hd : ∀ a b, IsEditDistance a b (distance a b)) (lexLe : List α → List α → Bool)
    (htrans : ∀ a b c, lexLe a b = true → lexLe b c = true → lexLe a c = true) (htotal : ∀ a b, (lexLe a b || lexLe b a) = true)
    {data : List (List α)} (hn : data.Nodup) (k : Nat) (sort : Bool) (min : Nat) (max : Option Nat) :
    ∃ cs, passjoin ord lexLe data k distance sort min max .fuzzyClusters = .ok cs ∧
      ∀ item rest, item :: rest ∈ cs → ∀ x ∈ data, x ≠ item → x.length = item.length → WithinEdits k item x →
        k + 1 ≤ rest.count x + (List.range x.length).countP fun p => decide (x[p]? ≠ item[p]?) := by
  obtain ⟨read, cs, hperm, ha, hb, h, _, hcs⟩ := passjoin_fuzzy_counts ord hord distance hd lexLe htrans htotal hn k sort min max
  refine ⟨cs, h, fun item rest hc x hx hne hl hw => ?_⟩
  obtain ⟨_, item', rest', e, hr, hcount⟩ := hcs _ hc
  injection e with e1 e2
  subst e1 e2
  -- the leader is in the data
  obtain ⟨y, hy⟩ := List.exists_mem_of_ne_nil rest hr
  have hitem : item ∈ data := by
    by_contra hno
    refine (hcount y).2.2 ?_ hy
    rintro ⟨h | h, _⟩
    · exact hno (h.subset (by simp))
    · exact hno (h.subset (by simp))
  have htwo : [x, item].Sublist read ∨ [item, x].Sublist read := by
    have h1 := hperm.mem_iff.mpr hx
    have h2 := hperm.mem_iff.mpr hitem
    clear hcount hcs hperm h ha hb
    induction read with
    | nil => simp at h1
    | cons z l ih =>
        rcases List.mem_cons.mp h1 with e1 | g1
        · rcases List.mem_cons.mp h2 with e2 | g2
          · exact absurd (e1.trans e2.symm) hne
          · rw [e1]
            exact Or.inl (List.Sublist.cons_cons _ (List.singleton_sublist.mpr g2))
        · rcases List.mem_cons.mp h2 with e2 | g2
          · rw [e2]
            exact Or.inr (List.Sublist.cons_cons _ (List.singleton_sublist.mpr g1))
          · exact (ih g1 g2).imp (fun g => g.cons _) (fun g => g.cons _)
  rcases htwo with h1 | h1
  · rw [(hcount x).1 h1 hw]
    have := finds_ge k hl.symm
    have e : ((List.range x.length).countP fun p => decide (x[p]? ≠ item[p]?)) =
        (List.range item.length).countP fun p => decide (item[p]? ≠ x[p]?) := by
      rw [hl]
      exact List.countP_congr fun p _ => by simp [ne_comm]
    omega
  · rw [(hcount x).2.1 h1 hw]
    exact finds_ge k hl

/-- A realistic case: `k = 2` and one substitution. Two of the three pieces are shared, and the string is listed twice. -/
example : clustering 2 (fun a b => (a.zip b).countP fun x => x.1 ≠ x.2) false []
    ["abcdef".toList, "abcdeg".toList] =
      [("abcdeg".toList, "abcdef".toList), ("abcdeg".toList, "abcdef".toList)] ∧
    (List.range 6).countP (fun p => decide ("abcdef".toList[p]? ≠ "abcdeg".toList[p]?)) = 1 := by
  decide

end Fog.Props
