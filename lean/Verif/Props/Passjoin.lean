import Verif.Lemmas.Passjoin

/-!
# Properties of passjoin (C25-C27)
-/

namespace Fog.Props

open Fog.ClusteringUtils Fog.Passjoin Fog.Spec

variable {α : Type _} [DecidableEq α]

/-! ### C25 -/

/-- C25: the segments, numbered from 0 to `k`, put end to end are the string. -/
theorem segments_tile (k : Nat) (s : List α) :
    ((segments k s).map Prod.fst) = List.range (k + 1) ∧ ((segments k s).map Prod.snd).flatten = s := by
  rw [segments_eq, List.map_map, List.map_map]
  constructor
  · exact List.map_id _
  · have := flatten_slices s (segStart k s.length) (segStart_zero _ _) (fun i => segStart_mono (by omega)) (k + 1)
    rw [segStart_last, List.take_length] at this
    exact this

/-- C25: the lengths are some `a`, at least once, and then some `a + 1`. -/
theorem segments_lengths (k : Nat) (s : List α) :
    ∃ a small large, 0 < small ∧ small + large = k + 1 ∧
      (segments k s).map (fun x => x.2.length) = List.replicate small a ++ List.replicate large (a + 1) := by
  have hlt : s.length % (k + 1) < k + 1 := Nat.mod_lt _ (by omega)
  refine ⟨s.length / (k + 1), k + 1 - s.length % (k + 1), s.length % (k + 1), by omega, by omega, ?_⟩
  have hlen : (segments k s).map (fun x => x.2.length) = (List.range (k + 1)).map fun i =>
      s.length / (k + 1) + if k + 1 - s.length % (k + 1) ≤ i then 1 else 0 := by
    rw [segments_eq, List.map_map]
    apply List.map_congr_left
    intro i hi
    rw [List.mem_range] at hi
    have h1 := segStart_mono (k := k) (l := s.length) (show i + 1 ≤ k + 1 by omega)
    rw [segStart_last] at h1
    have h2 := segStart_succ k s.length i
    simp only [Function.comp, slice, List.length_drop, List.length_take]
    rw [Nat.min_eq_left h1, h2, Nat.add_assoc, Nat.add_sub_cancel_left]
  rw [hlen]
  conv => lhs; rw [show k + 1 = (k + 1 - s.length % (k + 1)) + s.length % (k + 1) by omega, List.range_add, List.map_append, List.map_map]
  congr 1
  · rw [List.eq_replicate_iff]
    refine ⟨by simp, ?_⟩
    intro b hb
    rw [List.mem_map] at hb
    obtain ⟨i, hi, rfl⟩ := hb
    rw [List.mem_range] at hi
    rw [show k + 1 - s.length % (k + 1) + s.length % (k + 1) = k + 1 by omega, if_neg (by omega)]
    omega
  · rw [List.eq_replicate_iff]
    refine ⟨by simp, ?_⟩
    intro b hb
    rw [List.mem_map] at hb
    obtain ⟨i, hi, rfl⟩ := hb
    rw [List.mem_range] at hi
    simp only [Function.comp]
    rw [show k + 1 - s.length % (k + 1) + s.length % (k + 1) = k + 1 by omega, if_pos (by omega)]

/-- Ten characters in three segments. -/
example : segments 2 [1, 2, 3, 4, 5, 6, 7, 8, 9, 10] = [(0, [1, 2, 3]), (1, [4, 5, 6]), (2, [7, 8, 9, 10])] := by
  decide

/-! ### C26 -/

omit [DecidableEq α] in
/-- The sorted data is a reordering in which no string is longer than an earlier one. -/
theorem passjoin_sorted (lexLe : List α → List α → Bool)
    (htrans : ∀ a b c, lexLe a b = true → lexLe b c = true → lexLe a c = true)
    (htotal : ∀ a b, (lexLe a b || lexLe b a) = true) (data : List (List α)) :
    (data.mergeSort (sortKeyLe lexLe)).Perm data ∧
      (data.mergeSort (sortKeyLe lexLe)).Pairwise (fun b a => a.length ≤ b.length) := by
  refine ⟨List.mergeSort_perm _ _, ?_⟩
  have := List.pairwise_mergeSort (le := sortKeyLe lexLe) ?_ ?_ data
  · refine this.imp ?_
    intro a b h
    simp only [sortKeyLe, Bool.or_eq_true, Bool.and_eq_true, decide_eq_true_eq] at h
    omega
  · intro a b c h1 h2
    simp only [sortKeyLe, Bool.or_eq_true, Bool.and_eq_true, decide_eq_true_eq] at h1 h2 ⊢
    rcases h1 with h1 | ⟨h1, h1'⟩ <;> rcases h2 with h2 | ⟨h2, h2'⟩
    · exact Or.inl (by omega)
    · exact Or.inl (by omega)
    · exact Or.inl (by omega)
    · exact Or.inr ⟨by omega, htrans _ _ _ h1' h2'⟩
  · intro a b
    have := htotal a b
    simp only [sortKeyLe, Bool.or_eq_true, Bool.and_eq_true, decide_eq_true_eq] at this ⊢
    rcases Nat.lt_trichotomy a.length b.length with h | h | h
    · exact Or.inr (Or.inl h)
    · rcases this with h' | h'
      · exact Or.inl (Or.inr ⟨h.symm, h'⟩)
      · exact Or.inr (Or.inr ⟨h, h'⟩)
    · exact Or.inl (Or.inl h)

/-- The pairs found, as a set: those of two strings of the data at a distance of at most `k`. -/
theorem passjoin_linked (distance : List α → List α → Nat) (hd : ∀ a b, IsEditDistance a b (distance a b))
    (lexLe : List α → List α → Bool)
    (htrans : ∀ a b c, lexLe a b = true → lexLe b c = true → lexLe a c = true)
    (htotal : ∀ a b, (lexLe a b || lexLe b a) = true) (data : List (List α)) (k : Nat) (sort : Bool) (a b : List α) :
    Linked (clustering k distance sort [] (if sort then data.mergeSort (sortKeyLe lexLe) else data)) a b ↔
      TwoItems data a b ∧ WithinEdits k a b := by
  have hd' : ∀ a b, distance a b = lev a b := fun a b => isEditDistance_iff.mp (hd a b)
  have hsort := passjoin_sorted lexLe htrans htotal data
  rw [withinEdits_iff_lev]
  have key : ∀ A B, [B, A].Sublist (if sort then data.mergeSort (sortKeyLe lexLe) else data) →
      (Matches k distance sort A B ↔ lev A B ≤ k) := by
    intro A B h
    refine matches_iff hd' fun hs => ?_
    rw [hs] at h
    simp only [if_true] at h
    have := hsort.2.sublist h
    simpa using this
  have hperm : (if sort then data.mergeSort (sortKeyLe lexLe) else data).Perm data := by
    split
    · exact hsort.1
    · exact List.Perm.refl _
  have htwo : TwoItems (if sort then data.mergeSort (sortKeyLe lexLe) else data) a b ↔ TwoItems data a b :=
    ⟨fun h => h.of_perm hperm, fun h => h.of_perm hperm.symm⟩
  rw [← htwo]
  unfold Linked
  simp only [mem_clustering (indexes_nil k), List.not_mem_nil, false_and, false_or]
  unfold TwoItems
  constructor
  · rintro (⟨h1, h2⟩ | ⟨h1, h2⟩)
    · exact ⟨Or.inr h1, (key _ _ h1).mp h2⟩
    · exact ⟨Or.inl h1, by rw [lev_comm]; exact (key _ _ h1).mp h2⟩
  · rintro ⟨h1 | h1, h2⟩
    · exact Or.inr ⟨h1, (key _ _ h1).mpr (by rw [lev_comm]; exact h2)⟩
    · exact Or.inl ⟨h1, (key _ _ h1).mpr h2⟩

/-- C26: `passjoin` returns the connected components of "being two strings of the data at most `k` edits apart". -/
theorem passjoin_components (ord : List α → List (List α) → List (List α)) (hord : ∀ a l, (ord a l).Perm l)
    (distance : List α → List α → Nat) (hd : ∀ a b, IsEditDistance a b (distance a b))
    (lexLe : List α → List α → Bool)
    (htrans : ∀ a b c, lexLe a b = true → lexLe b c = true → lexLe a c = true)
    (htotal : ∀ a b, (lexLe a b || lexLe b a) = true) (data : List (List α)) (k : Nat) (sort : Bool)
    (min : Nat) (max : Option Nat) :
    ∃ cs, passjoin ord lexLe data k distance sort min max .connectedComponents = .ok cs ∧
      IsComponents (fun a b => TwoItems data a b ∧ WithinEdits k a b)
        (fun a => ∃ b, TwoItems data a b ∧ WithinEdits k a b) (SizeBetween min max) cs := by
  unfold passjoin
  exact clusters_of_relation hord _ _ (passjoin_linked distance hd lexLe htrans htotal data k sort) min max _

/-- The hypotheses can be met: the edit distance, and the order of the code points. -/
example : (∀ a b : List Nat, IsEditDistance a b (lev a b)) ∧
    (∀ a b c : List Nat, decide (a ≤ b) = true → decide (b ≤ c) = true → decide (a ≤ c) = true) ∧
    (∀ a b : List Nat, (decide (a ≤ b) || decide (b ≤ a)) = true) := by
  refine ⟨isEditDistance_lev, ?_, ?_⟩
  · intro a b c h1 h2
    simp only [decide_eq_true_eq] at *
    exact List.le_trans h1 h2
  · intro a b
    simp only [Bool.or_eq_true, decide_eq_true_eq]
    exact List.le_total a b

/-- A substitution and an insertion apart; the distance is the number of differing letters. -/
example : clustering 2 (fun a b => (a.zip b).countP fun x => x.1 ≠ x.2) false []
    [[1, 2, 3, 4], [7, 7, 7, 7], [1, 9, 3, 4, 5]] = [([1, 9, 3, 4, 5], [1, 2, 3, 4])] := by
  decide

/-! ### C27 -/

/-- C27 is false in fuzzy mode: a pair may be found twice, and an item be listed twice in a cluster. -/
theorem passjoin_fuzzy_repeats :
    passjoin (fun _ l => l) (fun _ _ => true) [[1], [2]] 2 (fun _ _ => 1) false 2 none .fuzzyClusters =
      .ok [[[2], [1], [1]]] := by
  rfl

/-- C27, connected components: no cluster lists a string twice. The data may have repetitions, and the distance be any
function. -/
theorem passjoin_nodup_partial (ord : List α → List (List α) → List (List α)) (hord : ∀ a l, (ord a l).Perm l)
    (distance : List α → List α → Nat) (lexLe : List α → List α → Bool) (data : List (List α)) (k : Nat) (sort : Bool)
    (min : Nat) (max : Option Nat) (cs : List (List (List α)))
    (h : passjoin ord lexLe data k distance sort min max .connectedComponents = .ok cs) : ∀ c ∈ cs, c.Nodup := by
  unfold passjoin at h
  obtain ⟨cs', h1, h2⟩ := clusters_of_relation hord
    (clustering k distance sort [] (if sort then data.mergeSort (sortKeyLe lexLe) else data)) _
    (fun _ _ => Iff.rfl) min max false
  rw [h1] at h
  cases h
  intro c hc
  obtain ⟨_, a, _, h3⟩ := h2.sound c hc
  exact h3.1

end Fog.Props
