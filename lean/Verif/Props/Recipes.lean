import Verif.Spec.Strings16
import Verif.Props.Agreement
import Verif.Props.Levenshtein
import Verif.Props.DistanceMetric

/-!
# C108: the clusterings with the keys, blocks and distances of the library
-/

namespace Fog.Props

open Fog Spec Levenshtein ClusteringUtils Pairwise Passjoin Blocking KeyCollision

section

variable {α : Type} [DecidableEq α]

/-- Blocks which hold all similar items change nothing. -/
theorem similarInBlock_iff {κ : Type} (f : α → List κ) (similarity : α → α → Bool) (W : α → α → Prop) (hW : ∀ a b, W a b → W b a)
    (hs : ∀ a b, similarity a b = true ↔ W a b) (hf : ∀ a b, W a b → ∃ k, k ∈ f a ∧ k ∈ f b) (data : List α) (a b : α) :
    (SimilarInBlock (.blocks f) similarity data a b ∨ SimilarInBlock (.blocks f) similarity data b a) ↔ TwoItems data a b ∧ W a b := by
  unfold SimilarInBlock TwoItems blocksOf
  simp only [hs]
  constructor
  · rintro (⟨h1, _, h3⟩ | ⟨h1, _, h3⟩)
    · exact ⟨Or.inl h1, h3⟩
    · exact ⟨Or.inr h1, hW _ _ h3⟩
  · rintro ⟨h1 | h1, h2⟩
    · exact Or.inl ⟨h1, hf _ _ h2, h2⟩
    · exact Or.inr ⟨h1, hf _ _ (hW _ _ h2), hW _ _ h2⟩

theorem withinEdits_symm {n : Nat} {a b : List α} (h : WithinEdits n a b) : WithinEdits n b a := by
  rw [withinEdits_iff_lev] at h ⊢
  rwa [lev_comm]

omit [DecidableEq α] in
theorem withinDEdits_one_symm {a b : List α} (h : WithinDEdits 1 a b) : WithinDEdits 1 b a := by
  unfold WithinDEdits at *
  rw [chain_one_iff] at *
  rcases h with rfl | h
  · exact Or.inl rfl
  · refine Or.inr ?_
    cases h with
    | edit h =>
        cases h with
        | insert u v c => exact .edit (.delete u v c)
        | delete u v c => exact .edit (.insert u v c)
        | subst u v c d => exact .edit (.subst u v d c)
    | swap u v c d => exact .swap u v d c

/-- **C108**: `blocking` with `levenshtein_1d_blocks` and `levenshtein_distance_lte1`, in one process or several, returns the components
of the strings at most one edit apart. `ident` is `is` on strings: the empty string is one object. -/
theorem blocking_levenshtein (ord : List α → List (List α) → List (List α)) (hord : ∀ a l, (ord a l).Perm l)
    (setOrd : List (List α) → List (List α)) (hset : ∀ l, (setOrd l).Perm l)
    (arrival : List (List (List α × List α)) → List (List (List α × List α))) (harr : ∀ l, (arrival l).Perm l) (flag : α)
    (ident : List α → List α → Bool) (h1 : ∀ a b, ident a b = true → a = b) (h2 : ident [] [] = true) (data : List (List α))
    (min : Nat) (max : Option Nat) :
    ∃ cs cs', blockingSerial ord setOrd data (.blocks (KeyLevenshtein.levenshtein1dBlocks false flag))
        (fun a b => levenshteinDistanceLte1 (ident a b) a b) min max .connectedComponents = .ok cs ∧
      blockingParallel ord setOrd arrival data (.blocks (KeyLevenshtein.levenshtein1dBlocks false flag))
        (fun a b => levenshteinDistanceLte1 (ident a b) a b) min max .connectedComponents = .ok cs' ∧
      IsComponents (fun a b => TwoItems data a b ∧ WithinEdits 1 a b) (fun a => ∃ b, TwoItems data a b ∧ WithinEdits 1 a b)
        (SizeBetween min max) cs ∧
      IsComponents (fun a b => TwoItems data a b ∧ WithinEdits 1 a b) (fun a => ∃ b, TwoItems data a b ∧ WithinEdits 1 a b)
        (SizeBetween min max) cs' := by
  have hs : ∀ a b, levenshteinDistanceLte1 (ident a b) a b = true ↔ WithinEdits 1 a b := fun a b =>
    levenshtein_distance_lte1_iff _ _ _ (h1 a b) fun ha hb => by rw [ha, hb]; exact h2
  obtain ⟨cs, e, h⟩ := blocking_components_serial ord hord setOrd hset data (.blocks (KeyLevenshtein.levenshtein1dBlocks false flag))
    (fun a b => levenshteinDistanceLte1 (ident a b) a b) min max
  obtain ⟨cs', e', h'⟩ := blocking_components_parallel ord hord setOrd hset arrival harr data
    (.blocks (KeyLevenshtein.levenshtein1dBlocks false flag)) (fun a b => levenshteinDistanceLte1 (ident a b) a b) min max
  have hR := similarInBlock_iff (KeyLevenshtein.levenshtein1dBlocks false flag) (fun a b => levenshteinDistanceLte1 (ident a b) a b)
    (WithinEdits 1) (fun _ _ => withinEdits_symm) hs (fun a b h => levenshtein_1d_blocks_complete flag a b h) data
  exact ⟨cs, cs', e, e', IsComponents_rel hR h, IsComponents_rel hR h'⟩

/-- **C108**: the same for `damerau_levenshtein_1d_blocks` and `damerau_levenshtein_distance_lte1`, where swapping two adjacent letters is
one edit. -/
theorem blocking_damerau_levenshtein (ord : List α → List (List α) → List (List α)) (hord : ∀ a l, (ord a l).Perm l)
    (setOrd : List (List α) → List (List α)) (hset : ∀ l, (setOrd l).Perm l)
    (arrival : List (List (List α × List α)) → List (List (List α × List α))) (harr : ∀ l, (arrival l).Perm l) (flag : α)
    (ident : List α → List α → Bool) (h1 : ∀ a b, ident a b = true → a = b) (h2 : ident [] [] = true) (data : List (List α))
    (min : Nat) (max : Option Nat) :
    ∃ cs cs', blockingSerial ord setOrd data (.blocks (KeyLevenshtein.levenshtein1dBlocks true flag))
        (fun a b => damerauLevenshteinDistanceLte1 (ident a b) a b) min max .connectedComponents = .ok cs ∧
      blockingParallel ord setOrd arrival data (.blocks (KeyLevenshtein.levenshtein1dBlocks true flag))
        (fun a b => damerauLevenshteinDistanceLte1 (ident a b) a b) min max .connectedComponents = .ok cs' ∧
      IsComponents (fun a b => TwoItems data a b ∧ WithinDEdits 1 a b) (fun a => ∃ b, TwoItems data a b ∧ WithinDEdits 1 a b)
        (SizeBetween min max) cs ∧
      IsComponents (fun a b => TwoItems data a b ∧ WithinDEdits 1 a b) (fun a => ∃ b, TwoItems data a b ∧ WithinDEdits 1 a b)
        (SizeBetween min max) cs' := by
  have hs : ∀ a b, damerauLevenshteinDistanceLte1 (ident a b) a b = true ↔ WithinDEdits 1 a b := fun a b =>
    damerau_levenshtein_distance_lte1_iff _ _ _ (h1 a b) fun ha hb => by rw [ha, hb]; exact h2
  obtain ⟨cs, e, h⟩ := blocking_components_serial ord hord setOrd hset data (.blocks (KeyLevenshtein.levenshtein1dBlocks true flag))
    (fun a b => damerauLevenshteinDistanceLte1 (ident a b) a b) min max
  obtain ⟨cs', e', h'⟩ := blocking_components_parallel ord hord setOrd hset arrival harr data
    (.blocks (KeyLevenshtein.levenshtein1dBlocks true flag)) (fun a b => damerauLevenshteinDistanceLte1 (ident a b) a b) min max
  have hR := similarInBlock_iff (KeyLevenshtein.levenshtein1dBlocks true flag)
    (fun a b => damerauLevenshteinDistanceLte1 (ident a b) a b) (WithinDEdits 1) (fun _ _ => withinDEdits_one_symm) hs
    (fun a b h => damerau_levenshtein_1d_blocks_complete flag a b h) data
  exact ⟨cs, cs', e, e', IsComponents_rel hR h, IsComponents_rel hR h'⟩

/-- Equality is such an `is`. -/
example : (∀ a b : List Nat, decide (a = b) = true → a = b) ∧ decide (([] : List Nat) = []) = true ∧
    TwoItems [cps "chien", cps "loup", cps "chine"] (cps "chien") (cps "chine") ∧ WithinDEdits 1 (cps "chien") (cps "chine") :=
  ⟨fun _ _ h => of_decide_eq_true h, rfl, Or.inl (by decide), 1, Nat.le_refl 1, .cons (.swap (cps "chi") [] 101 110) (.nil _)⟩

/-! ### Keys -/

/-- The only empty key is the one of the empty string. -/
theorem nil_mem_levenshtein1dKeys {t : Bool} {flag : α} {s : List α} (h : [] ∈ KeyLevenshtein.levenshtein1dKeys t flag s) : s = [] := by
  unfold KeyLevenshtein.levenshtein1dKeys KeyLevenshtein.keysAt at h
  cases s with
  | nil => rfl
  | cons x s =>
      simp only [List.cons_append, List.mem_cons, List.mem_append, List.mem_flatMap, List.mem_range] at h
      rcases h with h | ⟨i, hi, h⟩ | h
      · simp at h
      · rcases i with _ | i
        · simp at h
        · have e : (x :: s)[i + 1]?.toList ≠ [] := by
            rw [List.getElem?_eq_getElem hi]; simp
          split_ifs at h <;> simp at h e <;> grind
      · simp at h

/-- Two strings share a key which is not empty when they share a key. -/
theorem shares_truthy_iff (t : Bool) (flag : α) (a b : List α) :
    (∃ k ks ks', some (KeyLevenshtein.levenshtein1dKeys t flag a) = some ks ∧
      some (KeyLevenshtein.levenshtein1dKeys t flag b) = some ks' ∧ (!k.isEmpty) = true ∧ k ∈ ks ∧ k ∈ ks') ↔
      ∃ k, k ∈ KeyLevenshtein.levenshtein1dKeys t flag a ∧ k ∈ KeyLevenshtein.levenshtein1dKeys t flag b := by
  constructor
  · rintro ⟨k, ks, ks', h1, h2, _, h3, h4⟩
    rw [Option.some.injEq] at h1 h2
    subst h1 h2
    exact ⟨k, h3, h4⟩
  · rintro ⟨k, h1, h2⟩
    cases k with
    | nil =>
        have e1 := nil_mem_levenshtein1dKeys h1
        have e2 := nil_mem_levenshtein1dKeys h2
        subst e1 e2
        exact ⟨[flag], _, _, rfl, rfl, rfl, by simp [KeyLevenshtein.levenshtein1dKeys], by simp [KeyLevenshtein.levenshtein1dKeys]⟩
    | cons x k => exact ⟨x :: k, _, _, rfl, rfl, rfl, h1, h2⟩

/-- **C108**, what holds of `key_collision` with `levenshtein_1d_keys` and `merge`: the clusters are the components of the strings
which are the same, or which differ by one letter replaced or added, not between two equal letters. Missing because false: an addition
between two equal letters (C06). -/
theorem key_collision_levenshtein_partial (ord : List α → List (List α) → List (List α)) (hord : ∀ a l, (ord a l).Perm l) (flag : α)
    (data : List (List α)) (hflag : ∀ s ∈ data, flag ∉ s) (min : Nat) (max : Option Nat) :
    ∃ cs, keyCollision ord (fun k : List α => !k.isEmpty) data none
        (some fun s => some (KeyLevenshtein.levenshtein1dKeys false flag s)) min max true = .ok cs ∧
      IsComponents (fun a b => a ∈ data ∧ b ∈ data ∧ (a = b ∨ ReplacesLetter a b ∨ AddsLetter a b ∨ AddsLetter b a)) (· ∈ data)
        (2 ≤ ·) cs := by
  obtain ⟨cs, h1, h2⟩ := key_collision_merge_partial ord hord (fun k : List α => !k.isEmpty) data
    (fun s => some (KeyLevenshtein.levenshtein1dKeys false flag s)) min max
  refine ⟨cs, h1, ?_⟩
  convert h2 using 3 with a b
  refine and_congr_right fun ha => and_congr_right fun hb => ?_
  rw [shares_truthy_iff, levenshtein_1d_keys_complete_partial flag a b (hflag a ha) (hflag b hb)]

/-- **C108**: on words without doubled letters they are the components of the strings at most one edit apart. -/
theorem key_collision_levenshtein_undoubled_partial (ord : List α → List (List α) → List (List α)) (hord : ∀ a l, (ord a l).Perm l)
    (flag : α) (data : List (List α)) (hflag : ∀ s ∈ data, flag ∉ s) (hd : ∀ s ∈ data, ∀ u v, s = u ++ v → ¬ Doubled u v) (min : Nat)
    (max : Option Nat) :
    ∃ cs, keyCollision ord (fun k : List α => !k.isEmpty) data none
        (some fun s => some (KeyLevenshtein.levenshtein1dKeys false flag s)) min max true = .ok cs ∧
      IsComponents (fun a b => a ∈ data ∧ b ∈ data ∧ WithinEdits 1 a b) (· ∈ data) (2 ≤ ·) cs := by
  obtain ⟨cs, h1, h2⟩ := key_collision_merge_partial ord hord (fun k : List α => !k.isEmpty) data
    (fun s => some (KeyLevenshtein.levenshtein1dKeys false flag s)) min max
  refine ⟨cs, h1, ?_⟩
  convert h2 using 3 with a b
  refine and_congr_right fun ha => and_congr_right fun hb => ?_
  rw [shares_truthy_iff]
  constructor
  · exact levenshtein_1d_keys_complete_undoubled_partial flag a b (hflag a ha) (hflag b hb) (hd a ha) (hd b hb)
  · rintro ⟨k, h3, h4⟩
    exact levenshtein_1d_keys_sound flag a b (hflag a ha) (hflag b hb) k h3 h4

/-! ### passjoin -/

/-- The pairs which `passjoin` finds with a function which is at most `k` where the edit distance is. -/
theorem passjoin_linked_of (distance : List α → List α → Nat) (data : List (List α)) (k : Nat) (j : Nat) (hj : k ≤ j)
    (h1 : ∀ a ∈ data, ∀ b ∈ data, lev a b ≤ k → distance a b ≤ k) (h2 : ∀ a ∈ data, ∀ b ∈ data, distance a b ≤ k → lev a b ≤ j)
    (lexLe : List α → List α → Bool)
    (htrans : ∀ a b c, lexLe a b = true → lexLe b c = true → lexLe a c = true)
    (htotal : ∀ a b, (lexLe a b || lexLe b a) = true) (sort : Bool) (a b : List α) :
    (TwoItems data a b ∧ WithinEdits k a b →
      Linked (clustering k distance sort [] (if sort then data.mergeSort (sortKeyLe lexLe) else data)) a b) ∧
    (Linked (clustering k distance sort [] (if sort then data.mergeSort (sortKeyLe lexLe) else data)) a b →
      TwoItems data a b ∧ WithinEdits j a b) := by
  have hsort := passjoin_sorted lexLe htrans htotal data
  rw [withinEdits_iff_lev, withinEdits_iff_lev]
  have hperm : (if sort then data.mergeSort (sortKeyLe lexLe) else data).Perm data := by
    split
    · exact hsort.1
    · exact List.Perm.refl _
  have key : ∀ A B, [B, A].Sublist (if sort then data.mergeSort (sortKeyLe lexLe) else data) →
      (lev A B ≤ k → Matches k distance sort A B) ∧ (Matches k distance sort A B → lev A B ≤ j) := by
    intro A B h
    have hA : A ∈ data := hperm.mem_iff.mp (h.subset (by simp))
    have hB : B ∈ data := hperm.mem_iff.mp (h.subset (by simp))
    have hs : sort = true → A.length ≤ B.length := by
      intro hs
      rw [hs] at h
      simp only [if_true] at h
      have := hsort.2.sublist h
      simpa using this
    constructor
    · intro hk
      have := (matches_iff (distance := lev) (fun _ _ => rfl) hs).mpr hk
      unfold Matches at this ⊢
      exact ⟨this.1, this.2.1, this.2.2.1, Or.inr (h1 A hA B hB hk)⟩
    · rintro ⟨_, _, _, h | h⟩
      · have := lev_le_max A B
        omega
      · exact h2 A hA B hB h
  have htwo : TwoItems (if sort then data.mergeSort (sortKeyLe lexLe) else data) a b ↔ TwoItems data a b :=
    ⟨fun h => h.of_perm hperm, fun h => h.of_perm hperm.symm⟩
  rw [← htwo]
  unfold Linked
  simp only [mem_clustering (indexes_nil k), List.not_mem_nil, false_and, false_or]
  unfold TwoItems
  constructor
  · rintro ⟨h1 | h1, h2⟩
    · exact Or.inr ⟨h1, (key _ _ h1).1 (by rw [lev_comm]; exact h2)⟩
    · exact Or.inl ⟨h1, (key _ _ h1).1 h2⟩
  · rintro (⟨h1, h2⟩ | ⟨h1, h2⟩)
    · exact ⟨Or.inr h1, (key _ _ h1).2 h2⟩
    · exact ⟨Or.inl h1, by rw [lev_comm]; exact (key _ _ h1).2 h2⟩

/-- Two different items which are linked are in the same cluster. -/
theorem components_pair {R : α → α → Prop} {data : List α} (hR : ∀ a b, R a b → a ∈ data ∧ b ∈ data) {cs : List (List α)}
    (h : IsComponents R (fun a => ∃ b, R a b) (SizeBetween 2 none) cs) {a b : α} (hab : a ≠ b) (hr : R a b) :
    ∃ c ∈ cs, a ∈ c ∧ b ∈ c := by
  have hfin : ∃ l, IsComponentOf R a l := by
    classical
    refine ⟨(dedup data).filter fun x => Connected R a x, (nodup_dedup data).filter _, fun x => ?_⟩
    rw [List.mem_filter, mem_dedup]
    simp only [decide_eq_true_eq, and_iff_right_iff_imp]
    intro hc
    have : ∀ x y, Connected R x y → x ∈ data → y ∈ data := by
      intro x y h
      induction h with
      | refl => exact id
      | step hab _ ih => exact fun _ => ih (hR _ _ hab).2
    exact this a x hc (hR a b hr).1
  obtain ⟨l, hl⟩ := hfin
  have hal : a ∈ l := (hl.2 a).mpr (.refl a)
  have hbl : b ∈ l := (hl.2 b).mpr (.step hr (.refl b))
  have hlen : 2 ≤ l.length := by
    match l, hal, hbl with
    | [x], h1, h2 =>
        rw [List.mem_singleton] at h1 h2
        exact absurd (h1.trans h2.symm) hab
    | _ :: _ :: _, _, _ => simp
  obtain ⟨c, hc, hac⟩ := h.complete a ⟨b, hr⟩ l hl ⟨hlen, by simp⟩
  obtain ⟨_, x, _, hx⟩ := h.sound c hc
  exact ⟨c, hc, hac, (hx.2 b).mpr (((hx.2 a).mp hac).trans (.single hr))⟩

end

/-- **C108**: `passjoin` with `limited_levenshtein_distance`, limited to the same `k`, returns the components of the strings at most `k`
edits apart. -/
theorem passjoin_limited_levenshtein (ord : List Nat → List (List Nat) → List (List Nat)) (hord : ∀ a l, (ord a l).Perm l)
    (lexLe : List Nat → List Nat → Bool) (htrans : ∀ a b c, lexLe a b = true → lexLe b c = true → lexLe a c = true)
    (htotal : ∀ a b, (lexLe a b || lexLe b a) = true) (data : List (List Nat)) (hdata : ∀ s ∈ data, Plain16 s) (k : Nat)
    (hk : k + 1 < 2 ^ 32) (sort : Bool) (min : Nat) (max : Option Nat) :
    ∃ cs, passjoin ord lexLe data k (limitedLevenshteinDistance k) sort min max .connectedComponents = .ok cs ∧
      IsComponents (fun a b => TwoItems data a b ∧ WithinEdits k a b)
        (fun a => ∃ b, TwoItems data a b ∧ WithinEdits k a b) (SizeBetween min max) cs := by
  unfold passjoin
  have key : ∀ a ∈ data, ∀ b ∈ data, limitedLevenshteinDistance k a b = if lev a b ≤ k then lev a b else k + 1 := fun a ha b hb =>
    limited_levenshtein_distance_partial k _ _ hk (fun _ => (hdata a ha).1) (fun _ => (hdata b hb).1) (hdata a ha).2 (hdata b hb).2 _
      (isEditDistance_lev _ _)
  refine clusters_of_relation hord _ _ (fun a b => ?_) min max _
  have := passjoin_linked_of (limitedLevenshteinDistance k) data k k (Nat.le_refl k)
    (fun a ha b hb h => by rw [key a ha b hb, if_pos h]; exact h)
    (fun a ha b hb h => by
      rw [key a ha b hb] at h
      split at h <;> omega) lexLe htrans htotal sort a b
  exact ⟨this.2, this.1⟩

/-- **C108**, what holds of `passjoin` with `levenshtein_distance`: strings at most `k` edits apart are in the same cluster, and in a
cluster strings are linked by steps of at most `k + 1` edits. Missing because false: steps of at most `k` edits. -/
theorem passjoin_levenshtein_partial (ord : List Nat → List (List Nat) → List (List Nat)) (hord : ∀ a l, (ord a l).Perm l)
    (lexLe : List Nat → List Nat → Bool) (htrans : ∀ a b c, lexLe a b = true → lexLe b c = true → lexLe a c = true)
    (htotal : ∀ a b, (lexLe a b || lexLe b a) = true) (data : List (List Nat)) (hdata : ∀ s ∈ data, ∀ c ∈ s, c < 65536) (k : Nat)
    (sort : Bool) :
    ∃ cs, passjoin ord lexLe data k levenshteinDistance sort 2 none .connectedComponents = .ok cs ∧
      (∀ a b, a ≠ b → TwoItems data a b → WithinEdits k a b → ∃ c ∈ cs, a ∈ c ∧ b ∈ c) ∧
      ∀ c ∈ cs, ∀ a ∈ c, ∀ b ∈ c, Connected (fun a b => TwoItems data a b ∧ WithinEdits (k + 1) a b) a b := by
  have key : ∀ a ∈ data, ∀ b ∈ data, levenshteinDistance a b ≤ lev a b ∧ lev a b ≤ levenshteinDistance a b + 1 := by
    intro a ha b hb
    obtain ⟨d, h1, h2⟩ := levenshtein_distance_within_one_partial a b (hdata a ha) (hdata b hb)
    rwa [← isEditDistance_iff.mp h1]
  have hl := fun a b => passjoin_linked_of levenshteinDistance data k (k + 1) (Nat.le_succ k)
    (fun a ha b hb h => Nat.le_trans (key a ha b hb).1 h)
    (fun a ha b hb h => by have := (key a ha b hb).2; omega) lexLe htrans htotal sort a b
  unfold passjoin
  obtain ⟨cs, h1, h2⟩ := clusters_of_relation hord (clustering k levenshteinDistance sort []
    (if sort then data.mergeSort (sortKeyLe lexLe) else data)) _ (fun a b => Iff.rfl) 2 none false
  have hmem : ∀ {a b}, TwoItems data a b → a ∈ data ∧ b ∈ data := by
    rintro a b (h | h) <;> exact ⟨h.subset (by simp), h.subset (by simp)⟩
  refine ⟨cs, h1, fun a b hab ht hw => ?_, fun c hc a ha b hb => ?_⟩
  · exact components_pair (fun a b h => hmem ((hl a b).2 h).1) h2 hab ((hl a b).1 ⟨ht, hw⟩)
  · obtain ⟨_, x, _, hx⟩ := h2.sound c hc
    have hxa := (hx.2 a).mp ha
    have hxb := (hx.2 b).mp hb
    have hsym := hxa.symm fun a b h => Or.symm h
    exact (hsym.trans hxb).mono fun a b h => (hl a b).2 h

open Fog.Quickjoin in
/-- **C108**: when it ends, `quickjoin` with `limited_levenshtein_distance` and a radius up to the limit returns the components of the
strings at most that many edits apart. -/
theorem quickjoin_limited_levenshtein (ord : {s // Plain16 s} → List {s // Plain16 s} → List {s // Plain16 s})
    (hord : ∀ a l, (ord a l).Perm l)
    (arrival : List (List ({s // Plain16 s} × {s // Plain16 s})) → List (List ({s // Plain16 s} × {s // Plain16 s})))
    (harr : ∀ l, (arrival l).Perm l) (data : List {s // Plain16 s}) (limit radius : Nat) (hl : limit + 1 < 2 ^ 32) (hr : radius ≤ limit)
    (block_size min : Nat) (max : Option Nat) (pivots : Pivots {s // Plain16 s}) (beta : ℚ) (solver : Solver {s // Plain16 s} ℚ)
    (hv : solver.vp_tree = false) (fuel : Nat) (result : Py (List (List {s // Plain16 s})))
    (h : quickjoin ord arrival data (radius : ℚ) (fun a b => (limitedLevenshteinDistance limit a b : ℚ)) block_size min max
      .connectedComponents pivots beta solver fuel = some result) :
    ∃ cs, result = .ok cs ∧
      IsComponents (fun a b => TwoItems data a b ∧ WithinEdits radius a.1 b.1)
        (fun a => ∃ b, TwoItems data a b ∧ WithinEdits radius a.1 b.1) (SizeBetween min max) cs := by
  obtain ⟨cs, h1, h2⟩ := quickjoin_components ord hord arrival harr data _ _
    (limited_levenshtein_distance_metric_partial limit hl).toIsPseudoMetric block_size min max pivots beta solver hv fuel result h
  refine ⟨cs, h1, IsComponents_rel (fun a b => and_congr_right fun _ => ?_) h2⟩
  have key : limitedLevenshteinDistance limit a b = if lev a.1 b.1 ≤ limit then lev a.1 b.1 else limit + 1 :=
    limited_levenshtein_distance_partial limit _ _ hl (fun _ => a.2.1) (fun _ => b.2.1) a.2.2 b.2.2 _ (isEditDistance_lev _ _)
  rw [withinEdits_iff_lev, key]
  have : (if lev a.1 b.1 ≤ limit then lev a.1 b.1 else limit + 1) ≤ radius ↔ lev a.1 b.1 ≤ radius := by
    split <;> omega
  rw [← this]
  exact Nat.cast_le

/-- Such data: short strings, and the order of the code points. -/
example : (∀ s ∈ [cps "chien", cps "chine", cps "loup"], Plain16 s ∧ 0 ∉ s ∧ s.Nodup) ∧ (2 : Nat) + 1 < 2 ^ 32 ∧
    (∀ a b c : List Nat, decide (a ≤ b) = true → decide (b ≤ c) = true → decide (a ≤ c) = true) ∧
    (∀ a b : List Nat, (decide (a ≤ b) || decide (b ≤ a)) = true) := by
  refine ⟨?_, by decide, ?_, ?_⟩
  · unfold Plain16
    decide
  · intro a b c h1 h2
    simp only [decide_eq_true_eq] at *
    exact List.le_trans h1 h2
  · intro a b
    simp only [Bool.or_eq_true, decide_eq_true_eq]
    exact List.le_total a b

/-- Words without a doubled letter, in which the flag is not found. -/
example : ∀ s ∈ [[1, 2, 3], [1, 2]], 0 ∉ s ∧ ∀ u v, s = u ++ v → ¬ Doubled u v := by
  intro s hs
  refine ⟨by revert s; decide, ?_⟩
  rintro u v rfl ⟨x, h1, h2⟩
  have hn : (u ++ v).Nodup := by
    revert hs
    generalize u ++ v = s
    revert s
    decide
  exact (List.nodup_append.mp hn).2.2 x (List.mem_of_getLast? h1) x (List.mem_of_mem_head? h2) rfl

/-- What is found without sorting, whatever the distance: the letter `a` is a segment of the first string. -/
theorem clustering_aaz (d : List Nat → List Nat → Nat) (hd : d (cps "abcz") (cps "aaz") = 1) :
    clustering 1 d false [] [cps "aaz", cps "abcz"] = [(cps "abcz", cps "aaz")] := by
  simp [cps] at hd
  simp [cps, clustering, matchString, indexString, segments, partition, multiMatchAwareSubstrings, multiMatchAwareInterval, skipRepeats,
    intRange, pyRange, slice, Dict.update, Dict.get?, Dict.set, List.range_succ, List.range', hd]

/-- **C108 is false** of `passjoin` with `levenshtein_distance`: the clusters depend on whether strings are sorted. Two strings which are
two edits apart, for which the function gives one in both directions, are linked for one edit without sorting and not with it, since they
share no segment. -/
theorem passjoin_levenshtein_sorting (lexLe : List Nat → List Nat → Bool) :
    levenshteinDistance (cps "aaz") (cps "abcz") = 1 ∧ levenshteinDistance (cps "abcz") (cps "aaz") = 1 ∧
    ¬ WithinEdits 1 (cps "aaz") (cps "abcz") ∧
    passjoin (fun _ l => l) lexLe [cps "aaz", cps "abcz"] 1 levenshteinDistance false 2 none .connectedComponents =
      .ok [[cps "abcz", cps "aaz"]] ∧
    passjoin (fun _ l => l) lexLe [cps "aaz", cps "abcz"] 1 levenshteinDistance true 2 none .connectedComponents = .ok [] := by
  have h2 : levenshteinDistance (cps "abcz") (cps "aaz") = 1 := by
    simp [cps, levenshteinDistance, levenshteinOrdered, Levenshtein.suffixLoop, Levenshtein.prefixLoop]
  refine ⟨?_, h2, ?_, ?_, ?_⟩
  · simp [cps, levenshteinDistance, levenshteinOrdered, Levenshtein.suffixLoop, Levenshtein.prefixLoop]
  · rw [withinEdits_iff_lev]
    simp [cps, lev_cons_cons]
  · unfold passjoin
    simp only [Bool.false_eq_true, if_false]
    rw [clustering_aaz _ h2]
    simp [cps, clustersFromPairs, makeGraph, addPair, add, components, search, iterate, sizeOk, Dict.update, Dict.get?, Dict.set]
    rfl
  · have : [cps "aaz", cps "abcz"].mergeSort (sortKeyLe lexLe) = [cps "abcz", cps "aaz"] := by
      simp [cps, List.mergeSort, List.MergeSort.Internal.splitInTwo, sortKeyLe]
    unfold passjoin
    simp only [if_true]
    rw [this]
    rfl

end Fog.Props
