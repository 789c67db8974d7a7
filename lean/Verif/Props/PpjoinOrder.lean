import Verif.Props.Ppjoin

/-!
# C101: the order of tokens and of records in ppjoin
-/

namespace Fog.Props

open Ppjoin Spec

variable {τ : Type} [LinearOrder τ]

/-- The tokens which come before `w` when tokens are ordered by how many times they are in the records, then by themselves. -/
def before (records : List (List τ)) (w : τ) : Finset τ :=
  records.flatten.toFinset.filter fun v =>
    records.flatten.count v < records.flatten.count w ∨ (records.flatten.count v = records.flatten.count w ∧ v < w)

theorem countTokens_exact (records : List (List τ)) : (Dict.keys (countTokens true records)).Nodup ∧
    ∀ w, Dict.get? (countTokens true records) w = if w ∈ records.flatten then some (records.flatten.count w) else none := by
  have e : countTokens true records = records.flatten.foldl (fun (freqs : Dict τ Nat) token => freqs.update token 0 (· + 1)) [] := by
    unfold countTokens
    rw [if_pos rfl, List.foldl_flatten]
  rw [e]
  have key : ∀ (l done : List τ) (d : Dict τ Nat), (Dict.keys d).Nodup →
      (∀ w, Dict.get? d w = if w ∈ done then some (done.count w) else none) →
      (Dict.keys (l.foldl (fun freqs token => freqs.update token 0 (· + 1)) d)).Nodup ∧
      ∀ w, Dict.get? (l.foldl (fun freqs token => freqs.update token 0 (· + 1)) d) w =
        if w ∈ done ++ l then some ((done ++ l).count w) else none := by
    intro l
    induction l with
    | nil => intro done d h1 h2; simpa using ⟨h1, h2⟩
    | cons a l ih =>
        intro done d h1 h2
        have := ih (done ++ [a]) (d.update a 0 (· + 1)) (Dict.nodup_keys_update h1 _ _ _) (by
          intro w
          rw [Dict.get?_update]
          by_cases hw : w = a
          · subst hw
            by_cases hd : w ∈ done <;> simp [h2, hd, List.count_append]
            exact List.count_eq_zero_of_not_mem hd
          · have hw' : a ≠ w := fun h => hw h.symm
            simp [hw, hw', h2, List.count_append, List.count_cons_of_ne hw'])
        simpa [List.append_assoc] using this
  have := key records.flatten [] [] (by simp [Dict.keys]) (by intro w; simp [Dict.get?])
  simpa using this

theorem idxOf_sorted {R : τ → τ → Prop} [DecidableRel R] (hirr : ∀ a, ¬ R a a) (hasymm : ∀ a b, R a b → ¬ R b a) :
    ∀ (l : List τ), l.Pairwise R → ∀ w ∈ l, l.idxOf w = (l.filter fun v => decide (R v w)).length := by
  intro l
  induction l with
  | nil => simp
  | cons a l ih =>
      intro hl w hw
      obtain ⟨h1, h2⟩ := List.pairwise_cons.mp hl
      by_cases haw : a = w
      · subst haw
        rw [List.idxOf_cons_self, List.filter_cons_of_neg (by simpa using hirr a), List.filter_eq_nil_iff.mpr]
        · rfl
        · intro v hv
          simpa using hasymm _ _ (h1 v hv)
      · have hw : w ∈ l := by
          rcases List.mem_cons.mp hw with h | h
          · exact absurd h.symm haw
          · exact h
        rw [List.idxOf_cons_ne _ haw, List.filter_cons_of_pos (by simpa using h1 w hw), List.length_cons, ih h2 w hw]

theorem rank_exact (records : List (List τ)) {w : τ} (hw : w ∈ records.flatten) :
    rank (countTokens true records) w = (before records w).card := by
  obtain ⟨h1, h2⟩ := countTokens_exact records
  have hmem : ∀ v c, (v, c) ∈ countTokens true records → v ∈ records.flatten ∧ c = records.flatten.count v := by
    intro v c hv
    have := (Dict.mem_iff_get? h1).mp hv
    rw [h2] at this
    split at this
    · exact ⟨by assumption, by injection this with this; exact this.symm⟩
    · cases this
  have hkeys : ∀ v, v ∈ (sortedFreqs (countTokens true records)).map Prod.fst ↔ v ∈ records.flatten := by
    intro v
    rw [mem_sortedFreqs]
    constructor
    · intro hv
      obtain ⟨⟨v', c⟩, hv', rfl⟩ := List.mem_map.mp hv
      exact (hmem _ _ hv').1
    · intro hv
      obtain ⟨r, hr, hv⟩ := List.mem_flatten.mp hv
      exact mem_keys_countTokens records hr hv
  have hnd : ((sortedFreqs (countTokens true records)).map Prod.fst).Nodup := by
    unfold sortedFreqs
    exact ((List.mergeSort_perm _ _).map _).nodup_iff.mpr h1
  have hsorted : ((sortedFreqs (countTokens true records)).map Prod.fst).Pairwise fun a b =>
      records.flatten.count a < records.flatten.count b ∨ (records.flatten.count a = records.flatten.count b ∧ a < b) := by
    have hs : (sortedFreqs (countTokens true records)).Pairwise fun a b => decide (a.2 < b.2 ∨ (a.2 = b.2 ∧ a.1 ≤ b.1)) = true := by
      apply List.pairwise_mergeSort
      · intro a b c hab hbc
        simp only [decide_eq_true_eq] at *
        rcases hab with hab | ⟨hab, hab'⟩ <;> rcases hbc with hbc | ⟨hbc, hbc'⟩
        · left; omega
        · left; omega
        · left; omega
        · right; exact ⟨hab.trans hbc, le_trans hab' hbc'⟩
      · intro a b
        simp only [Bool.or_eq_true, decide_eq_true_eq]
        rcases Nat.lt_trichotomy a.2 b.2 with h | h | h
        · exact Or.inl (Or.inl h)
        · rcases le_total a.1 b.1 with h' | h'
          · exact Or.inl (Or.inr ⟨h, h'⟩)
          · exact Or.inr (Or.inr ⟨h.symm, h'⟩)
        · exact Or.inr (Or.inl h)
    rw [List.pairwise_map]
    have hnd' : (sortedFreqs (countTokens true records)).Pairwise fun a b => a.1 ≠ b.1 := by
      rw [← List.pairwise_map (f := Prod.fst) (R := (· ≠ ·))]; exact hnd
    have hall : ∀ a ∈ sortedFreqs (countTokens true records), a.2 = records.flatten.count a.1 := by
      intro a ha
      exact (hmem a.1 a.2 ((List.mergeSort_perm _ _).mem_iff.mp ha)).2
    refine (hs.and hnd').imp_of_mem ?_
    rintro a b ha hb ⟨h, hne⟩
    simp only [decide_eq_true_eq, hall a ha, hall b hb] at h
    rcases h with h | ⟨h, h'⟩
    · exact Or.inl h
    · exact Or.inr ⟨h, lt_of_le_of_ne h' hne⟩
  unfold rank
  rw [idxOf_sorted (by intro a h; rcases h with h | ⟨_, h⟩ <;> exact lt_irrefl _ h) (by
    rintro a b (h | ⟨h, h'⟩) (g | ⟨g, g'⟩)
    · omega
    · omega
    · omega
    · exact lt_asymm h' g') _ hsorted w ((hkeys w).mpr hw)]
  have : (((sortedFreqs (countTokens true records)).map Prod.fst).filter (fun v => decide (records.flatten.count v < records.flatten.count w ∨
      (records.flatten.count v = records.flatten.count w ∧ v < w)))).toFinset = before records w := by
    ext v
    unfold before
    simp only [List.mem_toFinset, List.mem_filter, hkeys, Finset.mem_filter, decide_eq_true_eq]
  rw [← this, List.toFinset_card_of_nodup (List.filter_sublist.nodup hnd)]

/-- **C101**: with a tokenizer and the order by frequency, a record becomes the increasing list of the labels of its tokens, where the label of a
token is the number of tokens which are in the records less often, or as often but before it. -/
theorem preprocess_freq_exact (records : List (List τ)) : ∃ tok, preprocessFreq true records = .ok tok ∧ tok.length = records.length ∧
    ∀ (i : Nat) (r : List τ) (l : List Nat), records[i]? = some r → tok[i]? = some l → l.Pairwise (· < ·) ∧
      ∀ n, n ∈ l ↔ ∃ w ∈ r, n = (before records w).card := by
  have hk : ∀ r ∈ records, ∀ w ∈ r, w ∈ Dict.keys (countTokens true records) :=
    fun r hr w hw => mem_keys_countTokens records hr hw
  refine ⟨_, preprocessFreq_go hk, by simp, ?_⟩
  intro i r l hr hl
  rw [List.getElem?_map, hr] at hl
  simp only [Option.map_some, Option.some.injEq] at hl
  have hrm := List.mem_of_getElem? hr
  have hu : ∀ w, w ∈ sortedUniq r ↔ w ∈ r := by
    intro w; unfold sortedUniq; rw [(List.mergeSort_perm _ _).mem_iff, mem_dedup]
  subst hl
  constructor
  · have h1 : (((sortedUniq r).map (rank (countTokens true records))).mergeSort fun a b => decide (a ≤ b)).Nodup := by
      refine (List.mergeSort_perm _ _).nodup_iff.mpr (List.Nodup.map_on ?_ ?_)
      · intro a ha b hb hab
        exact rank_inj (hk r hrm a ((hu a).mp ha)) hab
      · unfold sortedUniq; exact (List.mergeSort_perm _ _).nodup_iff.mpr (nodup_dedup _)
    exact increasing_of_sorted h1 (pairwise_mergeSort_le _)
  · intro n
    rw [(List.mergeSort_perm _ _).mem_iff, List.mem_map]
    constructor
    · rintro ⟨w, hw, rfl⟩
      exact ⟨w, (hu w).mp hw, rank_exact records (List.mem_flatten.mpr ⟨r, hrm, (hu w).mp hw⟩)⟩
    · rintro ⟨w, hw, rfl⟩
      exact ⟨w, (hu w).mpr hw, rank_exact records (List.mem_flatten.mpr ⟨r, hrm, hw⟩)⟩

/-- **C101**: without an order, a record becomes the increasing list of its tokens. -/
theorem preprocess_none_exact (records : List (List τ)) : (preprocessNone records).length = records.length ∧
    ∀ (i : Nat) (r l : List τ), records[i]? = some r → (preprocessNone records)[i]? = some l → l.Pairwise (· < ·) ∧ ∀ w, w ∈ l ↔ w ∈ r := by
  refine ⟨by simp [preprocessNone], ?_⟩
  intro i r l hr hl
  unfold preprocessNone at hl
  rw [List.getElem?_map, hr] at hl
  simp only [Option.map_some, Option.some.injEq] at hl
  subst hl
  unfold sortedUniq
  exact ⟨increasing_of_sorted ((List.mergeSort_perm _ _).nodup_iff.mpr (nodup_dedup _)) (pairwise_mergeSort_le _),
    fun w => by rw [(List.mergeSort_perm _ _).mem_iff, mem_dedup]⟩

/-- **C101**: records are then visited once each, the shortest first, and in their own order when they are as long. -/
theorem argsort_exact {σ : Type} [LinearOrder σ] (tok : List (List σ)) : (argsort tok).Perm (List.range tok.length) ∧
    (argsort tok).Pairwise fun i j => (recordAt tok i).length < (recordAt tok j).length ∨
      ((recordAt tok i).length = (recordAt tok j).length ∧ i < j) := by
  refine ⟨argsort_perm tok, ?_⟩
  have hnd : (argsort tok).Nodup := (argsort_perm tok).nodup_iff.mpr List.nodup_range
  rw [List.pairwise_iff_forall_sublist]
  intro i j hij
  have h := List.pairwise_iff_forall_sublist.mp (argsort_sorted tok) hij
  rcases Nat.lt_or_eq_of_le h with h | h
  · exact Or.inl h
  · refine Or.inr ⟨h, ?_⟩
    by_contra hc
    have hne : i ≠ j := List.pairwise_iff_forall_sublist.mp hnd hij
    have hlt : j < i := by omega
    have hi : i < tok.length := by
      have := (argsort_perm tok).mem_iff.mp (hij.subset (List.mem_cons_self ..))
      exact List.mem_range.mp this
    have hr : [j, i].Sublist (List.range tok.length) := by
      have h1 : [j, i].Sublist (List.range (i + 1)) := by
        rw [List.range_succ]
        exact (List.singleton_sublist.mpr (List.mem_range.mpr hlt)).append (List.Sublist.refl [i])
      exact h1.trans (List.range_sublist.mpr hi)
    have hs : [j, i].Sublist (argsort tok) := by
      unfold argsort
      refine List.pair_sublist_mergeSort ?_ ?_ ?_ hr
      · intro a b c; simpa using le_trans
      · intro a b; simpa using le_total _ _
      · simpa using le_of_eq h.symm
    exact pair_sublist_asymm hnd hij hs

-- The token 1 is twice in the records, 2 and 3 are once: their labels are 2, 0 and 1.
example : (before [[1, 3], [2, 1]] 1).card = 2 ∧ (before [[1, 3], [2, 1]] 3).card = 1 ∧
    (before [[1, 3], [2, 1]] 2).card = 0 := by decide +kernel

-- So the record [1, 3] becomes [1, 2].
example : ∃ tok l, preprocessFreq true [[1, 3], [2, 1]] = .ok tok ∧ tok[0]? = some l ∧ l.Pairwise (· < ·) ∧ ∀ n, n ∈ l ↔ n = 2 ∨ n = 1 := by
  obtain ⟨tok, h1, h2, h3⟩ := preprocess_freq_exact [[1, 3], [2, 1]]
  have hlt : 0 < tok.length := by rw [h2]; decide
  have h0 := List.getElem?_eq_getElem hlt
  obtain ⟨h4, h5⟩ := h3 0 [1, 3] tok[0] rfl h0
  refine ⟨tok, _, h1, h0, h4, fun n => ?_⟩
  have e1 : (before [[1, 3], [2, 1]] 1).card = 2 := by decide +kernel
  have e2 : (before [[1, 3], [2, 1]] 3).card = 1 := by decide +kernel
  rw [h5]
  simp only [List.mem_cons, List.not_mem_nil, or_false, exists_eq_or_imp, exists_eq_left, e1, e2]

end Fog.Props
