import Verif.Lemmas.Ppjoin
import Verif.Lemmas.Dedup
import Verif.Spec.SetSimilarity

/-! # The preprocessing of ppjoin keeps the token sets -/

namespace Fog.Ppjoin

variable {τ σ : Type} [LinearOrder τ] [LinearOrder σ]

open Spec (tokenSet)

/-- Tokenized records which are as good as the records. -/
structure Faithful (records : List (List τ)) (tok : List (List σ)) : Prop where
  length : tok.length = records.length
  increasing : ∀ i, Increasing (recordAt tok i)
  card : ∀ i, (recordAt tok i).length = (tokenSet records i).card
  inter : ∀ i j, common (recordAt tok i) (recordAt tok j) = (tokenSet records i ∩ tokenSet records j).card

theorem common_eq_card {x y : List τ} (hx : x.Nodup) : common x y = (x.toFinset ∩ y.toFinset).card := by
  unfold common
  rw [← List.toFinset_card_of_nodup (hx.filter _)]
  congr 1
  ext a
  simp

theorem increasing_of_sorted {l : List τ} (hn : l.Nodup) (hs : l.Pairwise (· ≤ ·)) : Increasing l := by
  have := hn.and hs
  exact this.imp fun h => lt_of_le_of_ne h.2 h.1

theorem pairwise_mergeSort_le (l : List τ) : (l.mergeSort fun a b => decide (a ≤ b)).Pairwise (· ≤ ·) := by
  have h : (l.mergeSort fun a b => decide (a ≤ b)).Pairwise fun a b => decide (a ≤ b) = true := by
    apply List.pairwise_mergeSort
    · intro a b c; simpa using le_trans
    · intro a b; simpa using le_total a b
  exact h.imp fun h => by simpa using h

/-- Sorting the images of the distinct tokens by an injection. -/
theorem faithful_of_labels {records : List (List τ)} {tok : List (List σ)} (f : τ → σ)
    (hf : ∀ r ∈ records, ∀ a ∈ r, ∀ r' ∈ records, ∀ b ∈ r', f a = f b → a = b) (hlen : tok.length = records.length)
    (hsorted : ∀ i, (recordAt tok i).Pairwise (· ≤ ·))
    (hperm : ∀ i, (recordAt tok i).Perm ((dedup ((records[i]?).getD [])).map f)) : Faithful records tok := by
  have hmem : ∀ i : Nat, ∀ a ∈ (records[i]?).getD [], ∃ r ∈ records, a ∈ r := by
    intro i a ha
    cases hr : records[i]? with
    | none => rw [hr] at ha; simp at ha
    | some r => rw [hr] at ha; exact ⟨r, List.mem_of_getElem? hr, ha⟩
  have hinj : ∀ i j : Nat, ∀ a ∈ (records[i]?).getD [], ∀ b ∈ (records[j]?).getD [], f a = f b → a = b := by
    intro i j a ha b hb hab
    obtain ⟨r, hr, har⟩ := hmem i a ha
    obtain ⟨r', hr', hbr⟩ := hmem j b hb
    exact hf r hr a har r' hr' b hbr hab
  have hnd : ∀ i, (recordAt tok i).Nodup := by
    intro i
    rw [(hperm i).nodup_iff]
    refine List.Nodup.map_on ?_ (nodup_dedup _)
    intro a ha b hb hab
    exact hinj i i a (mem_dedup.mp ha) b (mem_dedup.mp hb) hab
  have hset : ∀ i, (recordAt tok i).toFinset = (tokenSet records i).image f := by
    intro i
    ext a
    simp only [List.mem_toFinset, Finset.mem_image, tokenSet]
    rw [(hperm i).mem_iff, List.mem_map]
    simp only [mem_dedup]
  have hio : ∀ i j, Set.InjOn f ((tokenSet records i ∪ tokenSet records j : Finset τ) : Set τ) := by
    intro i j a ha b hb hab
    simp only [tokenSet, Finset.coe_union, Set.mem_union, Finset.mem_coe, List.mem_toFinset] at ha hb
    rcases ha with ha | ha <;> rcases hb with hb | hb
    · exact hinj i i a ha b hb hab
    · exact hinj i j a ha b hb hab
    · exact hinj j i a ha b hb hab
    · exact hinj j j a ha b hb hab
  refine ⟨hlen, fun i => increasing_of_sorted (hnd i) (hsorted i), ?_, ?_⟩
  · intro i
    rw [← List.toFinset_card_of_nodup (hnd i), hset i, Finset.card_image_of_injOn]
    intro a ha b hb hab
    exact hio i i (by simp [Finset.mem_coe.mp ha]) (by simp [Finset.mem_coe.mp hb]) hab
  · intro i j
    rw [common_eq_card (hnd i), hset i, hset j, ← Finset.image_inter_of_injOn _ _ ?_, Finset.card_image_of_injOn]
    · intro a ha b hb hab
      have ha' := Finset.mem_coe.mp ha
      have hb' := Finset.mem_coe.mp hb
      simp only [Finset.mem_inter] at ha' hb'
      exact hio i j (by simp [ha'.1]) (by simp [hb'.1]) hab
    · have := hio i j
      rwa [Finset.coe_union] at this

theorem recordAt_map {ρ : Type} (g : List ρ → List σ) (hg : g [] = []) (records : List (List ρ)) (i : Nat) :
    recordAt (records.map g) i = g ((records[i]?).getD []) := by
  unfold recordAt
  rw [List.getElem?_map]
  cases records[i]? <;> simp [hg]

theorem faithful_none (records : List (List τ)) : Faithful records (preprocessNone records) := by
  have hat : ∀ i, recordAt (preprocessNone records) i = sortedUniq ((records[i]?).getD []) := by
    intro i
    exact recordAt_map sortedUniq (by simp [sortedUniq, dedup]) records i
  apply faithful_of_labels id (fun _ _ _ _ _ _ _ _ h => h) (by simp [preprocessNone])
  · intro i; rw [hat]; exact pairwise_mergeSort_le _
  · intro i; rw [hat, List.map_id]; exact List.mergeSort_perm _ _

theorem faithful_crc (hash : τ → Nat) (records : List (List τ))
    (hf : ∀ r ∈ records, ∀ a ∈ r, ∀ r' ∈ records, ∀ b ∈ r', hash a = hash b → a = b) :
    Faithful records (preprocessCrc hash records) := by
  have hat : ∀ i, recordAt (preprocessCrc hash records) i =
      ((sortedUniq ((records[i]?).getD [])).map hash).mergeSort fun a b => decide (a ≤ b) := by
    intro i
    exact recordAt_map (fun r => ((sortedUniq r).map hash).mergeSort fun a b => decide (a ≤ b))
      (by simp [sortedUniq, dedup]) records i
  apply faithful_of_labels hash hf (by simp [preprocessCrc])
  · intro i; rw [hat]; exact pairwise_mergeSort_le _
  · intro i; rw [hat]
    exact (List.mergeSort_perm _ _).trans ((List.mergeSort_perm _ _).map _)

/-! ## Frequencies -/

theorem mem_keys_countTokens (records : List (List τ)) {r : List τ} (hr : r ∈ records) {w : τ} (hw : w ∈ r) :
    w ∈ Dict.keys (countTokens true records) := by
  -- inner loop
  have inner : ∀ (r : List τ) (d : Dict τ Nat), ∀ w, (w ∈ r ∨ w ∈ Dict.keys d) →
      w ∈ Dict.keys (r.foldl (fun freqs token => freqs.update token 0 (· + 1)) d) := by
    intro r
    induction r with
    | nil => intro d w hw; simpa using hw
    | cons a r ih =>
        intro d w hw
        rw [List.foldl_cons]
        apply ih
        rw [Dict.keys_update]
        rcases hw with h | h
        · rcases List.mem_cons.mp h with rfl | h
          · right; split
            · assumption
            · simp
          · exact Or.inl h
        · right; split
          · exact h
          · simp [h]
  have outer : ∀ (records : List (List τ)) (d : Dict τ Nat), ∀ w, ((∃ r ∈ records, w ∈ r) ∨ w ∈ Dict.keys d) →
      w ∈ Dict.keys (records.foldl (fun freqs record => record.foldl (fun freqs token => freqs.update token 0 (· + 1)) freqs) d) := by
    intro records
    induction records with
    | nil => intro d w hw; simpa using hw
    | cons a r ih =>
        intro d w hw
        rw [List.foldl_cons]
        apply ih
        rcases hw with ⟨r', hr', hw⟩ | h
        · rcases List.mem_cons.mp hr' with rfl | hr'
          · exact Or.inr (inner _ _ _ (Or.inl hw))
          · exact Or.inl ⟨r', hr', hw⟩
        · exact Or.inr (inner _ _ _ (Or.inr h))
  unfold countTokens
  rw [if_pos rfl]
  exact outer records [] w (Or.inl ⟨r, hr, hw⟩)

/-- The rank of a token. -/
def rank (freqs : Dict τ Nat) (w : τ) : Nat := ((sortedFreqs freqs).map Prod.fst).idxOf w

theorem mem_sortedFreqs {freqs : Dict τ Nat} {w : τ} : w ∈ (sortedFreqs freqs).map Prod.fst ↔ w ∈ Dict.keys freqs := by
  unfold sortedFreqs Dict.keys
  exact ((List.mergeSort_perm _ _).map _).mem_iff

theorem labelOf_mem {freqs : Dict τ Nat} {w : τ} (h : w ∈ Dict.keys freqs) : labelOf freqs w = .ok (rank freqs w) := by
  unfold labelOf rank
  have hm := mem_sortedFreqs.mpr h
  generalize (sortedFreqs freqs).map Prod.fst = l at hm
  have : l.idxOf? w = some (l.idxOf w) := by
    have h1 := List.idxOf_eq_getD_idxOf? (a := w) (l := l)
    cases h2 : l.idxOf? w with
    | none => exact absurd hm (List.idxOf?_eq_none_iff.mp h2)
    | some i => rw [h2] at h1; simp only [Option.getD_some] at h1; rw [h1]
  rw [this]

theorem rank_inj {freqs : Dict τ Nat} {a b : τ} (ha : a ∈ Dict.keys freqs) (h : rank freqs a = rank freqs b) : a = b := by
  unfold rank at h
  exact (List.idxOf_inj (mem_sortedFreqs.mpr ha)).mp h

theorem labelsOf_mem {freqs : Dict τ Nat} {l : List τ} (h : ∀ w ∈ l, w ∈ Dict.keys freqs) :
    labelsOf freqs l = .ok (l.map (rank freqs)) := by
  induction l with
  | nil => rfl
  | cons w l ih =>
      simp only [labelsOf, labelOf_mem (h w (by simp)), ih fun w' hw' => h w' (by simp [hw']), List.map_cons]

theorem preprocessFreq_go {freqs : Dict τ Nat} {records : List (List τ)}
    (h : ∀ r ∈ records, ∀ w ∈ r, w ∈ Dict.keys freqs) :
    preprocessFreq.go freqs records = .ok (records.map fun r => ((sortedUniq r).map (rank freqs)).mergeSort fun a b => decide (a ≤ b)) := by
  induction records with
  | nil => rfl
  | cons r records ih =>
      have h1 : labelsOf freqs (sortedUniq r) = .ok ((sortedUniq r).map (rank freqs)) := by
        apply labelsOf_mem
        intro w hw
        apply h r (by simp)
        exact mem_dedup.mp ((List.mergeSort_perm _ _).mem_iff.mp hw)
      simp only [preprocessFreq.go, h1, ih fun r' hr' => h r' (by simp [hr']), List.map_cons]

/-- With a tokenizer, frequency labels are faithful. -/
theorem faithful_freq (records : List (List τ)) :
    ∃ tok, preprocessFreq true records = .ok tok ∧ Faithful records tok := by
  have hk : ∀ r ∈ records, ∀ w ∈ r, w ∈ Dict.keys (countTokens true records) :=
    fun r hr w hw => mem_keys_countTokens records hr hw
  have hat : ∀ i, recordAt (records.map fun r => ((sortedUniq r).map (rank (countTokens true records))).mergeSort
      fun a b => decide (a ≤ b)) i =
      ((sortedUniq ((records[i]?).getD [])).map (rank (countTokens true records))).mergeSort fun a b => decide (a ≤ b) := by
    intro i
    exact recordAt_map (fun r => ((sortedUniq r).map (rank (countTokens true records))).mergeSort fun a b => decide (a ≤ b))
      (by simp [sortedUniq, dedup]) records i
  refine ⟨_, preprocessFreq_go hk, ?_⟩
  apply faithful_of_labels (rank (countTokens true records))
  · intro r hr a ha r' _ b _ hab
    exact rank_inj (hk r hr a ha) hab
  · simp
  · intro i; rw [hat]; exact pairwise_mergeSort_le _
  · intro i; rw [hat]
    exact (List.mergeSort_perm _ _).trans ((List.mergeSort_perm _ _).map _)

/-- Without tokenizer, frequency labels are missing. -/
theorem preprocessFreq_raises {records : List (List τ)} (h : ∃ r ∈ records, r ≠ []) :
    preprocessFreq false records = .error .keyError := by
  have hlabels : ∀ r : List τ, r ≠ [] → labelsOf (countTokens false ([] : List (List τ))) (sortedUniq r) = .error .keyError := by
    intro r hr
    cases hs : sortedUniq r with
    | nil =>
        exfalso
        apply hr
        rw [List.eq_nil_iff_forall_not_mem]
        intro a ha
        have : a ∈ sortedUniq r := (List.mergeSort_perm _ _).mem_iff.mpr (mem_dedup.mpr ha)
        rw [hs] at this
        simp at this
    | cons w l =>
        simp [labelsOf, labelOf, countTokens, sortedFreqs]
  have hgo : ∀ records : List (List τ), (∃ r ∈ records, r ≠ []) → preprocessFreq.go ([] : Dict τ Nat) records = .error .keyError := by
    intro records
    induction records with
    | nil => rintro ⟨r, hr, -⟩; simp at hr
    | cons r records ih =>
        intro hex
        by_cases hr : r = []
        · have : ∃ r ∈ records, r ≠ [] := by
            obtain ⟨r', hr', hne⟩ := hex
            rcases List.mem_cons.mp hr' with rfl | hr'
            · exact absurd hr hne
            · exact ⟨r', hr', hne⟩
          subst hr
          simp [preprocessFreq.go, ih this, sortedUniq, dedup, labelsOf]
        · have h1 := hlabels r hr
          simp only [countTokens, Bool.false_eq_true, if_false] at h1
          simp only [preprocessFreq.go, h1]
  unfold preprocessFreq
  simp only [countTokens, Bool.false_eq_true, if_false]
  exact hgo records h

/-! ## The order -/

theorem argsort_perm (tok : List (List σ)) : (argsort tok).Perm (List.range tok.length) := List.mergeSort_perm _ _

theorem argsort_sorted (tok : List (List σ)) :
    (argsort tok).Pairwise fun i j => (recordAt tok i).length ≤ (recordAt tok j).length := by
  have h : (argsort tok).Pairwise fun i j => decide ((recordAt tok i).length ≤ (recordAt tok j).length) = true := by
    apply List.pairwise_mergeSort
    · intro a b c; simpa using le_trans
    · intro a b; simpa using le_total _ _
  exact h.imp fun h => by simpa using h

end Fog.Ppjoin
