import Verif.Lemmas.PpjoinPreprocess
import Verif.Lemmas.PpjoinHelpers
import Verif.Spec.SetSimilarity
import Verif.Spec.Cosine
import Mathlib.Data.Rat.Floor

/-!
# C31, C32, C33: ppjoin, ppjoin+ and all_pairs
-/

namespace Fog.Props

open Ppjoin Spec

variable {τ : Type} [LinearOrder τ]

/-- The hash, if any, tells the tokens apart. -/
def NoCollision (records : List (List τ)) : Ppjoin.Ordering τ → Prop
  | .crc32 hash => ∀ r ∈ records, ∀ a ∈ r, ∀ r' ∈ records, ∀ b ∈ r', hash a = hash b → a = b
  | _ => True

/-- Whatever the ordering, the join is done on faithful records. -/
theorem ppjoin_preprocessed {K : Type} [Field K] [LinearOrder K] [FloorRing K] {h : Helper K} {config : Config}
    {tokenizer : Bool} {records : List (List τ)} {ordering : Ppjoin.Ordering τ} (hcrc : NoCollision records ordering)
    {out : List (Nat × Nat)} (hout : ppjoinRecords h config tokenizer records ordering = .ok out) :
    ∃ (σ : Type) (_ : LinearOrder σ) (tok : List (List σ)), Faithful records tok ∧ ppjoin h config tok = .ok out := by
  cases ordering with
  | none => exact ⟨τ, inferInstance, _, faithful_none records, hout⟩
  | crc32 hash => exact ⟨Nat, inferInstance, _, faithful_crc hash records hcrc, hout⟩
  | freq =>
      obtain ⟨tok, htok, hf⟩ := faithful_freq records
      cases tokenizer with
      | true =>
          simp only [ppjoinRecords, htok] at hout
          exact ⟨Nat, inferInstance, tok, hf, hout⟩
      | false =>
          by_cases hne : ∃ r ∈ records, r ≠ []
          · simp [ppjoinRecords, preprocessFreq_raises hne] at hout
          · have hall : ∀ r ∈ records, r = [] := by
              intro r hr
              by_contra hc
              exact hne ⟨r, hr, hc⟩
            have hcount : ∀ rs : List (List τ), (∀ r ∈ rs, r = []) → countTokens true rs = countTokens false rs := by
              intro rs
              unfold countTokens
              simp only [if_true, Bool.false_eq_true, if_false]
              induction rs with
              | nil => intro _; rfl
              | cons r rs ih =>
                  intro hr
                  rw [List.foldl_cons, hr r (by simp), List.foldl_nil]
                  exact ih fun r' hr' => hr r' (by simp [hr'])
            have heq : preprocessFreq false records = preprocessFreq true records := by
              unfold preprocessFreq
              rw [hcount records hall]
            simp only [ppjoinRecords, heq, htok] at hout
            exact ⟨Nat, inferInstance, tok, hf, hout⟩

theorem pair_sublist_asymm {l : List Nat} (hl : l.Nodup) {a b : Nat} (h1 : [a, b].Sublist l) (h2 : [b, a].Sublist l) : False := by
  induction l with
  | nil => simp at h1
  | cons c l ih =>
      obtain ⟨hc, hl⟩ := List.nodup_cons.mp hl
      cases h1 with
      | cons _ h1 =>
          cases h2 with
          | cons _ h2 => exact ih hl h1 h2
          | cons_cons _ h2 => exact hc (h1.subset (by simp))
      | cons_cons _ h1 =>
          cases h2 with
          | cons _ h2 => exact hc (h2.subset (by simp))
          | cons_cons _ h2 => exact hc (h2.subset (by simp))

/-- Pairs yielded for any helper. -/
theorem ppjoin_sound_any {K : Type} [Field K] [LinearOrder K] [FloorRing K] {h : Helper K} {config : Config}
    {tokenizer : Bool} {records : List (List τ)} {ordering : Ppjoin.Ordering τ} (hcrc : NoCollision records ordering)
    {out : List (Nat × Nat)} (hout : ppjoinRecords h config tokenizer records ordering = .ok out) :
    out.Nodup ∧ ∀ p ∈ out, p.1 < records.length ∧ p.2 < records.length ∧ p.1 ≠ p.2 ∧ (p.2, p.1) ∉ out ∧
      h.threshold ≤ h.computeSimilarity (tokenSet records p.1).card (tokenSet records p.2).card
        (((tokenSet records p.1 ∩ tokenSet records p.2).card : Nat) : Int) := by
  obtain ⟨σ, _, tok, hf, hj⟩ := ppjoin_preprocessed hcrc hout
  have hnd : (argsort tok).Nodup := (argsort_perm tok).nodup_iff.mpr List.nodup_range
  obtain ⟨h1, h2⟩ := join_sound (M := 0) hf.increasing (order := argsort tok) (prev := []) (by simpa using hnd)
    (fun j => (Inv.empty h tok False 0).congr fun c cp => by simp [Indexed]) hj
  refine ⟨h1, ?_⟩
  intro p hp
  obtain ⟨g1, g2, g3⟩ := h2 p hp
  rw [List.nil_append] at g1
  have hlt : ∀ i ∈ argsort tok, i < records.length := by
    intro i hi
    have := (argsort_perm tok).mem_iff.mp hi
    rw [hf.length] at this
    exact List.mem_range.mp this
  refine ⟨hlt _ (g1.subset (by simp)), hlt _ (g1.subset (by simp)), ?_, ?_, ?_⟩
  · have := hnd.sublist g1
    simp only [List.nodup_cons, List.mem_singleton] at this
    exact fun heq => this.1 heq.symm
  · intro hm
    have := (h2 _ hm).1
    rw [List.nil_append] at this
    exact pair_sublist_asymm hnd g1 this
  · rw [hf.card, hf.card, hf.inter] at g3
    exact g3

theorem card_union_cast {A B : Finset τ} {K : Type} [Field K] :
    ((A ∪ B).card : K) = (A.card : K) + B.card - ((A ∩ B).card : K) := by
  have := Finset.card_union_add_card_inter A B
  have h2 : ((A ∪ B).card : K) + ((A ∩ B).card : K) = (A.card : K) + B.card := by exact_mod_cast congrArg (Nat.cast (R := K)) this
  rw [← h2]; ring

/-- **C31** for Jaccard: with any of the three algorithms and any ordering of tokens, every pair yielded is a pair of
distinct records whose similarity is at least the threshold, up to epsilon, and no pair is yielded twice, in whichever
order. -/
theorem ppjoin_jaccard_sound {t : ℚ} {config : Config} {tokenizer : Bool} {records : List (List τ)}
    {ordering : Ppjoin.Ordering τ} (hcrc : NoCollision records ordering) {out : List (Nat × Nat)}
    (hout : ppjoinRecords (jaccardHelper t) config tokenizer records ordering = .ok out) :
    out.Nodup ∧ ∀ p ∈ out, p.1 < records.length ∧ p.2 < records.length ∧ p.1 ≠ p.2 ∧ (p.2, p.1) ∉ out ∧
      t - 1 / 1000000 ≤ jaccard (tokenSet records p.1) (tokenSet records p.2) := by
  obtain ⟨h1, h2⟩ := ppjoin_sound_any hcrc hout
  refine ⟨h1, fun p hp => ?_⟩
  obtain ⟨g1, g2, g3, g4, g5⟩ := h2 p hp
  refine ⟨g1, g2, g3, g4, ?_⟩
  simp only [jaccardHelper, epsilon, Int.cast_natCast] at g5
  rw [jaccard, card_union_cast]
  linarith

/-- **C31** for Dice. -/
theorem ppjoin_dice_sound {t : ℚ} {config : Config} {tokenizer : Bool} {records : List (List τ)}
    {ordering : Ppjoin.Ordering τ} (hcrc : NoCollision records ordering) {out : List (Nat × Nat)}
    (hout : ppjoinRecords (diceHelper t) config tokenizer records ordering = .ok out) :
    out.Nodup ∧ ∀ p ∈ out, p.1 < records.length ∧ p.2 < records.length ∧ p.1 ≠ p.2 ∧ (p.2, p.1) ∉ out ∧
      t - 1 / 1000000 ≤ dice (tokenSet records p.1) (tokenSet records p.2) := by
  obtain ⟨h1, h2⟩ := ppjoin_sound_any hcrc hout
  refine ⟨h1, fun p hp => ?_⟩
  obtain ⟨g1, g2, g3, g4, g5⟩ := h2 p hp
  refine ⟨g1, g2, g3, g4, ?_⟩
  simp only [diceHelper, epsilon, Int.cast_natCast] at g5
  rw [dice]
  push_cast
  linarith

/-- **C31** for the binary cosine. -/
theorem ppjoin_cosine_sound {t : ℝ} {config : Config} {tokenizer : Bool} {records : List (List τ)}
    {ordering : Ppjoin.Ordering τ} (hcrc : NoCollision records ordering) {out : List (Nat × Nat)}
    (hout : ppjoinRecords (binaryCosineHelper t) config tokenizer records ordering = .ok out) :
    out.Nodup ∧ ∀ p ∈ out, p.1 < records.length ∧ p.2 < records.length ∧ p.1 ≠ p.2 ∧ (p.2, p.1) ∉ out ∧
      t - 1 / 1000000 ≤ binaryCosine (tokenSet records p.1) (tokenSet records p.2) := by
  obtain ⟨h1, h2⟩ := ppjoin_sound_any hcrc hout
  refine ⟨h1, fun p hp => ?_⟩
  obtain ⟨g1, g2, g3, g4, g5⟩ := h2 p hp
  refine ⟨g1, g2, g3, g4, ?_⟩
  simp only [binaryCosineHelper, epsilon, Int.cast_natCast] at g5
  rw [binaryCosine]
  linarith

/-! ## Completeness -/

/-- The frequency ordering works only with a tokenizer. -/
def Counted (tokenizer : Bool) : Ppjoin.Ordering τ → Prop
  | .freq => tokenizer = true
  | _ => True

theorem ppjoin_prepared {K : Type} [Field K] [LinearOrder K] [FloorRing K] (h : Helper K) (config : Config)
    {tokenizer : Bool} (records : List (List τ)) {ordering : Ppjoin.Ordering τ} (hcrc : NoCollision records ordering)
    (hc : Counted tokenizer ordering) :
    ∃ (σ : Type) (_ : LinearOrder σ) (tok : List (List σ)), Faithful records tok ∧
      ppjoinRecords h config tokenizer records ordering = ppjoin h config tok := by
  cases ordering with
  | none => exact ⟨τ, inferInstance, _, faithful_none records, rfl⟩
  | crc32 hash => exact ⟨Nat, inferInstance, _, faithful_crc hash records hcrc, rfl⟩
  | freq =>
      obtain ⟨tok, htok, hf⟩ := faithful_freq records
      simp only [Counted] at hc
      subst hc
      exact ⟨Nat, inferInstance, tok, hf, by simp only [ppjoinRecords, htok]⟩

theorem ppjoin_complete_between {K : Type} [Field K] [LinearOrder K] [IsStrictOrderedRing K] [FloorRing K] {h : Helper K}
    {Similar : Nat → Nat → Nat → Prop} {L N : Nat} (hlaw : LawfulBetween L N h Similar) (hsymm : ∀ a b o, Similar a b o → Similar b a o)
    {config : Config}
    {tokenizer : Bool} {records : List (List τ)} {ordering : Ppjoin.Ordering τ} (hcrc : NoCollision records ordering)
    (hc : Counted tokenizer ordering) (hne : ∀ i < records.length, L ≤ (tokenSet records i).card)
    (hN : ∀ i < records.length, (tokenSet records i).card ≤ N) :
    ∃ out, ppjoinRecords h config tokenizer records ordering = .ok out ∧
      ∀ i j, i < records.length → j < records.length → i ≠ j →
        Similar (tokenSet records i).card (tokenSet records j).card (tokenSet records i ∩ tokenSet records j).card →
        (config.all_pairs = false → ∀ k c : Nat, ((k = i ∧ c = j) ∨ (k = j ∧ c = i)) →
          (tokenSet records c).card ≤ (tokenSet records k).card →
          ¬ (((tokenSet records k).card : K) - h.threshold <
            ((h.requireOverlap (tokenSet records k).card (tokenSet records c).card : Int) : K))) →
        (i, j) ∈ out ∨ (j, i) ∈ out := by
  obtain ⟨σ, _, tok, hf, hj⟩ := ppjoin_prepared h config records hcrc hc
  rw [hj]
  have hnd : (argsort tok).Nodup := (argsort_perm tok).nodup_iff.mpr List.nodup_range
  have hmem : ∀ i, i ∈ argsort tok ↔ i < records.length := by
    intro i
    rw [(argsort_perm tok).mem_iff, hf.length, List.mem_range]
  have hcard : ∀ i ∈ argsort tok, L ≤ (recordAt tok i).length := by
    intro i hi
    rw [hf.card]
    exact hne i ((hmem i).mp hi)
  have hlenN : ∀ i ∈ argsort tok, (recordAt tok i).length ≤ N := by
    intro i hi
    rw [hf.card]
    exact hN i ((hmem i).mp hi)
  -- a bound below all minimal lengths
  have hbound : ∃ M : Int, ∀ k ∈ argsort tok, M ≤ h.minPossibleLength (recordAt tok k).length :=
    ⟨h.minPossibleLength 0, fun k hk => hlaw.min_mono _ _ (Nat.zero_le _) (hlenN k hk)⟩
  obtain ⟨M, hM⟩ := hbound
  obtain ⟨out, hout, hcomp⟩ := join_complete hlaw hf.increasing (order := argsort tok) (prev := [])
    (by simpa using hlenN) (by simpa using hcard) (by simpa using hnd) (by simpa using argsort_sorted tok) hM
    (fun j => (Inv.empty h tok True M).congr fun c cp => by simp [Indexed])
  refine ⟨out, hout, ?_⟩
  intro i j hi hj' hij hs hpos
  simp only [List.nil_append] at hcomp
  -- in which order they come
  have key : ∀ a b, a < records.length → b < records.length → [a, b].Sublist (argsort tok) →
      ((a = i ∧ b = j) ∨ (a = j ∧ b = i)) → (b, a) ∈ out := by
    intro a b ha hb hsub hab
    apply hcomp a b hsub ((hmem b).mpr hb)
    · rw [hf.card, hf.card, hf.inter]
      rcases hab with ⟨rfl, rfl⟩ | ⟨rfl, rfl⟩
      · rw [Finset.inter_comm]; exact hsymm _ _ _ hs
      · exact hs
    · intro hap
      rw [hf.card, hf.card]
      apply hpos hap b a
      · rcases hab with ⟨rfl, rfl⟩ | ⟨rfl, rfl⟩
        · exact Or.inr ⟨rfl, rfl⟩
        · exact Or.inl ⟨rfl, rfl⟩
      · rw [← hf.card, ← hf.card]
        have := (argsort_sorted tok).sublist hsub
        simpa using this
  have hor : [i, j].Sublist (argsort tok) ∨ [j, i].Sublist (argsort tok) := by
    have h1 := (hmem i).mpr hi
    have h2 := (hmem j).mpr hj'
    generalize argsort tok = l at h1 h2
    clear * - h1 h2 hij
    induction l with
    | nil => simp at h1
    | cons c l ih =>
        rcases List.mem_cons.mp h1 with h3 | h3
        · rcases List.mem_cons.mp h2 with h4 | h4
          · exact absurd (h3.trans h4.symm) hij
          · rw [h3]; exact Or.inl ((List.singleton_sublist.mpr h4).cons_cons _)
        · rcases List.mem_cons.mp h2 with h4 | h4
          · rw [h4]; exact Or.inr ((List.singleton_sublist.mpr h3).cons_cons _)
          · exact (ih h3 h4).imp (fun h => h.cons _) (fun h => h.cons _)
  rcases hor with h1 | h1
  · right; exact key i j hi hj' h1 (Or.inl ⟨rfl, rfl⟩)
  · left; exact key j i hj' hi h1 (Or.inr ⟨rfl, rfl⟩)

theorem ppjoin_complete_up_to {K : Type} [Field K] [LinearOrder K] [IsStrictOrderedRing K] [FloorRing K] {h : Helper K}
    {Similar : Nat → Nat → Nat → Prop} {N : Nat} (hlaw : LawfulUpTo N h Similar) (hsymm : ∀ a b o, Similar a b o → Similar b a o)
    {config : Config}
    {tokenizer : Bool} {records : List (List τ)} {ordering : Ppjoin.Ordering τ} (hcrc : NoCollision records ordering)
    (hc : Counted tokenizer ordering) (hne : ∀ r ∈ records, r ≠ [])
    (hN : ∀ i < records.length, (tokenSet records i).card ≤ N) :
    ∃ out, ppjoinRecords h config tokenizer records ordering = .ok out ∧
      ∀ i j, i < records.length → j < records.length → i ≠ j →
        Similar (tokenSet records i).card (tokenSet records j).card (tokenSet records i ∩ tokenSet records j).card →
        (config.all_pairs = false → ∀ k c : Nat, ((k = i ∧ c = j) ∨ (k = j ∧ c = i)) →
          (tokenSet records c).card ≤ (tokenSet records k).card →
          ¬ (((tokenSet records k).card : K) - h.threshold <
            ((h.requireOverlap (tokenSet records k).card (tokenSet records c).card : Int) : K))) →
        (i, j) ∈ out ∨ (j, i) ∈ out := by
  refine ppjoin_complete_between hlaw hsymm hcrc hc (fun i hi' => ?_) hN
  have h1 := hne records[i] (List.getElem_mem hi')
  rw [tokenSet, List.getElem?_eq_getElem hi', Option.getD_some]
  obtain ⟨a, l, hal⟩ := List.exists_cons_of_ne_nil h1
  exact Finset.card_pos.mpr ⟨a, by rw [hal]; simp⟩

theorem ppjoin_complete_any {K : Type} [Field K] [LinearOrder K] [IsStrictOrderedRing K] [FloorRing K] {h : Helper K}
    {Similar : Nat → Nat → Nat → Prop} (hlaw : Lawful h Similar) (hsymm : ∀ a b o, Similar a b o → Similar b a o)
    {config : Config}
    {tokenizer : Bool} {records : List (List τ)} {ordering : Ppjoin.Ordering τ} (hcrc : NoCollision records ordering)
    (hc : Counted tokenizer ordering) (hne : ∀ r ∈ records, r ≠ []) :
    ∃ out, ppjoinRecords h config tokenizer records ordering = .ok out ∧
      ∀ i j, i < records.length → j < records.length → i ≠ j →
        Similar (tokenSet records i).card (tokenSet records j).card (tokenSet records i ∩ tokenSet records j).card →
        (config.all_pairs = false → ∀ k c : Nat, ((k = i ∧ c = j) ∨ (k = j ∧ c = i)) →
          (tokenSet records c).card ≤ (tokenSet records k).card →
          ¬ (((tokenSet records k).card : K) - h.threshold <
            ((h.requireOverlap (tokenSet records k).card (tokenSet records c).card : Int) : K))) →
        (i, j) ∈ out ∨ (j, i) ∈ out :=
  ppjoin_complete_up_to (hlaw.upTo ((List.range records.length).map fun i => (tokenSet records i).card).sum) hsymm hcrc hc hne
    (fun i hi => List.le_sum_of_mem (List.mem_map.mpr ⟨i, List.mem_range.mpr hi, rfl⟩))

/-- **C32** for Jaccard, for thresholds above epsilon and below one and records which are not empty: `all_pairs` raises
nothing and yields every pair of similar records. Missing: the other thresholds and empty records, for which it is false
(see below). -/
theorem all_pairs_jaccard_complete_partial {t : ℚ} (h0 : 1 / 1000000 < t) (h1 : t < 1) {tokenizer : Bool}
    {records : List (List τ)} {ordering : Ppjoin.Ordering τ} (hcrc : NoCollision records ordering)
    (hc : Counted tokenizer ordering) (hne : ∀ r ∈ records, r ≠ []) :
    ∃ out, ppjoinRecords (jaccardHelper t) ⟨true, false⟩ tokenizer records ordering = .ok out ∧
      ∀ i j, i < records.length → j < records.length → i ≠ j →
        t ≤ jaccard (tokenSet records i) (tokenSet records j) → (i, j) ∈ out ∨ (j, i) ∈ out := by
  obtain ⟨out, hout, hcomp⟩ := ppjoin_complete_any (jaccard_lawful (by simpa [epsilon] using h0) h1)
    (fun a b o h => by rw [add_comm]; exact h) (config := ⟨true, false⟩) hcrc hc hne
  refine ⟨out, hout, fun i j hi hj hij hs => ?_⟩
  apply hcomp i j hi hj hij
  · rw [jaccard, card_union_cast] at hs
    exact hs
  · intro h; simp at h

/-- **C32** for Dice, for thresholds above twice epsilon and below one and records which are not empty. -/
theorem all_pairs_dice_complete_partial {t : ℚ} (h0 : 2 / 1000000 < t) (h1 : t < 1) {tokenizer : Bool}
    {records : List (List τ)} {ordering : Ppjoin.Ordering τ} (hcrc : NoCollision records ordering)
    (hc : Counted tokenizer ordering) (hne : ∀ r ∈ records, r ≠ []) :
    ∃ out, ppjoinRecords (diceHelper t) ⟨true, false⟩ tokenizer records ordering = .ok out ∧
      ∀ i j, i < records.length → j < records.length → i ≠ j →
        t ≤ dice (tokenSet records i) (tokenSet records j) → (i, j) ∈ out ∨ (j, i) ∈ out := by
  obtain ⟨out, hout, hcomp⟩ := ppjoin_complete_any (dice_lawful (by unfold epsilon; linarith) h1)
    (fun a b o h => by rw [add_comm]; exact h) (config := ⟨true, false⟩) hcrc hc hne
  refine ⟨out, hout, fun i j hi hj hij hs => ?_⟩
  apply hcomp i j hi hj hij
  · rw [dice] at hs
    push_cast at hs
    exact hs
  · intro h; simp at h

/-- The same for the binary cosine, for thresholds whose square is above epsilon. -/
theorem all_pairs_cosine_complete_partial {t : ℝ} (h0 : 0 < t) (h0' : 1 / 1000000 < t * t) (h1 : t < 1) {tokenizer : Bool}
    {records : List (List τ)} {ordering : Ppjoin.Ordering τ} (hcrc : NoCollision records ordering)
    (hc : Counted tokenizer ordering) (hne : ∀ r ∈ records, r ≠ []) :
    ∃ out, ppjoinRecords (binaryCosineHelper t) ⟨true, false⟩ tokenizer records ordering = .ok out ∧
      ∀ i j, i < records.length → j < records.length → i ≠ j →
        t ≤ binaryCosine (tokenSet records i) (tokenSet records j) → (i, j) ∈ out ∨ (j, i) ∈ out := by
  obtain ⟨out, hout, hcomp⟩ := ppjoin_complete_any (binaryCosine_lawful h0 (by simpa [epsilon] using h0') h1)
    (fun a b o h => by rw [mul_comm]; exact h) (config := ⟨true, false⟩) hcrc hc hne
  refine ⟨out, hout, fun i j hi hj hij hs => ?_⟩
  apply hcomp i j hi hj hij
  · exact hs
  · intro h; simp at h

-- The hypotheses hold on data: half of the tokens are in common.
example : ∃ out, ppjoinRecords (jaccardHelper (1 / 2 : ℚ)) ⟨true, false⟩ true [[1, 2, 3], [4, 3, 2, 2], [5]] .freq = .ok out ∧
    ((0, 1) ∈ out ∨ (1, 0) ∈ out) := by
  obtain ⟨out, hout, hcomp⟩ := all_pairs_jaccard_complete_partial (t := 1 / 2) (by norm_num) (by norm_num)
    (tokenizer := true) (records := [[1, 2, 3], [4, 3, 2, 2], [5]]) (ordering := .freq) trivial rfl (by simp)
  exact ⟨out, hout, hcomp 0 1 (by simp) (by simp) (by simp) (by decide +kernel)⟩

-- The pairs yielded on the same data are sound (**C31**), and there is at least one.
example : ∃ out, ppjoinRecords (jaccardHelper (1 / 2 : ℚ)) ⟨true, false⟩ true [[1, 2, 3], [4, 3, 2, 2], [5]] .freq = .ok out ∧
    out ≠ [] ∧ out.Nodup ∧ ∀ p ∈ out, (1 / 2 : ℚ) - 1 / 1000000 ≤ jaccard (tokenSet [[1, 2, 3], [4, 3, 2, 2], [5]] p.1)
      (tokenSet [[1, 2, 3], [4, 3, 2, 2], [5]] p.2) := by
  obtain ⟨out, hout, hcomp⟩ := all_pairs_jaccard_complete_partial (t := 1 / 2) (by norm_num) (by norm_num)
    (tokenizer := true) (records := [[1, 2, 3], [4, 3, 2, 2], [5]]) (ordering := .freq) trivial rfl (by simp)
  obtain ⟨h1, h2⟩ := ppjoin_jaccard_sound (ordering := .freq) (records := [[1, 2, 3], [4, 3, 2, 2], [5]]) trivial hout
  have h3 := hcomp 0 1 (by simp) (by simp) (by simp) (by decide +kernel)
  exact ⟨out, hout, by rintro rfl; simp at h3, h1, fun p hp => (h2 p hp).2.2.2.2⟩

/-- **C32** is false for the threshold 1: whatever the algorithm and the records, no pair is ever yielded, even when all
records are the same. -/
theorem ppjoin_threshold_one {config : Config} {tokenizer : Bool} {records : List (List τ)}
    {ordering : Ppjoin.Ordering τ} (hcrc : NoCollision records ordering) {out : List (Nat × Nat)}
    (hout : ppjoinRecords (jaccardHelper (1 : ℚ)) config tokenizer records ordering = .ok out) : out = [] := by
  obtain ⟨σ, _, tok, hf, hj⟩ := ppjoin_preprocessed hcrc hout
  refine join_unindexed ?_ (by intro w; simp [Dict.get?]) hj
  intro l
  simp only [jaccardHelper]
  have : pyInt ((1 - 2 * (1 : ℚ) / (1 + 1)) * l + 1 + epsilon) = 1 := by
    have h1 : ((1 - 2 * (1 : ℚ) / (1 + 1)) * l + 1 + epsilon) = 1 + epsilon := by ring
    rw [h1]
    decide +kernel
  rw [this]
  simp

/-- With the threshold 1 two equal records with one token are accepted, and not yielded, by `all_pairs`. -/
theorem all_pairs_threshold_one :
    jaccard (tokenSet [[7], [7]] 0) (tokenSet [[7], [7]] 1) = 1 ∧
    ppjoinRecords (jaccardHelper (1 : ℚ)) ⟨true, false⟩ true [[7], [7]] (.none : Ppjoin.Ordering Nat) = .ok [] := by
  constructor
  · decide +kernel
  · have h0 : pyInt ((1 - 1 : ℚ) * 1 + 1 + epsilon) = 1 := by decide +kernel
    have h1 : pyInt ((1 - 2 * (1 : ℚ) / (1 + 1)) * 1 + 1 + epsilon) = 1 := by decide +kernel
    have h1' : (jaccardHelper (1 : ℚ)).indexLength 1 = 1 := by simpa [jaccardHelper] using h1
    have h0' : (jaccardHelper (1 : ℚ)).probeLength 1 = 1 := by simpa [jaccardHelper] using h0
    have ht : (jaccardHelper (1 : ℚ)).threshold = 1 := rfl
    have hs : sortedUniq [7] = [7] := by simp [sortedUniq, dedup]
    have harg : argsort [[7], [7]] = [0, 1] := by
      simp [argsort, List.mergeSort, List.range, List.range.loop, recordAt, List.MergeSort.Internal.splitInTwo]
    simp [ppjoinRecords, preprocessNone, ppjoin, hs, harg, join, recordAt, h0', tokenLoop, tokenStep, List.range,
      List.range.loop, Dict.get?, candidateLoop, h1', ht, verifyLoop, Dict.set]

/-- **C32**, empty records: whatever the algorithm and the threshold below one, `ppjoin` raises an `IndexError` if a record
is empty (as it is processed first). -/
theorem ppjoin_empty_record {t : ℚ} {config : Config} {records : List (List τ)} (hempty : [] ∈ records) :
    ppjoinRecords (jaccardHelper t) config true records .none = .error .indexError := by
  have hf := faithful_none records
  simp only [ppjoinRecords, ppjoin]
  obtain ⟨i, hi, hri⟩ := List.getElem_of_mem hempty
  have hlen0 : (recordAt (preprocessNone records) i).length = 0 := by
    rw [hf.card, tokenSet, List.getElem?_eq_getElem hi, hri]
    simp
  have hmem : i ∈ argsort (preprocessNone records) := by
    rw [(argsort_perm _).mem_iff, hf.length, List.mem_range]; exact hi
  cases ha : argsort (preprocessNone records) with
  | nil => rw [ha] at hmem; simp at hmem
  | cons k ks =>
      have hk0 : recordAt (preprocessNone records) k = [] := by
        rw [ha] at hmem
        have hs := argsort_sorted (preprocessNone records)
        rw [ha] at hs
        rcases List.mem_cons.mp hmem with rfl | hmem
        · exact List.length_eq_zero_iff.mp hlen0
        · have := (List.pairwise_cons.mp hs).1 i hmem
          rw [hlen0] at this
          exact List.length_eq_zero_iff.mp (Nat.le_zero.mp this)
      have hp : ((jaccardHelper t).probeLength 0).toNat = 1 := by
        simp only [jaccardHelper, Nat.cast_zero, mul_zero, zero_add]
        have : pyInt ((1 : ℚ) + epsilon) = 1 := by decide +kernel
        rw [this]; rfl
      simp [join, hk0, hp, List.range, List.range.loop, tokenLoop, tokenStep]

/-- The default arguments (frequency ordering, no tokenizer) raise a `KeyError` as soon as a record is not empty. -/
theorem ppjoin_default_raises {t : ℚ} {config : Config} {records : List (List τ)} (h : ∃ r ∈ records, r ≠ []) :
    ppjoinRecords (jaccardHelper t) config false records .freq = .error .keyError := by
  simp only [ppjoinRecords, preprocessFreq_raises h]

/-! ## ppjoin -/

/-- **C33** is false: with a threshold between zero and one `ppjoin` and `ppjoin_plus` never yield two equal records with
fewer than `(1 + t) / (1 - t)` tokens (8 tokens for 0.8). -/
theorem ppjoin_misses_equal {t : ℚ} (h0 : 0 < t) (h1 : t < 1) {config : Config} (ha : config.all_pairs = false)
    {tokenizer : Bool} {records : List (List τ)} {ordering : Ppjoin.Ordering τ} (hcrc : NoCollision records ordering)
    {out : List (Nat × Nat)} (hout : ppjoinRecords (jaccardHelper t) config tokenizer records ordering = .ok out)
    {i j : Nat} (heq : tokenSet records i = tokenSet records j)
    (hshort : ((tokenSet records i).card : ℚ) * (1 - t) < (1 - 1 / 1000000) * (1 + t)) : (i, j) ∉ out := by
  intro hm
  obtain ⟨σ, _, tok, hf, hj⟩ := ppjoin_preprocessed hcrc hout
  refine join_rejected hj hm ⟨ha, ?_⟩
  intro ro hro
  simp only [requireOverlaps] at hro
  rw [hf.card, hf.card, ← heq] at hro
  rw [hf.card]
  rw [if_pos (le_refl _)] at hro
  simp only [Except.ok.injEq] at hro
  have hmin : (jaccardHelper t).minPossibleLength (tokenSet records i).card ≤ ((tokenSet records i).card : Int) := by
    simp only [jaccardHelper]
    rw [Int.ceil_le]
    have hl : (0 : ℚ) ≤ ((tokenSet records i).card : ℚ) := Nat.cast_nonneg _
    have := mul_le_mul_of_nonneg_left h1.le hl
    have he : (0 : ℚ) < epsilon := epsilon_pos
    push_cast
    linarith
  rw [if_pos hmin] at hro
  subst hro
  generalize (tokenSet records i).card = l at *
  have hge : (l : Int) ≤ (jaccardHelper t).requireOverlap l l := by
    simp only [jaccardHelper]
    have : (l : Int) - 1 < ⌈t / (1 + t) * ((l : ℚ) + l) - epsilon⌉ := by
      rw [Int.lt_ceil]
      push_cast
      have hpos : 0 < 1 + t := by linarith
      have h2 : t / (1 + t) * ((l : ℚ) + l) = (l : ℚ) - (l : ℚ) * (1 - t) / (1 + t) := by
        field_simp; ring
      have h3 : (l : ℚ) * (1 - t) / (1 + t) < 1 - 1 / 1000000 := by
        rw [div_lt_iff₀ hpos]; exact hshort
      rw [h2]
      unfold epsilon
      linarith
    omega
  have hge' : (l : ℚ) ≤ (((jaccardHelper t).requireOverlap l l : Int) : ℚ) := by exact_mod_cast hge
  have ht : (jaccardHelper t).threshold = t := rfl
  rw [ht]
  linarith

/-- Which similar pairs are yielded by `ppjoin` and `ppjoin_plus`, for any helper, which may be lawful for records of up to `N` tokens only. -/
theorem ppjoin_iff_up_to {K : Type} [Field K] [LinearOrder K] [IsStrictOrderedRing K] [FloorRing K] {h : Helper K}
    {Similar : Nat → Nat → Nat → Prop} {N : Nat} (hlaw : LawfulUpTo N h Similar) (hsymm : ∀ a b o, Similar a b o → Similar b a o)
    (h0 : 0 < h.threshold) (h1 : h.threshold < 1) (plus : Bool)
    {tokenizer : Bool} {records : List (List τ)} {ordering : Ppjoin.Ordering τ} (hcrc : NoCollision records ordering)
    (hc : Counted tokenizer ordering) (hne : ∀ r ∈ records, r ≠ []) (hN : ∀ i < records.length, (tokenSet records i).card ≤ N) :
    ∃ out, ppjoinRecords h ⟨false, plus⟩ tokenizer records ordering = .ok out ∧
      ∀ i j, i < records.length → j < records.length → i ≠ j → (tokenSet records j).card ≤ (tokenSet records i).card →
        Similar (tokenSet records i).card (tokenSet records j).card (tokenSet records i ∩ tokenSet records j).card →
        ((i, j) ∈ out ∨ (j, i) ∈ out ↔
          h.requireOverlap (tokenSet records i).card (tokenSet records j).card ≤ ((tokenSet records i).card : Int) - 1) := by
  obtain ⟨out, hout, hcomp⟩ := ppjoin_complete_up_to hlaw hsymm (config := ⟨false, plus⟩) hcrc hc hne hN
  refine ⟨out, hout, fun i j hi hj hij hle hs => ⟨fun hor => ?_, fun hlong => ?_⟩⟩
  · obtain ⟨σ, _, tok, hf, hjoin⟩ := ppjoin_preprocessed hcrc hout
    have hnd : (argsort tok).Nodup := (argsort_perm tok).nodup_iff.mpr List.nodup_range
    obtain ⟨-, h2⟩ := join_sound (M := 0) hf.increasing (order := argsort tok) (prev := []) (by simpa using hnd)
      (fun j => (Inv.empty h tok False 0).congr fun c cp => by simp [Indexed]) hjoin
    have hpos : 1 ≤ (tokenSet records j).card := by
      have h3 := hne records[j] (List.getElem_mem hj)
      rw [tokenSet, List.getElem?_eq_getElem hj, Option.getD_some]
      obtain ⟨a, l, hal⟩ := List.exists_cons_of_ne_nil h3
      exact Finset.card_pos.mpr ⟨a, by rw [hal]; simp⟩
    have hmin := (hlaw.similar _ _ _ (Finset.card_le_card Finset.inter_subset_right) hle hpos (hN i hi) hs).2.1
    have key : ∀ a b : Nat, (a, b) ∈ out → (tokenSet records a).card = (tokenSet records i).card →
        (tokenSet records b).card = (tokenSet records j).card →
        h.requireOverlap (tokenSet records i).card (tokenSet records j).card ≤ ((tokenSet records i).card : Int) - 1 := by
      intro a b hab ha hb
      have hr := join_rejected hjoin hab
      by_contra hlt
      refine hr ⟨rfl, fun ro hro => ?_⟩
      unfold requireOverlaps at hro
      rw [hf.card, hf.card, ha, hb, if_pos hle, if_pos hmin] at hro
      simp only [Except.ok.injEq] at hro
      rw [hf.card, ha, ← hro]
      have h3 : ((tokenSet records i).card : Int) ≤ h.requireOverlap (tokenSet records i).card (tokenSet records j).card := by omega
      have h4 : ((tokenSet records i).card : K) ≤ ((h.requireOverlap (tokenSet records i).card (tokenSet records j).card : Int) : K) := by
        exact_mod_cast h3
      linarith
    rcases hor with hm | hm
    · exact key i j hm rfl rfl
    · have h3 := (argsort_sorted tok).sublist (h2 _ hm).1
      rw [List.pairwise_pair, hf.card, hf.card] at h3
      have h4 : (tokenSet records i).card = (tokenSet records j).card := Nat.le_antisymm h3 hle
      exact key j i hm h4.symm h4
  · apply hcomp i j hi hj hij hs
    intro _ k c hkc hle2
    rw [not_lt]
    have key : h.requireOverlap (tokenSet records k).card (tokenSet records c).card ≤ ((tokenSet records k).card : Int) - 1 := by
      rcases hkc with ⟨rfl, rfl⟩ | ⟨rfl, rfl⟩
      · exact hlong
      · have h4 : (tokenSet records k).card = (tokenSet records c).card := by omega
        rw [h4] at hlong ⊢
        exact hlong
    have key' : ((h.requireOverlap (tokenSet records k).card (tokenSet records c).card : Int) : K) ≤ ((tokenSet records k).card : K) - 1 := by
      exact_mod_cast key
    linarith

/-- Which similar pairs are yielded by `ppjoin` and `ppjoin_plus`, for any helper. -/
theorem ppjoin_iff_any {K : Type} [Field K] [LinearOrder K] [IsStrictOrderedRing K] [FloorRing K] {h : Helper K}
    {Similar : Nat → Nat → Nat → Prop} (hlaw : Lawful h Similar) (hsymm : ∀ a b o, Similar a b o → Similar b a o)
    (h0 : 0 < h.threshold) (h1 : h.threshold < 1) (plus : Bool)
    {tokenizer : Bool} {records : List (List τ)} {ordering : Ppjoin.Ordering τ} (hcrc : NoCollision records ordering)
    (hc : Counted tokenizer ordering) (hne : ∀ r ∈ records, r ≠ []) :
    ∃ out, ppjoinRecords h ⟨false, plus⟩ tokenizer records ordering = .ok out ∧
      ∀ i j, i < records.length → j < records.length → i ≠ j → (tokenSet records j).card ≤ (tokenSet records i).card →
        Similar (tokenSet records i).card (tokenSet records j).card (tokenSet records i ∩ tokenSet records j).card →
        ((i, j) ∈ out ∨ (j, i) ∈ out ↔
          h.requireOverlap (tokenSet records i).card (tokenSet records j).card ≤ ((tokenSet records i).card : Int) - 1) :=
  ppjoin_iff_up_to (hlaw.upTo ((List.range records.length).map fun i => (tokenSet records i).card).sum) hsymm h0 h1 plus hcrc hc hne
    (fun i hi => List.le_sum_of_mem (List.mem_map.mpr ⟨i, List.mem_range.mpr hi, rfl⟩))

theorem or_comm_iff {P Q R : Prop} (h : P ∨ Q ↔ R) : Q ∨ P ↔ R := or_comm.trans h

/-- **C33** partial, for Jaccard: which similar records `ppjoin` and `ppjoin_plus` yield, for thresholds above epsilon and below one and records
which are not empty: those with sizes `l ≥ l'` such that `t (l + l') / (1 + t) ≤ l - 1`, up to epsilon. Missing: the other similar pairs, which are
not yielded. -/
theorem ppjoin_jaccard_complete_partial {t : ℚ} (h0 : 1 / 1000000 < t) (h1 : t < 1) (plus : Bool) {tokenizer : Bool}
    {records : List (List τ)} {ordering : Ppjoin.Ordering τ} (hcrc : NoCollision records ordering)
    (hc : Counted tokenizer ordering) (hne : ∀ r ∈ records, r ≠ []) :
    ∃ out, ppjoinRecords (jaccardHelper t) ⟨false, plus⟩ tokenizer records ordering = .ok out ∧
      ∀ i j, i < records.length → j < records.length → i ≠ j →
        t ≤ jaccard (tokenSet records i) (tokenSet records j) →
        ((i, j) ∈ out ∨ (j, i) ∈ out ↔
          t / (1 + t) * (((tokenSet records i).card : ℚ) + (tokenSet records j).card) ≤
            max ((tokenSet records i).card : ℚ) ((tokenSet records j).card : ℚ) - 1 + 1 / 1000000) := by
  obtain ⟨out, hout, hcomp⟩ := ppjoin_iff_any (jaccard_lawful (by simpa [epsilon] using h0) h1)
    (fun a b o h => by rw [add_comm]; exact h) (show (0 : ℚ) < t by linarith) h1 plus hcrc hc hne
  refine ⟨out, hout, ?_⟩
  have key : ∀ i j, i < records.length → j < records.length → i ≠ j → (tokenSet records j).card ≤ (tokenSet records i).card →
      t ≤ jaccard (tokenSet records i) (tokenSet records j) → ((i, j) ∈ out ∨ (j, i) ∈ out ↔
          t / (1 + t) * (((tokenSet records i).card : ℚ) + (tokenSet records j).card) ≤
            ((tokenSet records i).card : ℚ) - 1 + 1 / 1000000) := by
    intro i j hi hj hij hle hs
    rw [hcomp i j hi hj hij hle (by rw [jaccard, card_union_cast] at hs; exact hs)]
    simp only [jaccardHelper, epsilon]
    rw [Int.ceil_le]
    push_cast
    constructor <;> intro h <;> linarith
  intro i j hi hj hij hs
  rcases le_total (tokenSet records j).card (tokenSet records i).card with hle | hle
  · rw [max_eq_left (by exact_mod_cast hle)]
    exact key i j hi hj hij hle hs
  · rw [max_eq_right (by exact_mod_cast hle), add_comm ((tokenSet records i).card : ℚ)]
    exact or_comm_iff (key j i hj hi hij.symm hle (by rw [jaccard, Finset.inter_comm, Finset.union_comm]; exact hs))

/-- **C33** partial, for Dice: sizes `l ≥ l'` such that `t (l + l') / 2 ≤ l - 1`, up to epsilon. -/
theorem ppjoin_dice_complete_partial {t : ℚ} (h0 : 2 / 1000000 < t) (h1 : t < 1) (plus : Bool) {tokenizer : Bool}
    {records : List (List τ)} {ordering : Ppjoin.Ordering τ} (hcrc : NoCollision records ordering)
    (hc : Counted tokenizer ordering) (hne : ∀ r ∈ records, r ≠ []) :
    ∃ out, ppjoinRecords (diceHelper t) ⟨false, plus⟩ tokenizer records ordering = .ok out ∧
      ∀ i j, i < records.length → j < records.length → i ≠ j →
        t ≤ dice (tokenSet records i) (tokenSet records j) →
        ((i, j) ∈ out ∨ (j, i) ∈ out ↔
          (((tokenSet records i).card : ℚ) + (tokenSet records j).card) * t / 2 ≤
            max ((tokenSet records i).card : ℚ) ((tokenSet records j).card : ℚ) - 1 + 1 / 1000000) := by
  obtain ⟨out, hout, hcomp⟩ := ppjoin_iff_any (dice_lawful (by unfold epsilon; linarith) h1)
    (fun a b o h => by rw [add_comm]; exact h) (show (0 : ℚ) < t by linarith) h1 plus hcrc hc hne
  refine ⟨out, hout, ?_⟩
  have key : ∀ i j, i < records.length → j < records.length → i ≠ j → (tokenSet records j).card ≤ (tokenSet records i).card →
      t ≤ dice (tokenSet records i) (tokenSet records j) → ((i, j) ∈ out ∨ (j, i) ∈ out ↔
          (((tokenSet records i).card : ℚ) + (tokenSet records j).card) * t / 2 ≤
            ((tokenSet records i).card : ℚ) - 1 + 1 / 1000000) := by
    intro i j hi hj hij hle hs
    rw [hcomp i j hi hj hij hle (by rw [dice] at hs; push_cast at hs; exact hs)]
    simp only [diceHelper, epsilon]
    rw [Int.ceil_le]
    push_cast
    constructor <;> intro h <;> linarith
  intro i j hi hj hij hs
  rcases le_total (tokenSet records j).card (tokenSet records i).card with hle | hle
  · rw [max_eq_left (by exact_mod_cast hle)]
    exact key i j hi hj hij hle hs
  · rw [max_eq_right (by exact_mod_cast hle), add_comm ((tokenSet records i).card : ℚ)]
    exact or_comm_iff (key j i hj hi hij.symm hle (by rw [dice] at hs ⊢; rw [Finset.inter_comm, add_comm]; exact hs))

/-- **C33** partial, for the binary cosine: sizes `l ≥ l'` such that `t √(l l') ≤ l - 1`, up to epsilon. -/
theorem ppjoin_cosine_complete_partial {t : ℝ} (h0 : 0 < t) (h0' : 1 / 1000000 < t * t) (h1 : t < 1) (plus : Bool) {tokenizer : Bool}
    {records : List (List τ)} {ordering : Ppjoin.Ordering τ} (hcrc : NoCollision records ordering)
    (hc : Counted tokenizer ordering) (hne : ∀ r ∈ records, r ≠ []) :
    ∃ out, ppjoinRecords (binaryCosineHelper t) ⟨false, plus⟩ tokenizer records ordering = .ok out ∧
      ∀ i j, i < records.length → j < records.length → i ≠ j →
        t ≤ binaryCosine (tokenSet records i) (tokenSet records j) →
        ((i, j) ∈ out ∨ (j, i) ∈ out ↔
          t * Real.sqrt (((tokenSet records i).card : ℝ) * (tokenSet records j).card) ≤
            max ((tokenSet records i).card : ℝ) ((tokenSet records j).card : ℝ) - 1 + 1 / 1000000) := by
  obtain ⟨out, hout, hcomp⟩ := ppjoin_iff_any (binaryCosine_lawful h0 (by simpa [epsilon] using h0') h1)
    (fun a b o h => by rw [mul_comm]; exact h) (show (0 : ℝ) < t from h0) h1 plus hcrc hc hne
  refine ⟨out, hout, ?_⟩
  have key : ∀ i j, i < records.length → j < records.length → i ≠ j → (tokenSet records j).card ≤ (tokenSet records i).card →
      t ≤ binaryCosine (tokenSet records i) (tokenSet records j) → ((i, j) ∈ out ∨ (j, i) ∈ out ↔
          t * Real.sqrt (((tokenSet records i).card : ℝ) * (tokenSet records j).card) ≤
            ((tokenSet records i).card : ℝ) - 1 + 1 / 1000000) := by
    intro i j hi hj hij hle hs
    rw [hcomp i j hi hj hij hle hs]
    simp only [binaryCosineHelper, epsilon]
    rw [Int.ceil_le]
    push_cast
    constructor <;> intro h <;> linarith
  intro i j hi hj hij hs
  rcases le_total (tokenSet records j).card (tokenSet records i).card with hle | hle
  · rw [max_eq_left (by exact_mod_cast hle)]
    exact key i j hi hj hij hle hs
  · rw [max_eq_right (by exact_mod_cast hle), mul_comm ((tokenSet records i).card : ℝ)]
    exact or_comm_iff (key j i hj hi hij.symm hle (by rw [binaryCosine] at hs ⊢; rw [Finset.inter_comm, mul_comm]; exact hs))

-- Equal records of three tokens are found by `all_pairs`, never by `ppjoin`.
example : ∃ out out', ppjoinRecords (jaccardHelper (4 / 5 : ℚ)) ⟨true, false⟩ true [[1, 2, 3], [3, 2, 1]] .freq = .ok out ∧
    ((0, 1) ∈ out ∨ (1, 0) ∈ out) ∧
    ppjoinRecords (jaccardHelper (4 / 5 : ℚ)) ⟨false, false⟩ true [[1, 2, 3], [3, 2, 1]] .freq = .ok out' ∧
    (0, 1) ∉ out' ∧ (1, 0) ∉ out' := by
  obtain ⟨out, hout, hcomp⟩ := all_pairs_jaccard_complete_partial (t := 4 / 5) (by norm_num) (by norm_num)
    (tokenizer := true) (records := [[1, 2, 3], [3, 2, 1]]) (ordering := .freq) trivial rfl (by simp)
  obtain ⟨out', hout', -⟩ := ppjoin_jaccard_complete_partial (t := 4 / 5) (by norm_num) (by norm_num) false
    (tokenizer := true) (records := [[1, 2, 3], [3, 2, 1]]) (ordering := .freq) trivial rfl (by simp)
  exact ⟨out, out', hout, hcomp 0 1 (by simp) (by simp) (by simp) (by decide +kernel), hout',
    ppjoin_misses_equal (by norm_num) (by norm_num) rfl (ordering := .freq) (records := [[1, 2, 3], [3, 2, 1]]) trivial hout' (by decide +kernel) (by decide +kernel),
    ppjoin_misses_equal (by norm_num) (by norm_num) rfl (ordering := .freq) (records := [[1, 2, 3], [3, 2, 1]]) trivial hout' (by decide +kernel) (by decide +kernel)⟩

-- Longer records are found by `ppjoin_plus`: nine tokens.
example : ∃ out, ppjoinRecords (jaccardHelper (4 / 5 : ℚ)) ⟨false, true⟩ true
      [[1, 2, 3, 4, 5, 6, 7, 8, 9], [9, 8, 7, 6, 5, 4, 3, 2, 1]] .freq = .ok out ∧ ((0, 1) ∈ out ∨ (1, 0) ∈ out) := by
  obtain ⟨out, hout, hcomp⟩ := ppjoin_jaccard_complete_partial (t := 4 / 5) (by norm_num) (by norm_num) true
    (tokenizer := true) (records := [[1, 2, 3, 4, 5, 6, 7, 8, 9], [9, 8, 7, 6, 5, 4, 3, 2, 1]]) (ordering := .freq) trivial rfl (by simp)
  exact ⟨out, hout, (hcomp 0 1 (by simp) (by simp) (by simp) (by decide +kernel)).mpr (by decide +kernel)⟩

end Fog.Props
