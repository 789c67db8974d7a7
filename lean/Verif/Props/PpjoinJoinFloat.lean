import Verif.Props.PpjoinFloat
import Verif.Lemmas.PpjoinJoinFloat

/-!
# C127: ppjoin and ppjoin_plus in double precision
-/

namespace Fog.Props

open Ppjoin Spec

variable {τ : Type} [LinearOrder τ] {fl : ℝ → ℝ}

theorem card_tokenSet_le {records : List (List τ)} {N : Nat} (hN : ∀ i < records.length, (tokenSet records i).card ≤ N) (i : Nat) :
    (tokenSet records i).card ≤ N := by
  rcases Nat.lt_or_ge i records.length with h | h
  · exact hN i h
  · unfold tokenSet
    rw [List.getElem?_eq_none h]
    simp

/-- **C127**: the tests of positions of the join are not changed by roundings, for records of up to `2 ^ 26` tokens. -/
theorem ppjoin_position_float (hfl : IsRounding fl) {h : Helper ℝ} (hm : PpjoinFloat.Modest (2 ^ 26) h) (config : Config) {tokenizer : Bool}
    {records : List (List τ)} {ordering : Ppjoin.Ordering τ} (hcrc : NoCollision records ordering) (hc : Counted tokenizer ordering)
    (hN : ∀ i < records.length, (tokenSet records i).card ≤ 2 ^ 26) :
    PpjoinFloat.ppjoinRecords fl h config tokenizer records ordering = ppjoinRecords h config tokenizer records ordering := by
  have key : ∀ {σ : Type} [LinearOrder σ] {tok : List (List σ)}, Faithful records tok →
      PpjoinFloat.ppjoin fl h config tok = ppjoin h config tok := by
    intro σ _ tok hf
    unfold PpjoinFloat.ppjoin ppjoin
    exact PpjoinFloat.join_eq hfl hm config (fun i => by rw [hf.card]; exact card_tokenSet_le hN i) _ _
  cases ordering with
  | none => exact key (faithful_none records)
  | crc32 hash => exact key (faithful_crc hash records hcrc)
  | freq =>
      obtain ⟨tok, htok, hf⟩ := faithful_freq records
      simp only [Counted] at hc
      subst hc
      simp only [PpjoinFloat.ppjoinRecords, ppjoinRecords, htok]
      exact key hf

/-- Which similar pairs are yielded, for a helper with doubles whose overlaps are those of `need`, up to `EPSILON`. -/
theorem ppjoin_float_any (hfl : IsRounding fl) {h : Helper ℝ} (hm : PpjoinFloat.Modest (2 ^ 26) h) {Similar : Nat → Nat → Nat → Prop}
    (hlaw : LawfulUpTo (2 ^ 26) h Similar) (hsymm : ∀ a b o, Similar a b o → Similar b a o) {need : Nat → Nat → ℝ}
    (hneed : ∀ a b, need a b = need b a)
    (hover : ∀ l1 l2, l1 ≤ 2 ^ 26 → l2 ≤ 2 ^ 26 → (∀ m : Int, need l1 l2 ≤ m → h.requireOverlap l1 l2 ≤ m) ∧
      ∀ m : Int, h.requireOverlap l1 l2 ≤ m → need l1 l2 ≤ m + 2 / 1000000)
    (plus : Bool) {tokenizer : Bool} {records : List (List τ)} {ordering : Ppjoin.Ordering τ} (hcrc : NoCollision records ordering)
    (hc : Counted tokenizer ordering) (hne : ∀ r ∈ records, r ≠ []) (hN : ∀ i < records.length, (tokenSet records i).card ≤ 2 ^ 26) :
    ∃ out, ppjoinRecords h ⟨false, plus⟩ tokenizer records ordering = .ok out ∧
      PpjoinFloat.ppjoinRecords fl h ⟨false, plus⟩ tokenizer records ordering = .ok out ∧
      ∀ i j, i < records.length → j < records.length → i ≠ j →
        Similar (tokenSet records i).card (tokenSet records j).card (tokenSet records i ∩ tokenSet records j).card →
        (need (tokenSet records i).card (tokenSet records j).card ≤ max ((tokenSet records i).card : ℝ) ((tokenSet records j).card : ℝ) - 1 →
          (i, j) ∈ out ∨ (j, i) ∈ out) ∧
        ((i, j) ∈ out ∨ (j, i) ∈ out → need (tokenSet records i).card (tokenSet records j).card ≤
          max ((tokenSet records i).card : ℝ) ((tokenSet records j).card : ℝ) - 1 + 2 / 1000000) := by
  obtain ⟨out, hout, hcomp⟩ := ppjoin_iff_up_to hlaw hsymm (lt_of_lt_of_le (by norm_num) hm.low) hm.high plus hcrc hc hne hN
  refine ⟨out, hout, (ppjoin_position_float hfl hm ⟨false, plus⟩ hcrc hc hN).trans hout, ?_⟩
  have key : ∀ i j, i < records.length → j < records.length → i ≠ j → (tokenSet records j).card ≤ (tokenSet records i).card →
      Similar (tokenSet records i).card (tokenSet records j).card (tokenSet records i ∩ tokenSet records j).card →
      (need (tokenSet records i).card (tokenSet records j).card ≤ ((tokenSet records i).card : ℝ) - 1 → (i, j) ∈ out ∨ (j, i) ∈ out) ∧
      ((i, j) ∈ out ∨ (j, i) ∈ out → need (tokenSet records i).card (tokenSet records j).card ≤
        ((tokenSet records i).card : ℝ) - 1 + 2 / 1000000) := by
    intro i j hi hj hij hle hs
    have hiff := hcomp i j hi hj hij hle hs
    obtain ⟨o1, o2⟩ := hover _ _ (hN i hi) (hN j hj)
    have ecast : ((((tokenSet records i).card : Int) - 1 : Int) : ℝ) = ((tokenSet records i).card : ℝ) - 1 := by push_cast; rfl
    refine ⟨fun hn => hiff.mpr (o1 _ (by rw [ecast]; exact hn)), fun hor => ?_⟩
    have := o2 _ (hiff.mp hor)
    rwa [ecast] at this
  intro i j hi hj hij hs
  rcases le_total (tokenSet records j).card (tokenSet records i).card with hle | hle
  · rw [max_eq_left (by exact_mod_cast hle)]
    exact key i j hi hj hij hle hs
  · rw [max_eq_right (by exact_mod_cast hle), hneed]
    obtain ⟨k1, k2⟩ := key j i hj hi hij.symm hle (by rw [Finset.inter_comm]; exact hsymm _ _ _ hs)
    exact ⟨fun hn => (k1 hn).symm, fun hor => k2 hor.symm⟩

/-- **C127** for Jaccard: computing with doubles, `ppjoin` and `ppjoin_plus` raise nothing, yield only pairs whose similarity reaches the threshold up
to `EPSILON` and roundings, and, among those whose similarity reaches it, yield the pairs whose required overlap is at most the greater size minus
one, and none for which it is greater by more than `2e-6`. -/
theorem ppjoin_jaccard_float (hfl : IsRounding fl) {t : ℝ} (hd : IsDouble t) (h0 : 2 / 1000000 ≤ t) (h1 : t < 1) (plus : Bool) {tokenizer : Bool}
    {records : List (List τ)} {ordering : Ppjoin.Ordering τ} (hcrc : NoCollision records ordering)
    (hc : Counted tokenizer ordering) (hne : ∀ r ∈ records, r ≠ []) (hN : ∀ i < records.length, (tokenSet records i).card ≤ 2 ^ 26) :
    ∃ out, PpjoinFloat.ppjoinRecords fl (PpjoinFloat.jaccardHelper fl t) ⟨false, plus⟩ tokenizer records ordering = .ok out ∧ out.Nodup ∧
      (∀ p ∈ out, p.1 < records.length ∧ p.2 < records.length ∧ p.1 ≠ p.2 ∧ (p.2, p.1) ∉ out ∧
        t - 1 / 1000000 - 1 / 2 ^ 51 ≤ ((jaccard (tokenSet records p.1) (tokenSet records p.2) : ℚ) : ℝ)) ∧
      ∀ i j, i < records.length → j < records.length → i ≠ j → t ≤ ((jaccard (tokenSet records i) (tokenSet records j) : ℚ) : ℝ) →
        (t / (1 + t) * (((tokenSet records i).card : ℝ) + (tokenSet records j).card) ≤
          max ((tokenSet records i).card : ℝ) ((tokenSet records j).card : ℝ) - 1 → (i, j) ∈ out ∨ (j, i) ∈ out) ∧
        ((i, j) ∈ out ∨ (j, i) ∈ out → t / (1 + t) * (((tokenSet records i).card : ℝ) + (tokenSet records j).card) ≤
          max ((tokenSet records i).card : ℝ) ((tokenSet records j).card : ℝ) - 1 + 2 / 1000000) := by
  have hlow : 1 / 2 ^ 19 ≤ t := le_trans (by norm_num) h0
  have hpos : 0 ≤ t := by linarith [show (0 : ℝ) ≤ 1 / 2 ^ 19 by norm_num]
  obtain ⟨out, hout, hout', hcomp⟩ := ppjoin_float_any hfl (h := PpjoinFloat.jaccardHelper fl t)
    ⟨hlow, h1, fun l1 l2 a b => (PpjoinFloat.jaccard_overlap hfl hpos h1 a b).1⟩ (PpjoinFloat.jaccard_lawful hfl hd h0 h1)
    (fun a b o h => by rw [add_comm]; exact h) (need := fun a b => t / (1 + t) * ((a : ℝ) + b))
    (fun a b => by ring_nf) (fun l1 l2 a b => (PpjoinFloat.jaccard_overlap hfl hpos h1 a b).2) plus hcrc hc hne hN
  obtain ⟨s1, s2⟩ := ppjoin_jaccard_float_sound hfl hcrc hout
  refine ⟨out, hout', s1, s2, fun i j hi hj hij hs => hcomp i j hi hj hij ?_⟩
  rw [jaccard] at hs
  push_cast at hs
  rwa [← card_union_cast]

/-- **C127** for Dice: computing with doubles, `ppjoin` and `ppjoin_plus` raise nothing, yield only pairs whose similarity reaches the threshold up
to `EPSILON` and roundings, and, among those whose similarity reaches it, yield the pairs whose required overlap is at most the greater size minus
one, and none for which it is greater by more than `2e-6`. -/
theorem ppjoin_dice_float (hfl : IsRounding fl) {t : ℝ} (hd : IsDouble t) (h0 : 4 / 1000000 ≤ t) (h1 : t < 1) (plus : Bool) {tokenizer : Bool}
    {records : List (List τ)} {ordering : Ppjoin.Ordering τ} (hcrc : NoCollision records ordering)
    (hc : Counted tokenizer ordering) (hne : ∀ r ∈ records, r ≠ []) (hN : ∀ i < records.length, (tokenSet records i).card ≤ 2 ^ 26) :
    ∃ out, PpjoinFloat.ppjoinRecords fl (PpjoinFloat.diceHelper fl t) ⟨false, plus⟩ tokenizer records ordering = .ok out ∧ out.Nodup ∧
      (∀ p ∈ out, p.1 < records.length ∧ p.2 < records.length ∧ p.1 ≠ p.2 ∧ (p.2, p.1) ∉ out ∧
        t - 1 / 1000000 - 1 / 2 ^ 51 ≤ ((dice (tokenSet records p.1) (tokenSet records p.2) : ℚ) : ℝ)) ∧
      ∀ i j, i < records.length → j < records.length → i ≠ j → t ≤ ((dice (tokenSet records i) (tokenSet records j) : ℚ) : ℝ) →
        ((((tokenSet records i).card : ℝ) + (tokenSet records j).card) * t / 2 ≤
          max ((tokenSet records i).card : ℝ) ((tokenSet records j).card : ℝ) - 1 → (i, j) ∈ out ∨ (j, i) ∈ out) ∧
        ((i, j) ∈ out ∨ (j, i) ∈ out → (((tokenSet records i).card : ℝ) + (tokenSet records j).card) * t / 2 ≤
          max ((tokenSet records i).card : ℝ) ((tokenSet records j).card : ℝ) - 1 + 2 / 1000000) := by
  have hlow : 1 / 2 ^ 19 ≤ t := le_trans (by norm_num) h0
  have hpos : 0 ≤ t := by linarith [show (0 : ℝ) ≤ 1 / 2 ^ 19 by norm_num]
  obtain ⟨out, hout, hout', hcomp⟩ := ppjoin_float_any hfl (h := PpjoinFloat.diceHelper fl t)
    ⟨hlow, h1, fun l1 l2 a b => (PpjoinFloat.dice_overlap hfl hpos h1 a b).1⟩ (PpjoinFloat.dice_lawful hfl hd h0 h1)
    (fun a b o h => by rw [add_comm]; exact h) (need := fun a b => ((a : ℝ) + b) * t / 2)
    (fun a b => by ring_nf) (fun l1 l2 a b => (PpjoinFloat.dice_overlap hfl hpos h1 a b).2) plus hcrc hc hne hN
  obtain ⟨s1, s2⟩ := ppjoin_dice_float_sound hfl hcrc hout
  refine ⟨out, hout', s1, s2, fun i j hi hj hij hs => hcomp i j hi hj hij ?_⟩
  rw [dice] at hs
  push_cast at hs
  exact hs

/-- **C127** for the binary cosine: computing with doubles, `ppjoin` and `ppjoin_plus` raise nothing, yield only pairs whose similarity reaches the threshold up
to `EPSILON` and roundings, and, among those whose similarity reaches it, yield the pairs whose required overlap is at most the greater size minus
one, and none for which it is greater by more than `2e-6`. -/
theorem ppjoin_cosine_float (hfl : IsRounding fl) {t : ℝ} (hd : IsDouble t) (h00 : 0 ≤ t) (h0 : 2 / 1000000 ≤ t * t) (h1 : t < 1) (plus : Bool) {tokenizer : Bool}
    {records : List (List τ)} {ordering : Ppjoin.Ordering τ} (hcrc : NoCollision records ordering)
    (hc : Counted tokenizer ordering) (hne : ∀ r ∈ records, r ≠ []) (hN : ∀ i < records.length, (tokenSet records i).card ≤ 2 ^ 26) :
    ∃ out, PpjoinFloat.ppjoinRecords fl (PpjoinFloat.binaryCosineHelper fl t) ⟨false, plus⟩ tokenizer records ordering = .ok out ∧ out.Nodup ∧
      (∀ p ∈ out, p.1 < records.length ∧ p.2 < records.length ∧ p.1 ≠ p.2 ∧ (p.2, p.1) ∉ out ∧
        t - 1 / 1000000 - 1 / 2 ^ 50 ≤ binaryCosine (tokenSet records p.1) (tokenSet records p.2)) ∧
      ∀ i j, i < records.length → j < records.length → i ≠ j → t ≤ binaryCosine (tokenSet records i) (tokenSet records j) →
        (t * Real.sqrt (((tokenSet records i).card : ℝ) * (tokenSet records j).card) ≤
          max ((tokenSet records i).card : ℝ) ((tokenSet records j).card : ℝ) - 1 → (i, j) ∈ out ∨ (j, i) ∈ out) ∧
        ((i, j) ∈ out ∨ (j, i) ∈ out → t * Real.sqrt (((tokenSet records i).card : ℝ) * (tokenSet records j).card) ≤
          max ((tokenSet records i).card : ℝ) ((tokenSet records j).card : ℝ) - 1 + 2 / 1000000) := by
  have hlow : 1 / 2 ^ 19 ≤ t := by nlinarith
  have hpos : 0 ≤ t := by linarith [show (0 : ℝ) ≤ 1 / 2 ^ 19 by norm_num]
  obtain ⟨out, hout, hout', hcomp⟩ := ppjoin_float_any hfl (h := PpjoinFloat.binaryCosineHelper fl t)
    ⟨hlow, h1, fun l1 l2 a b => (PpjoinFloat.binaryCosine_overlap hfl hpos h1 a b).1⟩ (PpjoinFloat.binaryCosine_lawful hfl hd h00 h0 h1)
    (fun a b o h => by rw [mul_comm]; exact h) (need := fun a b => t * Real.sqrt ((a : ℝ) * b))
    (fun a b => by ring_nf) (fun l1 l2 a b => (PpjoinFloat.binaryCosine_overlap hfl hpos h1 a b).2) plus hcrc hc hne hN
  obtain ⟨s1, s2⟩ := ppjoin_cosine_float_sound hfl hcrc hne hN hout
  refine ⟨out, hout', s1, s2, fun i j hi hj hij hs => hcomp i j hi hj hij ?_⟩
  exact hs

/-- Two records of nine tokens in another order, and one of three tokens. -/
theorem nine_records : ∀ i < ([[1, 2, 3, 4, 5, 6, 7, 8, 9], [9, 8, 7, 6, 5, 4, 3, 2, 1], [1, 2, 3]] : List (List Nat)).length,
    (tokenSet [[1, 2, 3, 4, 5, 6, 7, 8, 9], [9, 8, 7, 6, 5, 4, 3, 2, 1], [1, 2, 3]] i).card ≤ 2 ^ 26 := by
  intro i hi
  unfold tokenSet
  refine (List.toFinset_card_le _).trans ?_
  match i, hi with
  | 0, _ => simp
  | 1, _ => simp
  | 2, _ => simp

-- The records of nine tokens are yielded with the threshold one half.
example (hfl : IsRounding fl) : ∃ out, PpjoinFloat.ppjoinRecords fl (PpjoinFloat.jaccardHelper fl (1 / 2)) ⟨false, true⟩ true
    [[1, 2, 3, 4, 5, 6, 7, 8, 9], [9, 8, 7, 6, 5, 4, 3, 2, 1], [1, 2, 3]] .freq = .ok out ∧ ((0, 1) ∈ out ∨ (1, 0) ∈ out) := by
  have hd : IsDouble (1 / 2) := ⟨1, -1, by norm_num, by norm_num, by norm_num⟩
  obtain ⟨out, hout, -, -, hcomp⟩ := ppjoin_jaccard_float hfl hd (by norm_num) (by norm_num) true
    (tokenizer := true) (records := [[1, 2, 3, 4, 5, 6, 7, 8, 9], [9, 8, 7, 6, 5, 4, 3, 2, 1], [1, 2, 3]]) (ordering := .freq) trivial rfl
    (by simp) nine_records
  refine ⟨out, hout, (hcomp 0 1 (by simp) (by simp) (by simp) ?_).1 ?_⟩
  · have : (1 / 2 : ℚ) ≤ jaccard (tokenSet [[1, 2, 3, 4, 5, 6, 7, 8, 9], [9, 8, 7, 6, 5, 4, 3, 2, 1], [1, 2, 3]] 0)
      (tokenSet [[1, 2, 3, 4, 5, 6, 7, 8, 9], [9, 8, 7, 6, 5, 4, 3, 2, 1], [1, 2, 3]] 1) := by decide +kernel
    have h := (Rat.cast_le (K := ℝ)).mpr this
    push_cast at h
    exact h
  · have h1 : (tokenSet ([[1, 2, 3, 4, 5, 6, 7, 8, 9], [9, 8, 7, 6, 5, 4, 3, 2, 1], [1, 2, 3]] : List (List Nat)) 0).card = 9 := by
      decide +kernel
    have h2 : (tokenSet ([[1, 2, 3, 4, 5, 6, 7, 8, 9], [9, 8, 7, 6, 5, 4, 3, 2, 1], [1, 2, 3]] : List (List Nat)) 1).card = 9 := by
      decide +kernel
    rw [h1, h2]
    norm_num

-- With the threshold 0.9 as Python reads it, they are not, though they are equal.
example (hfl : IsRounding fl) : ∃ out, PpjoinFloat.ppjoinRecords fl (PpjoinFloat.jaccardHelper fl (fl (9 / 10))) ⟨false, false⟩ true
    [[1, 2, 3, 4, 5, 6, 7, 8, 9], [9, 8, 7, 6, 5, 4, 3, 2, 1], [1, 2, 3]] .freq = .ok out ∧ ¬ ((0, 1) ∈ out ∨ (1, 0) ∈ out) := by
  have e := PpjoinFloat.unit_err hfl (x := 9 / 10) (by norm_num) (by norm_num)
  have lo : (89 / 100 : ℝ) ≤ fl (9 / 10) := by linarith [show (89 / 100 : ℝ) ≤ 9 / 10 - 1 / 2 ^ 53 by norm_num]
  have hi : fl (9 / 10) ≤ (91 / 100 : ℝ) := by linarith [show (9 / 10 + 1 / 2 ^ 53 : ℝ) ≤ 91 / 100 by norm_num]
  obtain ⟨out, hout, -, -, hcomp⟩ := ppjoin_jaccard_float hfl (hfl.double (9 / 10)) (by linarith) (by linarith) false
    (tokenizer := true) (records := [[1, 2, 3, 4, 5, 6, 7, 8, 9], [9, 8, 7, 6, 5, 4, 3, 2, 1], [1, 2, 3]]) (ordering := .freq) trivial rfl
    (by simp) nine_records
  refine ⟨out, hout, fun hor => ?_⟩
  have h1 : (tokenSet ([[1, 2, 3, 4, 5, 6, 7, 8, 9], [9, 8, 7, 6, 5, 4, 3, 2, 1], [1, 2, 3]] : List (List Nat)) 0).card = 9 := by
    decide +kernel
  have h2 : (tokenSet ([[1, 2, 3, 4, 5, 6, 7, 8, 9], [9, 8, 7, 6, 5, 4, 3, 2, 1], [1, 2, 3]] : List (List Nat)) 1).card = 9 := by
    decide +kernel
  have hn := (hcomp 0 1 (by simp) (by simp) (by simp) ?_).2 hor
  · rw [h1, h2, div_mul_eq_mul_div, div_le_iff₀ (by linarith)] at hn
    norm_num at hn
    linarith
  · have : (1 : ℚ) ≤ jaccard (tokenSet [[1, 2, 3, 4, 5, 6, 7, 8, 9], [9, 8, 7, 6, 5, 4, 3, 2, 1], [1, 2, 3]] 0)
      (tokenSet [[1, 2, 3, 4, 5, 6, 7, 8, 9], [9, 8, 7, 6, 5, 4, 3, 2, 1], [1, 2, 3]] 1) := by decide +kernel
    have h := (Rat.cast_le (K := ℝ)).mpr this
    push_cast at h
    linarith

-- A threshold for the three helpers.
example : (2 / 1000000 : ℝ) ≤ 1 / 2 ∧ (4 / 1000000 : ℝ) ≤ 1 / 2 ∧ (2 / 1000000 : ℝ) ≤ 1 / 2 * (1 / 2) := by norm_num

end Fog.Props
