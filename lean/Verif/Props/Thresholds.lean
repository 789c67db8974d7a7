import Verif.Model.IntersectionIndexFloat
import Verif.Model.LshFloat
import Verif.Model.MinhashClusteringFloat
import Verif.Lemmas.Buckets
import Verif.Lemmas.Binary64Fractions
import Verif.Props.MetricsFloat
import Verif.Props.IntersectionIndex
import Verif.Props.Minhash
import Verif.Props.Simhash

/-!
# C123: comparing a computed similarity with a rounded fraction decides as the fraction does

A threshold is written as a decimal fraction, `0.8`, of which Python takes the nearest double; the similarity is a quotient, rounded as well.
-/

namespace Fog.Props

open Metrics Spec

variable {α τ : Type _} [DecidableEq α] [DecidableEq τ] {fl : ℝ → ℝ}

theorem fraction_threshold_rat (hfl : IsRounding fl) {p q a b : ℕ} (hb : 0 < b) (hab : a ≤ b) (hN : q * b < 2 ^ 53) (hN' : b < 2 ^ 53) :
    fl ((a : ℝ) / b) ≤ fl (((p : ℚ) / q : ℚ) : ℝ) ↔ (a : ℚ) / b ≤ (p : ℚ) / q := by
  have hcast : (a : ℚ) / b ≤ (p : ℚ) / q ↔ (a : ℝ) / b ≤ (p : ℝ) / q := by
    rw [← Rat.cast_le (K := ℝ)]
    push_cast
    rfl
  rw [hcast]
  push_cast
  rcases Nat.eq_zero_or_pos q with rfl | hq
  · have h := fraction_threshold hfl (p := 0) (q := 1) one_pos hb hab (by omega)
    simpa using h
  · exact fraction_threshold hfl hq hb hab hN

/-- **C123**: a Jaccard, Dice or overlap similarity computed with doubles is at least the double nearest to `a / b` exactly when the similarity
is at least `a / b`, as long as the sizes times `b` are below `2 ^ 53`. -/
theorem set_similarity_threshold (hfl : IsRounding fl) {same : Bool} {A B : List α} (hs : same = true → A = B) (hne : A ≠ []) {a b : ℕ}
    (hb : 0 < b) (hab : a ≤ b) (hN : (A.length + B.length) * b < 2 ^ 53) :
    (fl ((a : ℝ) / b) ≤ MetricsFloat.jaccardSimilarity fl same A B ↔ (a : ℚ) / b ≤ jaccard A.toFinset B.toFinset) ∧
    (fl ((a : ℝ) / b) ≤ MetricsFloat.diceCoefficient fl same A B ↔ (a : ℚ) / b ≤ dice A.toFinset B.toFinset) ∧
    (fl ((a : ℝ) / b) ≤ MetricsFloat.overlapCoefficient fl same A B ↔ (a : ℚ) / b ≤ overlap A.toFinset B.toFinset) := by
  obtain ⟨h1, h2, h3⟩ := set_similarities_rounded hfl same A B
  obtain ⟨⟨e1, e2, e3⟩, _⟩ := set_similarities_partial hs hne
  have hA : A.toFinset.card ≤ A.length := List.toFinset_card_le A
  have hB : B.toFinset.card ≤ B.length := List.toFinset_card_le B
  have hlen : 0 < A.length := List.length_pos_iff.mpr hne
  have hle : ∀ n : ℕ, n ≤ A.length + B.length → n * b < 2 ^ 53 := fun n hn => lt_of_le_of_lt (Nat.mul_le_mul_right b hn) hN
  have hb' : b < 2 ^ 53 := by simpa using hle 1 (by omega)
  rw [h1, h2, h3, e1, e2, e3]
  refine ⟨?_, ?_, ?_⟩
  · exact fraction_threshold_rat hfl hb hab (hle _ ((Finset.card_union_le _ _).trans (by omega))) hb'
  · have : dice A.toFinset B.toFinset = ((2 * (A.toFinset ∩ B.toFinset).card : ℕ) : ℚ) / ((A.toFinset.card + B.toFinset.card : ℕ) : ℚ) := by
      unfold dice
      push_cast
      rfl
    rw [this]
    exact fraction_threshold_rat hfl hb hab (hle _ (by omega)) hb'
  · exact fraction_threshold_rat hfl hb hab (hle _ (by omega)) hb'

/-- **C123**: the same of `jaccard_similarity`, whether the collections are empty or not. -/
theorem jaccard_similarity_threshold (hfl : IsRounding fl) (same : Bool) (A B : List α) {a b : ℕ} (hb : 0 < b) (hab : a ≤ b)
    (hN : (A.length + B.length + 1) * b < 2 ^ 53) :
    fl ((a : ℝ) / b) ≤ MetricsFloat.jaccardSimilarity fl same A B ↔ (a : ℚ) / b ≤ jaccardSimilarity same A B := by
  have hle : ∀ n : ℕ, n ≤ A.length + B.length + 1 → n * b < 2 ^ 53 := fun n hn => lt_of_le_of_lt (Nat.mul_le_mul_right b hn) hN
  have hb' : b < 2 ^ 53 := by simpa using hle 1 (by omega)
  rw [(set_similarities_rounded hfl same A B).1]
  cases same with
  | true =>
      have := fraction_threshold_rat hfl (p := 1) (q := 1) hb hab (by omega) hb'
      simpa [jaccardSimilarity] using this
  | false =>
      by_cases hne : A = []
      · have := fraction_threshold_rat hfl (p := 0) (q := 1) hb hab (by omega) hb'
        simpa [jaccardSimilarity, hne, dedup] using this
      · rw [(set_similarities_partial (same := false) (B := B) (fun h => by simp at h) hne).1.1]
        have hA : A.toFinset.card ≤ A.length := List.toFinset_card_le A
        have hB : B.toFinset.card ≤ B.length := List.toFinset_card_le B
        exact fraction_threshold_rat hfl hb hab (hle _ ((Finset.card_union_le _ _).trans (by omega))) hb'

/-! ### minhash -/

open Minhash MinhashClustering ClusteringUtils KeyCollision in
/-- **C123**: `minhash` with doubles and the radius `a / b` gives the clusters of exact numbers, in the same order. -/
theorem minhash_threshold (hfl : IsRounding fl) (ord : α → List α → List α) (setOrd : List ℕ → List ℕ) (hash : τ → ℕ)
    (params : List (ℕ × ℕ)) (same : α → α → Bool) (keyOf : α → List τ) (data : List α) (bands : ℕ) {a b : ℕ} (hb : 0 < b) (hab : a ≤ b)
    (hN : ∀ A ∈ data, ∀ B ∈ data, ((keyOf A).length + (keyOf B).length + 1) * b < 2 ^ 53) :
    MinhashClusteringFloat.minhash fl ord setOrd hash params same keyOf data (fl ((a : ℝ) / b)) bands =
      minhash ord setOrd hash params same keyOf data ((a : ℚ) / b) (some bands) := by
  unfold MinhashClusteringFloat.minhash minhash
  simp only []
  by_cases h0 : bands = 0
  · rw [if_pos h0, if_pos h0]
  · rw [if_neg h0, if_neg h0]
    by_cases h1 : data ≠ [] ∧ params.length / bands = 0
    · rw [if_pos h1, if_pos h1]
    · rw [if_neg h1, if_neg h1]
      unfold clustersFromBuckets
      simp only []
      congr 1
      apply List.filter_congr
      rintro ⟨A, B⟩ hm
      obtain ⟨k, hk⟩ := mem_pairs_bucketsOf.mp hm
      have hmem : ∀ x, (k, x) ∈ [(k, A), (k, B)] → x ∈ data := by
        intro x hx
        have := hk.subset hx
        simp only [List.mem_flatMap, List.mem_map, Prod.mk.injEq] at this
        obtain ⟨item, hi, _, _, _, rfl⟩ := this
        exact hi
      rw [decide_eq_decide]
      exact jaccard_similarity_threshold hfl _ _ _ hb hab (hN A (hmem A (by simp)) B (hmem B (by simp)))

/-! ### intersection_index -/

section
open IntersectionIndex

theorem neighborLoop_float (metric : Metric) (sizes : List Nat) (radius : ℚ) (radius' : ℝ) (i : Nat) (c : Dict Nat Nat)
    (h : ∀ j I, (j, I) ∈ c → ∀ si sj, sizes[i]? = some si → sizes[j]? = some sj →
      (radius' ≤ fl ((I : ℝ) / (denominator metric si sj I : ℝ)) ↔ radius ≤ (I : ℚ) / (denominator metric si sj I : ℚ))) :
    IntersectionIndexFloat.neighborLoop fl metric sizes radius' i c = neighborLoop metric sizes radius i c := by
  induction c with
  | nil => rfl
  | cons e c ih =>
      obtain ⟨j, I⟩ := e
      have ih := ih fun j I hm => h j I (by simp [hm])
      rw [IntersectionIndexFloat.neighborLoop, neighborLoop, ih]
      cases hsi : sizes[i]? with
      | none => rfl
      | some si =>
          cases hsj : sizes[j]? with
          | none => rfl
          | some sj =>
              have h1 := h j I (by simp) si sj hsi hsj
              simp only [Option.elim, bind, Except.bind, IntersectionIndexFloat.divide, divide]
              by_cases h0 : denominator metric si sj I = 0
              · simp only [if_pos h0]
              · simp only [if_neg h0, ge_iff_le, h1]

theorem clusteringLoop_float (metric : Metric) (sizes : List Nat) (radius : ℚ) (radius' : ℝ) (d : Dict Nat (Dict Nat Nat))
    (h : ∀ i c, (i, c) ∈ d → ∀ j I, (j, I) ∈ c → ∀ si sj, sizes[i]? = some si → sizes[j]? = some sj →
      (radius' ≤ fl ((I : ℝ) / (denominator metric si sj I : ℝ)) ↔ radius ≤ (I : ℚ) / (denominator metric si sj I : ℚ))) :
    IntersectionIndexFloat.clusteringLoop fl metric sizes radius' d = clusteringLoop metric sizes radius d := by
  induction d with
  | nil => rfl
  | cons e d ih =>
      obtain ⟨i, c⟩ := e
      rw [IntersectionIndexFloat.clusteringLoop, clusteringLoop, ih fun i c hm => h i c (by simp [hm]),
        neighborLoop_float metric sizes radius radius' i c (h i c (by simp))]

/-- **C123**: `intersection_index` with doubles and the radius `a / b` gives the clusters of exact numbers, in the same order, as long as the
sizes times `b` are below `2 ^ 53`. -/
theorem intersection_index_threshold (hfl : IsRounding fl) (ord : List τ → List τ) (hord : ∀ l, (ord l).Perm l) (data : List α)
    (items : List (List τ)) (metric : Metric) {a b : ℕ} (hb : 0 < b) (hab : a ≤ b)
    (hN : ∀ A ∈ items, ∀ B ∈ items, (A.length + B.length) * b < 2 ^ 53) (min_size : ℕ) (max_size : Option ℕ) (mode : ClusteringUtils.Mode) :
    IntersectionIndexFloat.intersectionIndex fl ord data items metric (fl ((a : ℝ) / b)) min_size max_size mode =
      intersectionIndex ord data items metric ((a : ℚ) / b) min_size max_size mode := by
  have key : IntersectionIndexFloat.intersectionPairs fl ord items metric (fl ((a : ℝ) / b)) =
      intersectionPairs ord items metric ((a : ℚ) / b) := by
    unfold IntersectionIndexFloat.intersectionPairs intersectionPairs
    apply clusteringLoop_float
    obtain ⟨h1, h2, h3⟩ := index_spec ord hord items
    intro i c hc j I hj si sj hsi hsj
    have h4 := Dict.get?_of_mem h1 hc
    have hget : countAt (indexLoop ord 0 items ([], [])).2 i j = some I := by
      unfold countAt
      rw [h4, Option.bind_some]
      exact Dict.get?_of_mem (h2 i c h4) hj
    obtain ⟨A, B, hA, hB, _, rfl, hpos⟩ := (h3 i j I).mp hget
    rw [List.getElem?_map, hA] at hsi
    rw [List.getElem?_map, hB] at hsj
    simp only [Option.map_some, Option.some.injEq, dedup_length] at hsi hsj
    subst hsi hsj
    have hden : ∃ q : ℕ, denominator metric A.toFinset.card B.toFinset.card (A.toFinset ∩ B.toFinset).card = (q : ℤ) ∧
        q ≤ A.toFinset.card + B.toFinset.card := by
      have hA := Finset.card_le_card (Finset.inter_subset_left (s₁ := A.toFinset) (s₂ := B.toFinset))
      cases metric with
      | jaccard => exact ⟨A.toFinset.card + B.toFinset.card - (A.toFinset ∩ B.toFinset).card, by simp only [denominator]; omega, by omega⟩
      | overlap => exact ⟨min A.toFinset.card B.toFinset.card, by simp [denominator], by omega⟩
      | unknown => exact ⟨min A.toFinset.card B.toFinset.card, by simp [denominator], by omega⟩
    obtain ⟨q, hq, hqle⟩ := hden
    have hcA : A.toFinset.card ≤ A.length := List.toFinset_card_le A
    have hcB : B.toFinset.card ≤ B.length := List.toFinset_card_le B
    have hbound := hN A (List.mem_of_getElem? hA) B (List.mem_of_getElem? hB)
    have hle : ∀ n : ℕ, n ≤ A.length + B.length → n * b < 2 ^ 53 := fun n hn => lt_of_le_of_lt (Nat.mul_le_mul_right b hn) hbound
    have hpos' : 0 < A.toFinset.card := lt_of_lt_of_le hpos (Finset.card_le_card Finset.inter_subset_left)
    have := fraction_threshold_rat hfl (p := (A.toFinset ∩ B.toFinset).card) (q := q) hb hab (hle q (by omega))
      (by simpa using hle 1 (by omega))
    rw [hq]
    push_cast at this ⊢
    exact this
  unfold IntersectionIndexFloat.intersectionIndex intersectionIndex
  rw [key]

end

/-! ### minhash_similarity, lsb_minhash_similarity, simhash_similarity -/

/-- `1 - d / h` when `d / h` is a double. -/
theorem complement_exact (hfl : IsRounding fl) {d k : ℕ} (hd : d ≤ 2 ^ k) (hk : k ≤ 52) :
    fl (1 - fl ((d : ℝ) / (2 ^ k : ℕ))) = ((2 ^ k - d : ℕ) : ℝ) / (2 ^ k : ℕ) := by
  have hdouble : ∀ m : ℕ, m ≤ 2 ^ k → IsDouble ((m : ℝ) / (2 ^ k : ℕ)) := by
    intro m hm
    have := isDouble_of_le (m := m) (e := -(k : ℤ)) (by
      rw [abs_of_nonneg (by positivity)]
      have h1 : m ≤ 2 ^ 53 := hm.trans (Nat.pow_le_pow_right (by norm_num) (by omega))
      exact_mod_cast h1) (by omega)
    rw [zpow_neg, zpow_natCast] at this
    push_cast at this ⊢
    rwa [div_eq_mul_inv]
  have hpos : (0 : ℝ) < ((2 ^ k : ℕ) : ℝ) := by positivity
  have he : 1 - (d : ℝ) / (2 ^ k : ℕ) = ((2 ^ k - d : ℕ) : ℝ) / (2 ^ k : ℕ) := by
    rw [Nat.cast_sub hd, sub_div, div_self hpos.ne']
  rw [hfl.of_double (hdouble d hd), he, hfl.of_double (hdouble _ (Nat.sub_le _ _))]

/-- `1 - d / h` is computed to `2 ^ -53`. -/
theorem complement_near (hfl : IsRounding fl) {d h : ℕ} (hh : 0 < h) (hd : d ≤ h) :
    |fl (1 - fl ((d : ℝ) / h)) - ((h - d : ℕ) : ℝ) / h| ≤ 1 / 2 ^ 53 := by
  have hpos : (0 : ℝ) < h := by exact_mod_cast hh
  have h1 : (d : ℝ) / h ≤ 1 := by
    rw [div_le_one hpos]
    exact_mod_cast hd
  have h0 : (0 : ℝ) ≤ (d : ℝ) / h := by positivity
  have he : 1 - (d : ℝ) / h = ((h - d : ℕ) : ℝ) / h := by
    rw [Nat.cast_sub hd, sub_div, div_self hpos.ne']
  have e1 := error_unit hfl (x := (d : ℝ) / h) (by rw [abs_of_nonneg h0]; exact h1)
  have e2 := error_unit hfl (x := 1 - fl ((d : ℝ) / h)) (by
    have := hfl.nonneg h0
    have := hfl.le_one h1
    rw [abs_le]
    constructor <;> linarith)
  rw [← he]
  rw [abs_le] at e1 e2 ⊢
  have : (1 : ℝ) / 2 ^ 53 = 1 / 2 ^ 54 + 1 / 2 ^ 54 := by norm_num
  rw [this]
  constructor <;> linarith

/-- The two sides of a threshold, for a similarity `1 - d / h` computed with doubles: right unless the similarity is the threshold itself and `h`
is no power of two. -/
theorem complement_threshold (hfl : IsRounding fl) {d h a b : ℕ} (hh : 0 < h) (hd : d ≤ h) (hb : 0 < b) (hab : a ≤ b)
    (hN : h * b < 2 ^ 52) (hcase : (∃ k, h = 2 ^ k) ∨ (a : ℚ) / b ≠ ((h - d : ℕ) : ℚ) / h) :
    fl ((a : ℝ) / b) ≤ fl (1 - fl ((d : ℝ) / h)) ↔ (a : ℚ) / b ≤ ((h - d : ℕ) : ℚ) / h := by
  have hcast : (a : ℚ) / b ≤ ((h - d : ℕ) : ℚ) / h ↔ (a : ℝ) / b ≤ ((h - d : ℕ) : ℝ) / h := by
    rw [← Rat.cast_le (K := ℝ)]
    push_cast
    rfl
  rcases hcase with ⟨k, rfl⟩ | hne
  · have hk : k ≤ 52 := by
      by_contra hk
      have h1 : 2 ^ 53 ≤ 2 ^ k := Nat.pow_le_pow_right (by norm_num) (by omega)
      have h2 : 2 ^ k * 1 ≤ 2 ^ k * b := Nat.mul_le_mul_left _ hb
      omega
    rw [hcast, complement_exact hfl hd hk, ← fraction_threshold hfl hh hb hab (by omega)]
    have he := complement_exact hfl (d := 2 ^ k - (2 ^ k - d)) (k := k) (Nat.sub_le _ _) hk
    rw [Nat.sub_sub_self hd] at he
    have hd' : IsDouble (((2 ^ k - d : ℕ) : ℝ) / (2 ^ k : ℕ)) := by
      rw [← he]
      exact hfl.double _
    rw [hfl.of_double hd']
  · rw [hcast]
    refine near_fraction hfl hh hb hab hN ((complement_near hfl hh hd).trans (by norm_num)) ?_
    intro h1
    apply hne
    have : (((h - d : ℕ) : ℚ) / h : ℚ) = (((a : ℚ) / b : ℚ)) := by
      rw [← Rat.cast_inj (α := ℝ)]
      push_cast
      exact h1
    exact this.symm

open Minhash in
/-- **C123** (partial: not when the similarity is exactly the threshold and the number of integers is no power of two):
`minhash_similarity` with doubles is at least the double nearest to `a / b` exactly when the share of the places where the signatures agree is
at least `a / b`. -/
theorem minhash_similarity_threshold_partial {β : Type _} [DecidableEq β] (hfl : IsRounding fl) {A B : List β} (h : A.length = B.length)
    (hne : A ≠ []) {a b : ℕ} (hb : 0 < b) (hab : a ≤ b) (hN : A.length * b < 2 ^ 52) :
    ∃ (s : ℚ) (s' : ℝ), minhashSimilarity A B = .ok s ∧ LshFloat.minhashSimilarity fl A B = .ok s' ∧
      s = ((A.zip B).countP fun p => p.1 = p.2 : ℕ) / A.length ∧
      ((∃ k, A.length = 2 ^ k) ∨ (a : ℚ) / b ≠ s → (fl ((a : ℝ) / b) ≤ s' ↔ (a : ℚ) / b ≤ s)) ∧
      ((∃ k, A.length = 2 ^ k) → s' = s) := by
  have hl : 0 < A.length := List.length_pos_iff.mpr hne
  obtain ⟨s, h1, _, h2, _⟩ := minhash_similarity_eq h hne
  have hd : (A.zip B).countP (fun p => p.1 ≠ p.2) ≤ A.length := by
    refine List.countP_le_length.trans ?_
    rw [List.length_zip]
    omega
  have hs : s = ((A.length - (A.zip B).countP (fun p => p.1 ≠ p.2) : ℕ) : ℚ) / A.length := by
    have h3 := h1
    simp only [minhashSimilarity, similarity_loop A B 0 h, if_neg hl.ne', Nat.zero_add] at h3
    injection h3 with h3
    have hlq : (A.length : ℚ) ≠ 0 := by exact_mod_cast hl.ne'
    rw [← h3, Nat.cast_sub hd, sub_div, div_self hlq]
  refine ⟨s, fl (1 - fl (((A.zip B).countP (fun p => p.1 ≠ p.2) : ℝ) / A.length)), h1, ?_, h2, ?_, ?_⟩
  · simp only [LshFloat.minhashSimilarity, similarity_loop A B 0 h, if_neg hl.ne', Nat.zero_add]
  · intro hcase
    rw [hs] at hcase ⊢
    exact complement_threshold hfl hl hd hb hab hN hcase
  · rintro ⟨k, hk⟩
    have hk52 : k ≤ 52 := by
      by_contra hk'
      have h1 : 2 ^ 53 ≤ 2 ^ k := Nat.pow_le_pow_right (by norm_num) (by omega)
      have h2 : A.length * 1 ≤ A.length * b := Nat.mul_le_mul_left _ hb
      omega
    rw [hs]
    rw [hk] at hd ⊢
    rw [complement_exact hfl hd hk52]
    push_cast
    rfl

/-- **C123**, false: nine places of ten differ, the similarity is one tenth, but it is computed below the double nearest to one tenth. -/
theorem minhash_similarity_threshold_false (hfl : IsRounding fl) :
    Minhash.minhashSimilarity [1, 2, 3, 4, 5, 6, 7, 8, 9, 10] [1, 0, 0, 0, 0, 0, 0, 0, 0, 0] = .ok (1 / 10) ∧
    ∃ s' : ℝ, LshFloat.minhashSimilarity fl [1, 2, 3, 4, 5, 6, 7, 8, 9, 10] [1, 0, 0, 0, 0, 0, 0, 0, 0, 0] = .ok s' ∧
      s' < fl (((1 : ℕ) : ℝ) / (10 : ℕ)) := by
  refine ⟨by decide +kernel, fl (1 - fl ((9 : ℕ) / (10 : ℕ))), ?_, ?_⟩
  · simp [LshFloat.minhashSimilarity, Minhash.minhashSimilarity.loop]
  · -- 8106479329266893 / 2 ^ 53 is the double nearest to 9 / 10
    have h1 : fl (((9 : ℕ) : ℝ) / (10 : ℕ)) = ((8106479329266893 : ℤ) : ℝ) * (2 : ℝ) ^ (-53 : ℤ) := by
      apply hfl.eq_of_near (by norm_num) (by norm_num) (by norm_num)
      rw [abs_lt]
      constructor <;> norm_num
    have h2 : 1 - ((8106479329266893 : ℤ) : ℝ) * (2 : ℝ) ^ (-53 : ℤ) = ((900719925474099 : ℤ) : ℝ) * (2 : ℝ) ^ (-53 : ℤ) := by norm_num
    rw [h1, h2, hfl.of_double (isDouble_of_le (by norm_num) (by norm_num))]
    have h3 : fl (((1 : ℕ) : ℝ) / (10 : ℕ)) = ((7205759403792794 : ℤ) : ℝ) * (2 : ℝ) ^ (-56 : ℤ) := by
      apply hfl.eq_of_near (by norm_num) (by norm_num) (by norm_num)
      rw [abs_lt]
      constructor <;> norm_num
    rw [h3]
    norm_num

open Simhash LshUtils in
/-- **C123**: `simhash_similarity` and `simhash_distance` with doubles are exact when `f` is a power of two, and decide as fractions. -/
theorem simhash_similarity_threshold (hfl : IsRounding fl) {A B k : ℕ} (hk : k ≤ 52) (hA : A < 2 ^ 2 ^ k) (hB : B < 2 ^ 2 ^ k) :
    ∃ s d : ℚ, simhashSimilarity A B (2 ^ k) = .ok s ∧ LshFloat.simhashSimilarity fl A B (2 ^ k) = .ok (s : ℝ) ∧
      simhashDistance A B (2 ^ k) = .ok d ∧ LshFloat.simhashDistance fl A B (2 ^ k) = .ok (d : ℝ) ∧
      ∀ a b : ℕ, 0 < b → a ≤ b → 2 ^ k * b < 2 ^ 52 → (fl ((a : ℝ) / b) ≤ s ↔ (a : ℚ) / b ≤ s) := by
  have hf : 2 ^ k ≠ 0 := by positivity
  have hle : popcount (A ^^^ B) ≤ 2 ^ k := by
    rw [popcount_eq (Nat.xor_lt_two_pow hA hB)]
    exact bitCount_le _ _
  have hpos : (0 : ℚ) < ((2 ^ k : ℕ) : ℚ) := by positivity
  have hs : 1 - (popcount (A ^^^ B) : ℚ) / (2 ^ k : ℕ) = ((2 ^ k - popcount (A ^^^ B) : ℕ) : ℚ) / (2 ^ k : ℕ) := by
    rw [Nat.cast_sub hle, sub_div, div_self hpos.ne']
  refine ⟨1 - (popcount (A ^^^ B) : ℚ) / (2 ^ k : ℕ), (popcount (A ^^^ B) : ℚ) / (2 ^ k : ℕ), ?_, ?_, ?_, ?_, ?_⟩
  · rw [simhashSimilarity, if_neg hf]
  · rw [LshFloat.simhashSimilarity, if_neg hf, complement_exact hfl hle hk, hs]
    push_cast
    rfl
  · rw [simhashDistance, if_neg hf]
  · rw [LshFloat.simhashDistance, if_neg hf]
    have := complement_exact hfl (d := 2 ^ k - popcount (A ^^^ B)) (Nat.sub_le _ _) hk
    rw [Nat.sub_sub_self hle] at this
    have hd : IsDouble ((popcount (A ^^^ B) : ℝ) / (2 ^ k : ℕ)) := by
      rw [← this]
      exact hfl.double _
    rw [hfl.of_double hd]
    push_cast
    rfl
  · intro a b hb hab hN
    have := complement_threshold hfl (d := popcount (A ^^^ B)) (h := 2 ^ k) (by positivity) hle hb hab hN (.inl ⟨k, rfl⟩)
    rw [complement_exact hfl hle hk] at this
    rw [hs, ← this]
    push_cast
    rfl

open Minhash in
/-- **C123** (partial, in the same way): `lsb_minhash_similarity` with doubles. -/
theorem lsb_minhash_similarity_threshold_partial (hfl : IsRounding fl) {A B : List ℕ} (h : A.length = B.length) (hne : A ≠ [])
    (hA : ∀ a ∈ A, a < 2 ^ 64) (hB : ∀ b ∈ B, b < 2 ^ 64) {a b : ℕ} (hb : 0 < b) (hab : a ≤ b) (hN : 32 * A.length * b < 2 ^ 51) :
    ∃ (s : ℚ) (s' : ℝ), lsbMinhashSimilarity A B = .ok s ∧ LshFloat.lsbMinhashSimilarity fl A B = .ok s' ∧
      ((∃ k, A.length = 2 ^ k) ∨ (a : ℚ) / b ≠ s → (fl ((a : ℝ) / b) ≤ s' ↔ (a : ℚ) / b ≤ s)) ∧
      ((∃ k, A.length = 2 ^ k) → s' = s) := by
  have hl : 0 < A.length := List.length_pos_iff.mpr hne
  set d := ((A.zip B).map fun p => bitCount 64 (p.1 ^^^ p.2)).sum with hd
  have hle : d ≤ 2 * (32 * A.length) := by
    have := sum_bitCount_le (A.zip B)
    rw [List.length_zip, ← h, Nat.min_self] at this
    omega
  have hb1 : 32 * A.length * 1 ≤ 32 * A.length * b := Nat.mul_le_mul_left _ hb
  have hq : (0 : ℝ) < ((32 * A.length : ℕ) : ℝ) := by
    have : 0 < 32 * A.length := by omega
    exact_mod_cast this
  have hvalue : LshFloat.lsbMinhashSimilarity fl A B = .ok (fl (1 - fl ((d : ℝ) / (32 * A.length : ℕ)))) := by
    simp only [LshFloat.lsbMinhashSimilarity, lsb_similarity_loop A B 0 h hA hB, if_neg hl.ne', Nat.zero_add, ← hd]
    congr 4
    rw [hfl.nat (n := d) (by omega), hfl.nat (n := A.length) (by omega),
      show (2 * (d : ℝ)) = ((2 * d : ℕ) : ℝ) by push_cast; ring, show ((A.length : ℝ) * 64) = ((64 * A.length : ℕ) : ℝ) by push_cast; ring,
      hfl.nat (n := 2 * d) (by omega), hfl.nat (n := 64 * A.length) (by omega)]
    have : (0 : ℝ) < A.length := by exact_mod_cast hl
    push_cast
    field_simp
    ring
  have hexact : lsbMinhashSimilarity A B = .ok (1 - (d : ℚ) / (32 * A.length : ℕ)) := by
    simp only [lsbMinhashSimilarity, lsb_similarity_loop A B 0 h hA hB, if_neg hl.ne', Nat.zero_add, ← hd]
    congr 2
    have : (0 : ℚ) < A.length := by exact_mod_cast hl
    push_cast
    field_simp
    ring
  have hpow : (∃ k, A.length = 2 ^ k) → fl (1 - fl ((d : ℝ) / (32 * A.length : ℕ))) = 1 - (d : ℝ) / (32 * A.length : ℕ) := by
    rintro ⟨k, hk⟩
    have hk47 : k ≤ 47 := by
      by_contra hk'
      have h1 : 2 ^ 48 ≤ 2 ^ k := Nat.pow_le_pow_right (by norm_num) (by omega)
      omega
    have hden : 32 * A.length = 2 ^ (k + 5) := by
      rw [hk, pow_add]
      ring
    have hdouble : ∀ m : ℤ, |m| ≤ 2 ^ 53 → IsDouble ((m : ℝ) / (2 ^ (k + 5) : ℕ)) := by
      intro m hm
      have := isDouble_of_le (m := m) (e := -((k + 5 : ℕ) : ℤ)) hm (by omega)
      rw [zpow_neg, zpow_natCast] at this
      push_cast at this ⊢
      rwa [div_eq_mul_inv]
    have h1 : fl ((d : ℝ) / (32 * A.length : ℕ)) = (d : ℝ) / (32 * A.length : ℕ) := by
      rw [hden]
      have := hfl.of_double (hdouble d (by
        rw [abs_of_nonneg (by positivity)]
        omega))
      rwa [Int.cast_natCast] at this
    rw [h1]
    have h2 : 1 - (d : ℝ) / (32 * A.length : ℕ) = (((32 * A.length : ℕ) : ℤ) - (d : ℤ) : ℤ) / ((32 * A.length : ℕ) : ℝ) := by
      push_cast
      rw [sub_div, div_self (by positivity)]
    rw [h2, hden]
    apply hfl.of_double
    apply hdouble
    rw [abs_le]
    constructor <;> omega
  have hnear : |fl (1 - fl ((d : ℝ) / (32 * A.length : ℕ))) - (1 - (d : ℝ) / (32 * A.length : ℕ))| ≤ 1 / 2 ^ 53 + 1 / 2 ^ 54 := by
    have h0 : (0 : ℝ) ≤ (d : ℝ) / (32 * A.length : ℕ) := by positivity
    have h2 : (d : ℝ) / (32 * A.length : ℕ) ≤ 2 := by
      rw [div_le_iff₀ hq]
      exact_mod_cast hle
    have e1 := error_two hfl (x := (d : ℝ) / (32 * A.length : ℕ)) (by rw [abs_of_nonneg h0]; exact h2)
    have e2 := error_unit hfl (x := 1 - fl ((d : ℝ) / (32 * A.length : ℕ))) (by
      have := hfl.nonneg h0
      have := hfl.mono h2
      rw [show fl 2 = 2 by simpa using hfl.nat (n := 2) (by norm_num)] at this
      rw [abs_le]
      constructor <;> linarith)
    rw [abs_le] at e1 e2 ⊢
    constructor <;> linarith
  refine ⟨_, _, hexact, hvalue, ?_, ?_⟩
  · intro hcase
    have ha : 0 ≤ fl ((a : ℝ) / b) := hfl.nonneg (by positivity)
    have hcast : (a : ℚ) / b ≤ 1 - (d : ℚ) / (32 * A.length : ℕ) ↔ (a : ℝ) / b ≤ 1 - (d : ℝ) / (32 * A.length : ℕ) := by
      rw [← Rat.cast_le (K := ℝ)]
      push_cast
      rfl
    rw [hcast]
    by_cases hneg : d ≤ 32 * A.length
    · have he : 1 - (d : ℝ) / (32 * A.length : ℕ) = ((32 * A.length - d : ℕ) : ℝ) / (32 * A.length : ℕ) := by
        rw [Nat.cast_sub hneg, sub_div, div_self hq.ne']
      rcases hcase with hcase | hcase
      · have h1 := hpow hcase
        have h2 : IsDouble (1 - (d : ℝ) / (32 * A.length : ℕ)) := by
          rw [← h1]
          exact hfl.double _
        rw [h1, he, ← fraction_threshold hfl (by omega) hb hab (by omega), ← he, hfl.of_double h2]
      · rw [he] at hnear ⊢
        refine near_fraction hfl (by omega) hb hab (N := 2 ^ 52) (by omega) (hnear.trans (by norm_num)) ?_
        intro h1
        apply hcase
        rw [← he] at h1
        rw [← Rat.cast_inj (α := ℝ)]
        push_cast
        push_cast at h1
        exact h1.symm
    · have h1 : 1 - (d : ℝ) / (32 * A.length : ℕ) ≤ - (1 / 2 ^ 52) := by
        have h2 : 1 + 1 / ((32 * A.length : ℕ) : ℝ) ≤ (d : ℝ) / (32 * A.length : ℕ) := by
          rw [le_div_iff₀ hq, add_mul, one_mul, one_div, inv_mul_cancel₀ hq.ne']
          exact_mod_cast (by omega : 32 * A.length + 1 ≤ d)
        have h3 : (1 : ℝ) / 2 ^ 52 ≤ 1 / ((32 * A.length : ℕ) : ℝ) := by
          apply one_div_le_one_div_of_le hq
          exact_mod_cast (by omega : 32 * A.length ≤ 2 ^ 52)
        linarith
      have h0 : (0 : ℝ) ≤ (a : ℝ) / b := by positivity
      rw [abs_le] at hnear
      have hc : (1 : ℝ) / 2 ^ 53 + 1 / 2 ^ 54 < 1 / 2 ^ 52 := by norm_num
      constructor
      · intro h2
        linarith
      · intro h2
        have : (0 : ℝ) < 1 / 2 ^ 52 := by positivity
        linarith
  · intro hk
    rw [hpow hk]
    push_cast
    rfl

/-! ### C15: the number of chunks -/

/-- **C15**: `math.ceil(n / chunk_size)`, computed with doubles, is the quotient rounded up, for fewer than `2 ^ 53` items. -/
theorem chunk_count_float (hfl : IsRounding fl) {n c : ℕ} (hc : 0 < c) (hn : n < 2 ^ 53) (hc' : c ≤ 2 ^ 53) :
    ⌈fl ((n : ℝ) / c)⌉ = (((n + c - 1) / c : ℕ) : ℤ) := by
  have hcr : (0 : ℝ) < c := by exact_mod_cast hc
  set m := (n + c - 1) / c with hm
  have h1 : n ≤ m * c := by
    have := Nat.div_add_mod (n + c - 1) c
    have h2 := Nat.mod_lt (n + c - 1) hc
    rw [← hm, Nat.mul_comm] at this
    omega
  have h2 : m * c ≤ n + c - 1 := Nat.div_mul_le_self _ _
  have hmn : m ≤ n := by
    rcases Nat.eq_zero_or_pos n with h0 | h0
    · have : m = 0 := by
        rw [hm, h0]
        exact Nat.div_eq_of_lt (by omega)
      omega
    · by_contra hlt
      have h3 : (n + 1) * c ≤ m * c := Nat.mul_le_mul_right c (by omega)
      have h4 : n * 1 ≤ n * c := Nat.mul_le_mul_left n hc
      rw [Nat.add_mul, Nat.one_mul] at h3
      omega
  rw [Int.ceil_eq_iff]
  constructor
  · rcases Nat.eq_zero_or_pos m with h0 | h0
    · rw [h0]
      have := hfl.nonneg (show (0 : ℝ) ≤ (n : ℝ) / c by positivity)
      push_cast
      linarith
    · have h3 : (m - 1) * c + 1 ≤ n := by
        have : (m - 1) * c = m * c - c := by rw [Nat.sub_mul, Nat.one_mul]
        have h4 : 1 * c ≤ m * c := Nat.mul_le_mul_right c h0
        omega
      have h4 : ((m - 1 : ℕ) : ℝ) * c + 1 ≤ n := by exact_mod_cast h3
      have h5 : ((m - 1 : ℕ) : ℝ) + 1 / c ≤ (n : ℝ) / c := by
        rw [le_div_iff₀ hcr, add_mul, one_div, inv_mul_cancel₀ hcr.ne']
        exact h4
      have h6 := hfl.mono (show ((m - 1 : ℕ) : ℝ) ≤ (n : ℝ) / c by
        have : (0 : ℝ) < 1 / c := by positivity
        linarith)
      rw [hfl.nat (by omega)] at h6
      have hne : fl ((n : ℝ) / c) ≠ ((m - 1 : ℕ) : ℝ) := by
        intro he
        have h7 := hfl.relative (x := (n : ℝ) / c) (by
          have h8 : (1 : ℝ) / c ≤ (n : ℝ) / c := by
            apply div_le_div_of_nonneg_right _ hcr.le
            exact_mod_cast (by omega : 1 ≤ n)
          refine le_trans ?_ h8
          have h9 : (1 : ℝ) / 2 ^ 53 ≤ 1 / c := one_div_le_one_div_of_le hcr (by exact_mod_cast hc')
          refine le_trans ?_ h9
          rw [one_div, ← zpow_natCast, ← zpow_neg]
          exact zpow_le_zpow_right₀ (by norm_num) (by norm_num))
        rw [he, abs_le] at h7
        have h8 : 1 / (c : ℝ) ≤ (n : ℝ) / c / 2 ^ 53 := by linarith [h7.1]
        rw [div_div, mul_comm, ← div_div, div_le_div_iff_of_pos_right hcr, le_div_iff₀ (by positivity)] at h8
        have h9 : ((2 ^ 53 : ℕ) : ℝ) ≤ n := by
          push_cast
          linarith
        have : 2 ^ 53 ≤ n := by exact_mod_cast h9
        omega
      have h7 := lt_of_le_of_ne h6 hne.symm
      have h8 : ((m : ℤ) : ℝ) - 1 = ((m - 1 : ℕ) : ℝ) := by
        rw [Nat.cast_sub h0]
        push_cast
        rfl
      rw [h8]
      exact h7
  · have h3 : (n : ℝ) / c ≤ (m : ℝ) := by
      rw [div_le_iff₀ hcr]
      exact_mod_cast h1
    have h4 := hfl.mono h3
    rw [hfl.nat (by omega)] at h4
    exact_mod_cast h4

example : (2 ^ 52 + 100 - 1) / 100 = 45035996273705 ∧ 2 ^ 52 < 2 ^ 53 ∧ 100 ≤ 2 ^ 53 := by norm_num

/-! ### Examples -/

/-- The radius 0.8 and items of up to a million tokens. -/
example (A B : List ℕ) (hA : A.length ≤ 1000000) (hB : B.length ≤ 1000000) : (A.length + B.length + 1) * 5 < 2 ^ 53 := by omega

/-- Two sets whose Jaccard similarity is exactly four fifths: the computed one is at least 0.8. -/
example (hfl : IsRounding fl) : fl ((4 : ℕ) / (5 : ℕ)) ≤ MetricsFloat.jaccardSimilarity fl false [1, 2, 3, 4, 5] [1, 2, 3, 4] := by
  rw [(set_similarity_threshold hfl (same := false) (fun h => by simp at h) (by simp) (by norm_num) (by norm_num) (by norm_num)).1]
  have h1 : (([1, 2, 3, 4, 5] : List ℕ).toFinset ∩ ([1, 2, 3, 4] : List ℕ).toFinset).card = 4 := by decide
  have h2 : (([1, 2, 3, 4, 5] : List ℕ).toFinset ∪ ([1, 2, 3, 4] : List ℕ).toFinset).card = 5 := by decide
  rw [jaccard, h1, h2]

/-- The default number of integers of the signatures is a power of two. -/
example (A : List ℕ) (h : A.length = 256) : (∃ k, A.length = 2 ^ k) ∧ A.length * 100 < 2 ^ 52 := ⟨⟨8, h⟩, by rw [h]; norm_num⟩

end Fog.Props
