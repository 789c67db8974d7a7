import Verif.Lemmas.Metrics
import Verif.Spec.Vectors
import Verif.Spec.Cosine
import Mathlib.Tactic.FieldSimp
import Mathlib.Tactic.Positivity
import Mathlib.Algebra.BigOperators.Field

/-!
# C39, C40, C41, C61, C62: metrics
-/

namespace Fog.Props

open Metrics Spec

variable {α κ : Type _} [DecidableEq α] [DecidableEq κ]

/-! ## C39 -/

/-- `jaccard_similarity` is the Jaccard index of the two sets of elements, on collections which are not the same object. -/
theorem jaccard_similarity_eq (A B : List α) : jaccardSimilarity false A B = jaccard A.toFinset B.toFinset := by
  simp only [jaccardSimilarity, Bool.false_eq_true, if_false]
  by_cases h : (dedup A).length = 0 ∨ (dedup B).length = 0
  · rw [if_pos h]
    rw [length_dedup, length_dedup, Finset.card_eq_zero, Finset.card_eq_zero] at h
    rcases h with h | h <;> simp [jaccard, h]
  · rw [if_neg h]
    have h1 := countIn_swapped A B
    have h2 := length_swapped_add A B
    rw [h1, h2, jaccard]
    congr 2
    have := Finset.card_union_add_card_inter A.toFinset B.toFinset
    omega

/-- `dice_coefficient` is the Dice coefficient of the two sets of elements, one of which is not empty. -/
theorem dice_coefficient_eq {A B : List α} (h : A ≠ [] ∨ B ≠ []) :
    diceCoefficient false A B = dice A.toFinset B.toFinset := by
  simp only [diceCoefficient, Bool.false_eq_true, if_false]
  have h1 := countIn_swapped A B
  have h2 := length_swapped_add A B
  have h3 := length_swapped_fst A B
  have h4 := length_swapped_snd A B
  rw [h1, h2]
  by_cases h0 : (swapped (dedup A) (dedup B)).1.length = 0
  · rw [if_pos h0]
    rw [h3] at h0
    have hle : (A.toFinset ∩ B.toFinset).card = 0 := by
      have ha := Finset.card_le_card (Finset.inter_subset_left (s₁ := A.toFinset) (s₂ := B.toFinset))
      have hb := Finset.card_le_card (Finset.inter_subset_right (s₁ := A.toFinset) (s₂ := B.toFinset))
      omega
    rw [if_neg]
    · simp [dice, hle]
    · rw [h4]
      rcases h with h | h
      · obtain ⟨a, l, rfl⟩ := List.exists_cons_of_ne_nil h
        have : 0 < (a :: l).toFinset.card := Finset.card_pos.mpr ⟨a, by simp⟩
        omega
      · obtain ⟨a, l, rfl⟩ := List.exists_cons_of_ne_nil h
        have : 0 < (a :: l).toFinset.card := Finset.card_pos.mpr ⟨a, by simp⟩
        omega
  · rw [if_neg h0]; simp [dice]

/-- `overlap_coefficient` is the overlap coefficient of the two sets of elements. -/
theorem overlap_coefficient_eq (A B : List α) : overlapCoefficient false A B = overlap A.toFinset B.toFinset := by
  simp only [overlapCoefficient, Bool.false_eq_true, if_false]
  by_cases h : (dedup A).length = 0 ∨ (dedup B).length = 0
  · rw [if_pos h]
    rw [length_dedup, length_dedup, Finset.card_eq_zero, Finset.card_eq_zero] at h
    rcases h with h | h <;> simp [overlap, h]
  · rw [if_neg h]
    have h1 := countIn_swapped A B
    have h3 := length_swapped_fst A B
    have h4 := length_swapped_snd A B
    rw [h1, h3, h4, overlap]
    congr 2
    omega

/-- The specifications are symmetric, between zero and one, and one on equal sets. -/
theorem set_similarity_laws (A B : Finset α) :
    (jaccard A B = jaccard B A ∧ dice A B = dice B A ∧ overlap A B = overlap B A) ∧
    (0 ≤ jaccard A B ∧ jaccard A B ≤ 1 ∧ 0 ≤ dice A B ∧ dice A B ≤ 1 ∧ 0 ≤ overlap A B ∧ overlap A B ≤ 1) ∧
    (A.Nonempty → (jaccard A B = 1 ↔ A = B) ∧ (dice A B = 1 ↔ A = B) ∧ (B.Nonempty → (overlap A B = 1 ↔ A ⊆ B ∨ B ⊆ A))) := by
  have hiA : (A ∩ B).card ≤ A.card := Finset.card_le_card Finset.inter_subset_left
  have hiB : (A ∩ B).card ≤ B.card := Finset.card_le_card Finset.inter_subset_right
  have hu := Finset.card_union_add_card_inter A B
  refine ⟨⟨?_, ?_, ?_⟩, ⟨?_, ?_, ?_, ?_, ?_, ?_⟩, ?_⟩
  · rw [jaccard, jaccard, Finset.inter_comm, Finset.union_comm]
  · rw [dice, dice, Finset.inter_comm, Nat.add_comm]
  · rw [overlap, overlap, Finset.inter_comm, Nat.min_comm]
  · unfold jaccard; positivity
  · unfold jaccard; apply div_le_one_of_le₀
    · have : (A ∩ B).card ≤ (A ∪ B).card := by omega
      exact_mod_cast this
    · positivity
  · unfold dice; positivity
  · unfold dice; apply div_le_one_of_le₀
    · have : 2 * (A ∩ B).card ≤ A.card + B.card := by omega
      exact_mod_cast this
    · positivity
  · unfold overlap; positivity
  · unfold overlap; apply div_le_one_of_le₀
    · have : (A ∩ B).card ≤ min A.card B.card := by omega
      exact_mod_cast this
    · positivity
  · intro hA
    have hA' : 0 < A.card := Finset.card_pos.mpr hA
    have hcard : (A ∩ B).card = A.card → A ⊆ B := by
      intro h
      have := Finset.eq_of_subset_of_card_le (Finset.inter_subset_left (s₁ := A) (s₂ := B)) (by omega)
      exact Finset.inter_eq_left.mp this
    have hcard' : (A ∩ B).card = B.card → B ⊆ A := by
      intro h
      have := Finset.eq_of_subset_of_card_le (Finset.inter_subset_right (s₁ := A) (s₂ := B)) (by omega)
      exact Finset.inter_eq_right.mp this
    refine ⟨⟨?_, ?_⟩, ⟨?_, ?_⟩, ?_⟩
    · intro h
      have hne : ((A ∪ B).card : ℚ) ≠ 0 := by
        have : 0 < (A ∪ B).card := by omega
        exact_mod_cast this.ne'
      rw [jaccard, div_eq_one_iff_eq hne] at h
      have h' : (A ∩ B).card = (A ∪ B).card := by exact_mod_cast h
      exact Finset.Subset.antisymm (hcard (by omega)) (hcard' (by omega))
    · rintro rfl
      rw [jaccard, Finset.inter_self, Finset.union_self]
      have : (A.card : ℚ) ≠ 0 := by exact_mod_cast hA'.ne'
      exact div_self this
    · intro h
      have hne : ((A.card + B.card : ℕ) : ℚ) ≠ 0 := by
        have : 0 < A.card + B.card := by omega
        exact_mod_cast this.ne'
      rw [dice, div_eq_one_iff_eq hne] at h
      have h' : 2 * (A ∩ B).card = A.card + B.card := by exact_mod_cast h
      exact Finset.Subset.antisymm (hcard (by omega)) (hcard' (by omega))
    · rintro rfl
      rw [dice, Finset.inter_self]
      have : (A.card : ℚ) ≠ 0 := by exact_mod_cast hA'.ne'
      push_cast
      field_simp
      norm_num
    · intro hB
      have hB' : 0 < B.card := Finset.card_pos.mpr hB
      have hne : ((min A.card B.card : ℕ) : ℚ) ≠ 0 := by
        have : 0 < min A.card B.card := by omega
        exact_mod_cast this.ne'
      rw [overlap, div_eq_one_iff_eq hne]
      constructor
      · intro h
        have h' : (A ∩ B).card = min A.card B.card := by exact_mod_cast h
        rcases Nat.le_total A.card B.card with h1 | h1
        · exact Or.inl (hcard (by omega))
        · exact Or.inr (hcard' (by omega))
      · rintro (h | h)
        · have h1 := Finset.inter_eq_left.mpr h
          have h2 := Finset.card_le_card h
          rw [h1, Nat.min_eq_left h2]
        · have h1 := Finset.inter_eq_right.mpr h
          have h2 := Finset.card_le_card h
          rw [h1, Nat.min_eq_right h2]

/-- **C39** partial: on two collections which are not both empty, or which are not the same object, the three functions are
symmetric, within bounds, are one on equal collections and depend only on the sets of elements. `same` is whether the two
collections are the same object, in which case they are equal. Missing: for two empty collections, see below. -/
theorem set_similarities_partial {same : Bool} {A B : List α} (hs : same = true → A = B) (hne : A ≠ []) :
    (jaccardSimilarity same A B = jaccard A.toFinset B.toFinset ∧ diceCoefficient same A B = dice A.toFinset B.toFinset ∧
      overlapCoefficient same A B = overlap A.toFinset B.toFinset) ∧
    (jaccardSimilarity same A B = jaccardSimilarity same B A ∧ diceCoefficient same A B = diceCoefficient same B A ∧
      overlapCoefficient same A B = overlapCoefficient same B A) ∧
    (0 ≤ jaccardSimilarity same A B ∧ jaccardSimilarity same A B ≤ 1 ∧ 0 ≤ diceCoefficient same A B ∧
      diceCoefficient same A B ≤ 1 ∧ 0 ≤ overlapCoefficient same A B ∧ overlapCoefficient same A B ≤ 1) ∧
    (jaccardSimilarity same A B = 1 ↔ A.toFinset = B.toFinset) ∧ (diceCoefficient same A B = 1 ↔ A.toFinset = B.toFinset) ∧
    (A.toFinset = B.toFinset → overlapCoefficient same A B = 1) := by
  have hAne : A.toFinset.Nonempty := by
    obtain ⟨a, l, rfl⟩ := List.exists_cons_of_ne_nil hne
    exact ⟨a, by simp⟩
  obtain ⟨⟨s1, s2, s3⟩, ⟨b1, b2, b3, b4, b5, b6⟩, h3⟩ := set_similarity_laws A.toFinset B.toFinset
  obtain ⟨e1, e2, e3⟩ := h3 hAne
  have heq : jaccardSimilarity same A B = jaccard A.toFinset B.toFinset ∧
      diceCoefficient same A B = dice A.toFinset B.toFinset ∧
      overlapCoefficient same A B = overlap A.toFinset B.toFinset := by
    cases same with
    | false => exact ⟨jaccard_similarity_eq A B, dice_coefficient_eq (Or.inl hne), overlap_coefficient_eq A B⟩
    | true =>
        have := hs rfl
        subst this
        refine ⟨?_, ?_, ?_⟩
        · rw [e1.mpr rfl]; simp [jaccardSimilarity]
        · rw [e2.mpr rfl]; simp [diceCoefficient]
        · rw [(e3 hAne).mpr (Or.inl (Finset.Subset.refl _))]; simp [overlapCoefficient]
  refine ⟨heq, ?_, ?_, ?_, ?_, ?_⟩
  · cases same with
    | true => simp [jaccardSimilarity, diceCoefficient, overlapCoefficient]
    | false =>
        rw [jaccard_similarity_eq, jaccard_similarity_eq, dice_coefficient_eq (Or.inl hne), dice_coefficient_eq (Or.inr hne),
          overlap_coefficient_eq, overlap_coefficient_eq]
        exact ⟨s1, s2, s3⟩
  · rw [heq.1, heq.2.1, heq.2.2]; exact ⟨b1, b2, b3, b4, b5, b6⟩
  · rw [heq.1]; exact e1
  · rw [heq.2.1]; exact e2
  · rw [heq.2.2]
    intro h
    exact (e3 (h ▸ hAne)).mpr (Or.inl (h ▸ Finset.Subset.refl _))

example : jaccardSimilarity false ['c', 'o', 'n', 't', 'e', 'x', 't'] ['c', 'o', 'n', 't', 'a', 'c', 't'] = 4 / 7 := by
  decide +kernel

/-- **C39** is false on empty collections: the similarity of two equal collections depends on their being the same object,
hence not only on their elements, and it may be zero. -/
theorem set_similarities_empty :
    jaccardSimilarity true ([] : List α) [] = 1 ∧ jaccardSimilarity false ([] : List α) [] = 0 ∧
    overlapCoefficient true ([] : List α) [] = 1 ∧ overlapCoefficient false ([] : List α) [] = 0 ∧
    diceCoefficient true ([] : List α) [] = 1 ∧ diceCoefficient false ([] : List α) [] = 1 := by
  simp [jaccardSimilarity, overlapCoefficient, diceCoefficient, dedup, swapped]

/-! ## C62 -/

/-- **C62**: on two collections which are not the same object, or which have no duplicates, `intersection_size` is the number
of elements in common. -/
theorem intersection_size_partial {same : Bool} {A B : List α} (hs : same = true → A = B ∧ A.Nodup) :
    intersectionSize same A B = (A.toFinset ∩ B.toFinset).card := by
  cases same with
  | true =>
      obtain ⟨rfl, hn⟩ := hs rfl
      simp [intersectionSize, List.toFinset_card_of_nodup hn]
  | false =>
      simp only [intersectionSize, Bool.false_eq_true, if_false]
      rw [countIn_swapped]
      by_cases h0 : (swapped (dedup A) (dedup B)).1.length = 0
      · rw [if_pos h0]
        rw [length_swapped_fst] at h0
        have ha := Finset.card_le_card (Finset.inter_subset_left (s₁ := A.toFinset) (s₂ := B.toFinset))
        have hb := Finset.card_le_card (Finset.inter_subset_right (s₁ := A.toFinset) (s₂ := B.toFinset))
        omega
      · rw [if_neg h0]

/-- A list with duplicates has more elements in common with itself than with its copy. -/
theorem intersection_size_same : intersectionSize true ['a', 'a'] ['a', 'a'] = 2 ∧
    intersectionSize false ['a', 'a'] ['a', 'a'] = 1 ∧ (['a', 'a'].toFinset ∩ ['a', 'a'].toFinset).card = 1 := by
  decide +kernel

example : intersectionSize false [1, 2, 2, 3] [3, 2, 5] = 2 := by decide +kernel

/-! ## C40 -/

section weighted

variable {K : Type _} [Field K] [LinearOrder K] [IsStrictOrderedRing K]

/-- **C40** partial: for non-negative weights, not all of which are zero, `weighted_jaccard_similarity` is the sum of the
smaller weights over the sum of the larger ones. Missing: when all weights are zero, see below. -/
theorem weighted_jaccard_partial {same : Bool} {A B : Dict κ K} (hs : same = true → A = B) (hA : (Dict.keys A).Nodup)
    (hB : (Dict.keys B).Nodup) (hA0 : ∀ k, 0 ≤ weight A k) (hB0 : ∀ k, 0 ≤ weight B k)
    (hnz : ∃ k, weight A k ≠ 0 ∨ weight B k ≠ 0) :
    weightedJaccardSimilarity same A B =
      .ok (weightedJaccard ((Dict.keys A).toFinset ∪ (Dict.keys B).toFinset) (weight A) (weight B)) := by
  have hpos : 0 < ∑ k ∈ (Dict.keys A).toFinset ∪ (Dict.keys B).toFinset, max (weight A k) (weight B k) := by
    obtain ⟨k, hk⟩ := hnz
    apply Finset.sum_pos'
    · intro i _; exact le_max_of_le_left (hA0 i)
    · refine ⟨k, ?_, ?_⟩
      · rw [Finset.mem_union, List.mem_toFinset, List.mem_toFinset]
        by_contra hc
        rw [not_or] at hc
        rcases hk with h | h
        · exact h (weight_of_not_mem hc.1)
        · exact h (weight_of_not_mem hc.2)
      · rcases hk with h | h
        · exact lt_max_of_lt_left (lt_of_le_of_ne (hA0 k) (Ne.symm h))
        · exact lt_max_of_lt_right (lt_of_le_of_ne (hB0 k) (Ne.symm h))
  unfold weightedJaccard
  cases same with
  | true =>
      have := hs rfl
      subst this
      simp only [min_self, max_self] at hpos ⊢
      simp only [weightedJaccardSimilarity, if_true]
      rw [div_self hpos.ne']
  | false =>
      simp only [weightedJaccardSimilarity, Bool.false_eq_true, if_false]
      by_cases he : A.length = 0 ∨ B.length = 0
      · rw [if_pos he]
        have hz : ∀ k, min (weight A k) (weight B k) = 0 := by
          intro k
          rcases he with h | h
          · have : A = [] := List.length_eq_zero_iff.mp h
            subst this
            have : weight ([] : Dict κ K) k = 0 := rfl
            rw [this]; exact min_eq_left (hB0 k)
          · have : B = [] := List.length_eq_zero_iff.mp h
            subst this
            have : weight ([] : Dict κ K) k = 0 := rfl
            rw [this]; exact min_eq_right (hA0 k)
        simp [hz]
      · rw [if_neg he]
        split
        · obtain ⟨h1, h2⟩ := weighted_sums hB hA hB0 hA0
          simp only
          rw [h1, h2, Finset.union_comm]
          simp only [min_comm (weight B _), max_comm (weight B _)]
          rw [if_neg hpos.ne']
        · obtain ⟨h1, h2⟩ := weighted_sums hA hB hA0 hB0
          simp only
          rw [h1, h2, if_neg hpos.ne']

/-- **C40**: the ratio is symmetric and between zero and one. -/
theorem weighted_jaccard_laws (S : Finset κ) (f g : κ → K) (hf : ∀ k, 0 ≤ f k) (hg : ∀ k, 0 ≤ g k) :
    weightedJaccard S f g = weightedJaccard S g f ∧ 0 ≤ weightedJaccard S f g ∧ weightedJaccard S f g ≤ 1 := by
  have h0 : 0 ≤ ∑ k ∈ S, max (f k) (g k) := Finset.sum_nonneg fun k _ => le_max_of_le_left (hf k)
  refine ⟨?_, ?_, ?_⟩
  · unfold weightedJaccard
    simp only [min_comm (f _), max_comm (f _)]
  · exact div_nonneg (Finset.sum_nonneg fun k _ => le_min (hf k) (hg k)) h0
  · exact div_le_one_of_le₀ (Finset.sum_le_sum fun k _ => min_le_max) h0

/-- **C40** is false when all weights are zero: the function raises a `ZeroDivisionError` unless a map is empty. -/
theorem weighted_jaccard_zero {A B : Dict κ K} (hA : (Dict.keys A).Nodup) (hB : (Dict.keys B).Nodup) (hA0 : ∀ k, weight A k = 0)
    (hB0 : ∀ k, weight B k = 0) (hAne : A ≠ []) (hBne : B ≠ []) :
    weightedJaccardSimilarity false A B = .error .zeroDivisionError := by
  have hz : ∀ S : Finset κ, ∑ k ∈ S, max (weight A k) (weight B k) = 0 := by
    intro S; apply Finset.sum_eq_zero; intro k _; rw [hA0, hB0, max_self]
  simp only [weightedJaccardSimilarity, Bool.false_eq_true, if_false]
  rw [if_neg (by simp [hAne, hBne])]
  split
  · obtain ⟨h1, h2⟩ := weighted_sums hB hA (fun k => (hB0 k).ge) (fun k => (hA0 k).ge)
    simp only
    rw [h2]
    simp only [max_comm (weight B _)]
    rw [hz, if_pos rfl]
  · obtain ⟨h1, h2⟩ := weighted_sums hA hB (fun k => (hA0 k).ge) (fun k => (hB0 k).ge)
    simp only
    rw [h2, hz, if_pos rfl]

example : weightedJaccardSimilarity false [('a', (34 : ℚ)), ('p', 3)] [('p', 1), ('o', 1)] = .ok (1 / 38) := by
  decide +kernel

example : weightedJaccardSimilarity false [('a', (0 : ℚ))] [('a', 0)] = .error .zeroDivisionError := by
  decide +kernel

end weighted

/-! ## C41 -/

/-- The value computed, whichever vector is iterated upon. -/
theorem sparse_cosine_value {A B : Dict κ ℝ} (hA : (Dict.keys A).Nodup) (hB : (Dict.keys B).Nodup) (hAe : A ≠ [])
    (hBe : B ≠ []) (S : Finset κ) (hS : S = (Dict.keys A).toFinset ∪ (Dict.keys B).toFinset) :
    sparseCosineSimilarity false A B = if Spec.norm S (weight A) * Spec.norm S (weight B) = 0 then .error .zeroDivisionError
      else .ok (cosine S (weight A) (weight B)) := by
  have hdd : ∀ f : κ → ℝ, dot S f f = ∑ k ∈ S, f k ^ 2 := by
    intro f; unfold dot; apply Finset.sum_congr rfl; intro k _; ring
  have hsq : ∀ f : κ → ℝ, 0 ≤ ∑ k ∈ S, f k ^ 2 := fun f => Finset.sum_nonneg fun k _ => sq_nonneg _
  have hnorm : ∀ f g : κ → ℝ, Spec.norm S f * Spec.norm S g = Real.sqrt ((∑ k ∈ S, f k ^ 2) * ∑ k ∈ S, g k ^ 2) := by
    intro f g; unfold Spec.norm; rw [hdd, hdd, Real.sqrt_mul (hsq f)]
  simp only [sparseCosineSimilarity, Bool.false_eq_true, if_false]
  rw [if_neg (by simp [hAe, hBe])]
  unfold cosine
  rw [hnorm]
  split
  · simp only [cosineStep_foldl, zero_add]
    rw [foldl_add, zero_add, sq_eq hA S (by rw [hS]; exact Finset.subset_union_left),
      sq_eq hB S (by rw [hS]; exact Finset.subset_union_right), dot_eq hB, Finset.union_comm, ← hS,
      mul_comm (∑ k ∈ S, weight B k ^ 2)]
    unfold dot
    simp only [mul_comm (weight B _)]
  · simp only [cosineStep_foldl, zero_add]
    rw [foldl_add, zero_add, sq_eq hA S (by rw [hS]; exact Finset.subset_union_left),
      sq_eq hB S (by rw [hS]; exact Finset.subset_union_right), dot_eq hA, ← hS]
    rfl

theorem norm_pos_iff' (S : Finset κ) (f : κ → ℝ) : 0 < Spec.norm S f ↔ ∃ k ∈ S, f k ≠ 0 := by
  have hdd : dot S f f = ∑ k ∈ S, f k ^ 2 := by
    unfold dot; apply Finset.sum_congr rfl; intro k _; ring
  unfold Spec.norm
  rw [Real.sqrt_pos, hdd]
  constructor
  · intro h
    by_contra hc
    simp only [not_exists, not_and, not_not] at hc
    rw [Finset.sum_eq_zero fun k hk => by rw [hc k hk]; ring] at h
    exact lt_irrefl _ h
  · rintro ⟨k, hk, hne⟩
    exact Finset.sum_pos' (fun i _ => sq_nonneg _) ⟨k, hk, by positivity⟩

/-- **C41**: on sparse vectors which are not zero, `sparse_cosine_similarity` is the cosine of their angle. `same` is whether
they are the same object. -/
theorem sparse_cosine_eq {same : Bool} {A B : Dict κ ℝ} (hs : same = true → A = B) (hA : (Dict.keys A).Nodup)
    (hB : (Dict.keys B).Nodup) (hAnz : ∃ k, weight A k ≠ 0) (hBnz : ∃ k, weight B k ≠ 0) :
    sparseCosineSimilarity same A B =
      .ok (cosine ((Dict.keys A).toFinset ∪ (Dict.keys B).toFinset) (weight A) (weight B)) := by
  have hmem : ∀ (D : Dict κ ℝ) k, weight D k ≠ 0 → k ∈ Dict.keys D := by
    intro D k h
    by_contra hc
    exact h (weight_of_not_mem hc)
  obtain ⟨ka, hka⟩ := hAnz
  obtain ⟨kb, hkb⟩ := hBnz
  have pA : 0 < Spec.norm ((Dict.keys A).toFinset ∪ (Dict.keys B).toFinset) (weight A) :=
    (norm_pos_iff' _ _).mpr ⟨ka, by simp [hmem A ka hka], hka⟩
  have pB : 0 < Spec.norm ((Dict.keys A).toFinset ∪ (Dict.keys B).toFinset) (weight B) :=
    (norm_pos_iff' _ _).mpr ⟨kb, by simp [hmem B kb hkb], hkb⟩
  cases same with
  | true =>
      have := hs rfl
      subst this
      simp only [sparseCosineSimilarity, if_true]
      congr 1
      unfold cosine
      rw [eq_comm, div_eq_one_iff_eq (mul_pos pA pA).ne']
      unfold Spec.norm
      rw [Real.mul_self_sqrt]
      unfold dot
      exact Finset.sum_nonneg fun k _ => mul_self_nonneg _
  | false =>
      rw [sparse_cosine_value hA hB (by rintro rfl; simp [weight, Dict.get?] at hka)
        (by rintro rfl; simp [weight, Dict.get?] at hkb) _ rfl, if_neg (mul_pos pA pB).ne']

/-- **C41**: the cosine is symmetric, between minus one and one, and one on equal vectors which are not zero. -/
theorem cosine_laws (S : Finset κ) (f g : κ → ℝ) :
    cosine S f g = cosine S g f ∧ -1 ≤ cosine S f g ∧ cosine S f g ≤ 1 ∧ ((∃ k ∈ S, f k ≠ 0) → cosine S f f = 1) := by
  have habs : |cosine S f g| ≤ 1 := by
    unfold cosine
    rw [abs_div, abs_of_nonneg (mul_nonneg (Real.sqrt_nonneg _) (Real.sqrt_nonneg _) : 0 ≤ Spec.norm S f * Spec.norm S g)]
    apply div_le_one_of_le₀ _ (mul_nonneg (Real.sqrt_nonneg _) (Real.sqrt_nonneg _))
    have hff : 0 ≤ dot S f f := Finset.sum_nonneg fun k _ => mul_self_nonneg _
    rw [← Real.sqrt_mul hff]
    apply Real.abs_le_sqrt
    have := Finset.sum_mul_sq_le_sq_mul_sq S f g
    unfold dot
    calc (∑ k ∈ S, f k * g k) ^ 2 ≤ (∑ k ∈ S, f k ^ 2) * ∑ k ∈ S, g k ^ 2 := this
      _ = (∑ k ∈ S, f k * f k) * ∑ k ∈ S, g k * g k := by
        congr 1 <;> (apply Finset.sum_congr rfl; intro k _; ring)
  refine ⟨?_, (abs_le.mp habs).1, (abs_le.mp habs).2, ?_⟩
  · unfold cosine dot
    simp only [mul_comm (f _)]
    rw [mul_comm (Spec.norm S f)]
  · intro hnz
    have hp := (norm_pos_iff' S f).mpr hnz
    unfold cosine
    rw [div_eq_one_iff_eq (mul_pos hp hp).ne']
    unfold Spec.norm
    rw [Real.mul_self_sqrt]
    exact Finset.sum_nonneg fun k _ => mul_self_nonneg _

/-- A zero vector which is not empty raises a `ZeroDivisionError`. -/
theorem sparse_cosine_zero {A B : Dict κ ℝ} (hA : (Dict.keys A).Nodup) (hB : (Dict.keys B).Nodup) (hAe : A ≠ []) (hBe : B ≠ [])
    (hz : ∀ k, weight A k = 0) : sparseCosineSimilarity false A B = .error .zeroDivisionError := by
  rw [sparse_cosine_value hA hB hAe hBe _ rfl, if_pos]
  have : Spec.norm ((Dict.keys A).toFinset ∪ (Dict.keys B).toFinset) (weight A) = 0 := by
    unfold Spec.norm dot
    rw [Finset.sum_eq_zero fun k _ => by rw [hz]; ring, Real.sqrt_zero]
  rw [this, zero_mul]

theorem binary_foldl (B : List α) (l : List α) (x y : ℝ) :
    l.foldl (fun (s : ℝ × ℝ) k => (s.1 + 1, if k ∈ B then s.2 + 1 else s.2)) (x, y) =
      (x + l.length, y + ((l.filter (· ∈ B)).length : ℝ)) := by
  induction l generalizing x y with
  | nil => simp
  | cons a l ih =>
      rw [List.foldl_cons, ih]
      by_cases h : a ∈ B
      · simp [h]; constructor <;> ring
      · simp [h]; ring

/-- **C41**: on sets which are not empty, `sparse_binary_cosine_similarity` is the cosine of the two sets seen as vectors of
zeros and ones. -/
theorem sparse_binary_cosine_eq {same : Bool} {A B : List α} (hs : same = true → A = B) (hA : A.Nodup) (hB : B.Nodup)
    (hAe : A ≠ []) (hBe : B ≠ []) :
    sparseBinaryCosineSimilarity same A B = .ok (binaryCosine A.toFinset B.toFinset) := by
  have hcA : A.toFinset.card = A.length := List.toFinset_card_of_nodup hA
  have hcB : B.toFinset.card = B.length := List.toFinset_card_of_nodup hB
  have pA : 0 < (A.length : ℝ) := by
    have : 0 < A.length := List.length_pos_iff.mpr hAe
    exact_mod_cast this
  have pB : 0 < (B.length : ℝ) := by
    have : 0 < B.length := List.length_pos_iff.mpr hBe
    exact_mod_cast this
  have hfilter : ∀ A B : List α, A.Nodup → (A.filter (· ∈ B)).length = (A.toFinset ∩ B.toFinset).card := by
    intro A B hA
    rw [← List.toFinset_card_of_nodup (hA.filter _)]
    congr 1; ext a; simp
  cases same with
  | true =>
      have := hs rfl
      subst this
      simp only [sparseBinaryCosineSimilarity, if_true, binaryCosine, Finset.inter_self, hcA]
      rw [Real.sqrt_mul_self pA.le, div_self pA.ne']
  | false =>
      simp only [sparseBinaryCosineSimilarity, Bool.false_eq_true, if_false]
      rw [if_neg (by simp [hAe, hBe])]
      unfold binaryCosine
      rw [hcA, hcB]
      have hp : Real.sqrt ((A.length : ℝ) * B.length) ≠ 0 := (Real.sqrt_pos.mpr (mul_pos pA pB)).ne'
      split
      · simp only [binary_foldl, zero_add]
        rw [mul_comm (B.length : ℝ), if_neg hp, hfilter B A hB, Finset.inter_comm]
      · simp only [binary_foldl, zero_add]
        rw [if_neg hp, hfilter A B hA]

/-- **C41**: the binary cosine of two sets is the cosine of their indicator vectors. -/
theorem binaryCosine_eq_cosine (A B : Finset α) :
    binaryCosine A B = cosine (A ∪ B) (fun k => if k ∈ A then 1 else 0) (fun k => if k ∈ B then 1 else 0) := by
  have hdot : ∀ S T : Finset α, S ⊆ A ∪ B → dot (A ∪ B) (fun k => if k ∈ S then (1 : ℝ) else 0) (fun k => if k ∈ T then 1 else 0) =
      ((S ∩ T).card : ℝ) := by
    intro S T hS
    unfold dot
    have : ∀ k, (if k ∈ S then (1 : ℝ) else 0) * (if k ∈ T then 1 else 0) = if k ∈ S ∩ T then 1 else 0 := by
      intro k
      by_cases h1 : k ∈ S <;> by_cases h2 : k ∈ T <;> simp [h1, h2]
    simp only [this]
    rw [Finset.sum_ite_mem, Finset.sum_const, nsmul_eq_mul, mul_one]
    congr 2
    exact Finset.inter_eq_right.mpr (Finset.Subset.trans Finset.inter_subset_left hS)
  unfold cosine Spec.norm
  rw [hdot A B Finset.subset_union_left, hdot A A Finset.subset_union_left, hdot B B Finset.subset_union_right,
    Finset.inter_self, Finset.inter_self, binaryCosine, Real.sqrt_mul (Nat.cast_nonneg _)]

/-- The same for `binary_cosine_similarity` on sequences. -/
theorem binary_cosine_similarity_eq {A B : List α} (hAe : A ≠ []) (hBe : B ≠ []) :
    binaryCosineSimilarity false A B = .ok (binaryCosine A.toFinset B.toFinset) := by
  have hne : ∀ A : List α, A ≠ [] → dedup A ≠ [] := by
    intro A hA h
    obtain ⟨a, l, rfl⟩ := List.exists_cons_of_ne_nil hA
    have : a ∈ dedup (a :: l) := mem_dedup.mpr (by simp)
    rw [h] at this
    simp at this
  unfold binaryCosineSimilarity
  rw [sparse_binary_cosine_eq (by simp) (nodup_dedup A) (nodup_dedup B) (hne A hAe) (hne B hBe), toFinset_dedup, toFinset_dedup]

theorem counter_spec (A : List κ) : (Dict.keys (counter A)).Nodup ∧ (∀ k, k ∈ Dict.keys (counter A) ↔ k ∈ A) ∧
    ∀ k, weight (counter A) k = A.count k := by
  have h : ∀ (l : List κ) (d : Dict κ ℝ), (Dict.keys d).Nodup →
      (Dict.keys (l.foldl (fun c k => c.update k 0 (· + 1)) d)).Nodup ∧
      (∀ k, k ∈ Dict.keys (l.foldl (fun c k => c.update k 0 (· + 1)) d) ↔ k ∈ Dict.keys d ∨ k ∈ l) ∧
      ∀ k, weight (l.foldl (fun c k => c.update k 0 (· + 1)) d) k = weight d k + l.count k := by
    intro l
    induction l with
    | nil => intro d hd; exact ⟨hd, by simp, by simp⟩
    | cons a l ih =>
        intro d hd
        rw [List.foldl_cons]
        obtain ⟨h1, h2, h3⟩ := ih (d.update a 0 (· + 1)) (Dict.nodup_keys_update hd _ _ _)
        refine ⟨h1, fun k => ?_, fun k => ?_⟩
        · rw [h2, Dict.keys_update]
          split
          · next ha =>
            rw [List.mem_cons]
            constructor
            · rintro (h | h)
              · exact Or.inl h
              · exact Or.inr (Or.inr h)
            · rintro (h | rfl | h)
              · exact Or.inl h
              · exact Or.inl ha
              · exact Or.inr h
          · simp [or_assoc]
        · rw [h3]
          unfold weight
          rw [Dict.get?_update, List.count_cons]
          by_cases hak : a = k
          · subst hak; simp; ring
          · simp [hak]
  obtain ⟨h1, h2, h3⟩ := h A [] (by simp [Dict.keys])
  refine ⟨h1, fun k => ?_, fun k => ?_⟩
  · have := h2 k
    rw [show (k ∈ Dict.keys ([] : Dict κ ℝ)) = False by simp [Dict.keys], false_or] at this
    exact this
  · have := h3 k
    rw [show weight ([] : Dict κ ℝ) k = 0 from rfl, zero_add] at this
    exact this

/-- **C41**: `cosine_similarity` of two sequences is the cosine of their vectors of counts. -/
theorem cosine_similarity_eq {A B : List κ} (hAe : A ≠ []) (hBe : B ≠ []) :
    cosineSimilarity A B =
      .ok (cosine (A.toFinset ∪ B.toFinset) (fun k => (A.count k : ℝ)) (fun k => (B.count k : ℝ))) := by
  obtain ⟨n1, m1, w1⟩ := counter_spec A
  obtain ⟨n2, m2, w2⟩ := counter_spec B
  have hnz : ∀ C : List κ, C ≠ [] → ∃ k, weight (counter C) k ≠ 0 := by
    intro C hC
    obtain ⟨a, l, rfl⟩ := List.exists_cons_of_ne_nil hC
    refine ⟨a, ?_⟩
    rw [(counter_spec _).2.2 a]
    have : 0 < (a :: l).count a := List.count_pos_iff.mpr (by simp)
    exact_mod_cast this.ne'
  unfold cosineSimilarity
  rw [sparse_cosine_eq (by simp) n1 n2 (hnz A hAe) (hnz B hBe)]
  rw [show weight (counter A) = fun k => (A.count k : ℝ) from funext w1,
    show weight (counter B) = fun k => (B.count k : ℝ) from funext w2,
    show (Dict.keys (counter A)).toFinset = A.toFinset by ext k; simp [m1],
    show (Dict.keys (counter B)).toFinset = B.toFinset by ext k; simp [m2]]

-- Two sequences with one item in common.
example : cosineSimilarity ['a', 'b'] ['b', 'c'] = .ok (cosine (['a', 'b'].toFinset ∪ ['b', 'c'].toFinset)
    (fun k => (['a', 'b'].count k : ℝ)) (fun k => (['b', 'c'].count k : ℝ))) :=
  cosine_similarity_eq (by simp) (by simp)

example : sparseBinaryCosineSimilarity false [1, 2, 3, 4] [4] = .ok (1 / 2) := by
  rw [sparse_binary_cosine_eq (by simp) (by decide) (by decide) (by simp) (by simp)]
  have h1 : ([1, 2, 3, 4].toFinset ∩ [4].toFinset).card = 1 := by decide
  have h2 : [1, 2, 3, 4].toFinset.card = 4 := by decide
  have h3 : [4].toFinset.card = 1 := by decide
  simp only [binaryCosine, h1, h2, h3]
  rw [show ((4 : ℕ) : ℝ) * ((1 : ℕ) : ℝ) = 2 * 2 by norm_num, Real.sqrt_mul_self (by norm_num)]
  norm_num

/-! ## C61 -/

theorem sparse_dot_product_eq {A B : Dict κ ℝ} (hA : (Dict.keys A).Nodup) (hB : (Dict.keys B).Nodup) :
    sparseDotProduct A B = dot ((Dict.keys A).toFinset ∪ (Dict.keys B).toFinset) (weight A) (weight B) := by
  have hfold : ∀ (B : Dict κ ℝ) (l : List (κ × ℝ)) (p : ℝ), l.foldl (fun product item =>
      match Dict.get? B item.1 with | some w2 => product + item.2 * w2 | none => product) p =
      p + (l.map fun item => item.2 * weight B item.1).sum := by
    intro B l p
    rw [← foldl_add]
    congr 1
    funext s item
    unfold weight
    cases h : Dict.get? B item.1 <;> simp
  rw [show sparseDotProduct A B = (swapped A B).1.foldl (fun product item =>
    match Dict.get? (swapped A B).2 item.1 with | some w2 => product + item.2 * w2 | none => product) 0 from rfl, hfold, zero_add]
  by_cases h : A.length > B.length
  · rw [show swapped A B = (B, A) from if_pos h, dot_eq hB, Finset.union_comm]
    unfold dot
    simp only [mul_comm (weight B _)]
  · rw [show swapped A B = (A, B) from if_neg h, dot_eq hA]; rfl

theorem sparse_norm_eq {A : Dict κ ℝ} (hA : (Dict.keys A).Nodup) {S : Finset κ} (hS : (Dict.keys A).toFinset ⊆ S) :
    sparseNorm A = Spec.norm S (weight A) := by
  unfold sparseNorm Spec.norm dot
  rw [sum_items hA (fun _ v => v * v)]
  congr 1
  apply Finset.sum_subset hS
  intro k _ hk
  rw [weight_of_not_mem (by simpa using hk), zero_mul]

theorem sparse_normalize_spec {A : Dict κ ℝ} (hA : (Dict.keys A).Nodup) :
    (Dict.keys (sparseNormalize A)).Nodup ∧ (∀ k ∈ Dict.keys (sparseNormalize A), k ∈ Dict.keys A) ∧
    ∀ k, weight (sparseNormalize A) k = weight A k / sparseNorm A := by
  unfold sparseNormalize
  simp only
  split
  · next h0 =>
    refine ⟨by simp [Dict.keys], by simp [Dict.keys], fun k => ?_⟩
    rw [h0, div_zero]; rfl
  · have key : ∀ (l : List (κ × ℝ)) (N : Dict κ ℝ), (Dict.keys l).Nodup → (Dict.keys N).Nodup →
        (∀ k ∈ Dict.keys l, k ∉ Dict.keys N) →
        (Dict.keys (l.foldl (fun N item => N.set item.1 (item.2 / sparseNorm A)) N)).Nodup ∧
        (∀ k ∈ Dict.keys (l.foldl (fun N item => N.set item.1 (item.2 / sparseNorm A)) N), k ∈ Dict.keys l ∨ k ∈ Dict.keys N) ∧
        ∀ k, weight (l.foldl (fun N item => N.set item.1 (item.2 / sparseNorm A)) N) k =
          weight N k + weight (l : Dict κ ℝ) k / sparseNorm A := by
      intro l
      induction l with
      | nil => intro N _ hN _; exact ⟨hN, fun k hk => Or.inr hk, fun k => by simp [weight, Dict.get?]⟩
      | cons item l ih =>
          intro N hl hN hdis
          simp only [Dict.keys, List.map_cons, List.nodup_cons] at hl
          have hi : item.1 ∉ Dict.keys N := hdis item.1 (by simp [Dict.keys])
          rw [List.foldl_cons]
          have hkeys := Dict.keys_set N item.1 (item.2 / sparseNorm A)
          rw [if_neg hi] at hkeys
          obtain ⟨h1, h2, h3⟩ := ih (N.set item.1 (item.2 / sparseNorm A)) hl.2 (Dict.nodup_keys_set hN _ _) (by
            intro k hk
            rw [hkeys, List.mem_append, List.mem_singleton, not_or]
            refine ⟨hdis k (by simp only [Dict.keys, List.map_cons, List.mem_cons]; exact Or.inr hk), ?_⟩
            rintro rfl
            exact hl.1 hk)
          refine ⟨h1, ?_, ?_⟩
          · intro k hk
            rcases h2 k hk with h | h
            · left; simp only [Dict.keys, List.map_cons, List.mem_cons]; exact Or.inr h
            · rw [hkeys, List.mem_append, List.mem_singleton] at h
              rcases h with h | h
              · exact Or.inr h
              · left; simp [Dict.keys, h]
          · intro k
            rw [h3]
            unfold weight
            rw [Dict.get?_set]
            obtain ⟨k0, v⟩ := item
            simp only [Dict.get?]
            by_cases hk : k0 = k
            · subst hk
              have e1 : Dict.get? l k0 = none := (Dict.get?_eq_none_iff l k0).mpr hl.1
              have e2 : Dict.get? N k0 = none := (Dict.get?_eq_none_iff N k0).mpr hi
              simp [e1, e2]
            · simp [hk]
    obtain ⟨h1, h2, h3⟩ := key A [] hA (by simp [Dict.keys]) (by simp [Dict.keys])
    refine ⟨h1, ?_, ?_⟩
    · intro k hk
      rcases h2 k hk with h | h
      · exact h
      · simp [Dict.keys] at h
    · intro k
      rw [h3, show weight ([] : Dict κ ℝ) k = 0 from rfl, zero_add]

/-- **C61**: the norm of the result of `sparse_normalize` is one, unless the vector is zero, in which case it is empty. -/
theorem sparse_normalize_norm {A : Dict κ ℝ} (hA : (Dict.keys A).Nodup) :
    (sparseNorm A ≠ 0 → sparseNorm (sparseNormalize A) = 1) ∧ (sparseNorm A = 0 → sparseNormalize A = []) := by
  constructor
  · intro h
    obtain ⟨h1, h2, h3⟩ := sparse_normalize_spec hA
    have hsub : (Dict.keys (sparseNormalize A)).toFinset ⊆ (Dict.keys A).toFinset := by
      intro k hk; simp only [List.mem_toFinset] at *; exact h2 k hk
    rw [sparse_norm_eq h1 hsub]
    have hp : 0 < sparseNorm A := lt_of_le_of_ne (Real.sqrt_nonneg _) (Ne.symm h)
    have hn := sparse_norm_eq hA (Finset.Subset.refl _)
    unfold Spec.norm dot at hn ⊢
    simp only [h3]
    have : ∀ k, weight A k / sparseNorm A * (weight A k / sparseNorm A) =
        weight A k * weight A k / (sparseNorm A * sparseNorm A) := by intro k; field_simp
    simp only [this]
    rw [← Finset.sum_div]
    have hs : ∑ k ∈ (Dict.keys A).toFinset, weight A k * weight A k = sparseNorm A * sparseNorm A := by
      rw [hn, Real.mul_self_sqrt]
      exact Finset.sum_nonneg fun k _ => mul_self_nonneg _
    rw [hs, div_self (mul_pos hp hp).ne', Real.sqrt_one]
  · intro h
    simp [sparseNormalize, h]

/-- **C61**: the dot product of two normalized vectors is the cosine similarity of the vectors. -/
theorem sparse_normalize_dot {A B : Dict κ ℝ} (hA : (Dict.keys A).Nodup) (hB : (Dict.keys B).Nodup)
    (hAnz : ∃ k, weight A k ≠ 0) (hBnz : ∃ k, weight B k ≠ 0) :
    sparseCosineSimilarity false A B = .ok (sparseDotProduct (sparseNormalize A) (sparseNormalize B)) := by
  rw [sparse_cosine_eq (by simp) hA hB hAnz hBnz]
  obtain ⟨a1, a2, a3⟩ := sparse_normalize_spec hA
  obtain ⟨b1, b2, b3⟩ := sparse_normalize_spec hB
  rw [sparse_dot_product_eq a1 b1]
  congr 1
  have hsub : (Dict.keys (sparseNormalize A)).toFinset ∪ (Dict.keys (sparseNormalize B)).toFinset ⊆
      (Dict.keys A).toFinset ∪ (Dict.keys B).toFinset := by
    apply Finset.union_subset_union
    · intro k hk; simp only [List.mem_toFinset] at *; exact a2 k hk
    · intro k hk; simp only [List.mem_toFinset] at *; exact b2 k hk
  unfold cosine
  rw [← sparse_norm_eq hA Finset.subset_union_left, ← sparse_norm_eq hB Finset.subset_union_right]
  unfold dot
  rw [Finset.sum_div, Finset.sum_subset hsub]
  · apply Finset.sum_congr rfl
    intro k _
    rw [a3, b3, div_mul_div_comm]
  · intro k _ hk
    rw [Finset.mem_union, not_or] at hk
    rw [weight_of_not_mem (by simpa using hk.1), zero_mul]

-- A vector which is not zero.
example : ∃ k, weight [('a', (3 : ℝ)), ('b', -4)] k ≠ 0 := ⟨'a', by simp [weight, Dict.get?]⟩

end Fog.Props
