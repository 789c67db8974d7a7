import Verif.Model.Metrics
import Verif.Spec.SetSimilarity
import Verif.Lemmas.Dedup
import Verif.Lemmas.Dict
import Mathlib.Algebra.BigOperators.Group.Finset.Basic
import Mathlib.Algebra.Order.BigOperators.Ring.Finset
import Mathlib.Algebra.Order.BigOperators.Group.Finset
import Mathlib.Tactic.Linarith
import Mathlib.Tactic.Ring

/-! # Lemmas on metrics -/

namespace Fog.Metrics

variable {α κ : Type _} [DecidableEq α] [DecidableEq κ]

theorem countIn_eq {A : List α} (hA : A.Nodup) (B : List α) : countIn A B = (A.toFinset ∩ B.toFinset).card := by
  have h : ∀ (l : List α) (i : Nat), l.foldl (fun i v => if v ∈ B then i + 1 else i) i = i + (l.filter (· ∈ B)).length := by
    intro l
    induction l with
    | nil => intro i; simp
    | cons a l ih =>
        intro i
        rw [List.foldl_cons, ih]
        by_cases h : a ∈ B
        · simp [h]; omega
        · simp [h]
  unfold countIn
  rw [h, Nat.zero_add, ← List.toFinset_card_of_nodup (hA.filter _)]
  congr 1
  ext a
  simp

theorem toFinset_dedup (A : List α) : (dedup A).toFinset = A.toFinset := by
  ext a; simp [mem_dedup]

theorem length_dedup (A : List α) : (dedup A).length = A.toFinset.card := by
  rw [← toFinset_dedup, List.toFinset_card_of_nodup (nodup_dedup A)]

theorem countIn_swapped (A B : List α) :
    countIn (swapped (dedup A) (dedup B)).1 (swapped (dedup A) (dedup B)).2 = (A.toFinset ∩ B.toFinset).card := by
  unfold swapped
  split
  · simp only; rw [countIn_eq (nodup_dedup B), toFinset_dedup, toFinset_dedup, Finset.inter_comm]
  · simp only; rw [countIn_eq (nodup_dedup A), toFinset_dedup, toFinset_dedup]

theorem length_swapped_add (A B : List α) :
    (swapped (dedup A) (dedup B)).1.length + (swapped (dedup A) (dedup B)).2.length = A.toFinset.card + B.toFinset.card := by
  unfold swapped
  split <;> simp only [length_dedup] <;> omega

theorem length_swapped_fst (A B : List α) :
    (swapped (dedup A) (dedup B)).1.length = min A.toFinset.card B.toFinset.card := by
  unfold swapped
  rw [length_dedup, length_dedup]
  split <;> simp only [length_dedup] <;> omega

theorem length_swapped_snd (A B : List α) :
    (swapped (dedup A) (dedup B)).2.length = max A.toFinset.card B.toFinset.card := by
  unfold swapped
  rw [length_dedup, length_dedup]
  split <;> simp only [length_dedup] <;> omega

/-! ## Dictionaries as functions -/

/-- The weight of a key, zero if missing. -/
def weight {K : Type _} [Zero K] (d : Dict κ K) (k : κ) : K := (d.get? k).getD 0

theorem weight_of_mem {K : Type _} [Zero K] {d : Dict κ K} (hd : (Dict.keys d).Nodup) {k : κ} {v : K} (h : (k, v) ∈ d) :
    weight d k = v := by
  unfold weight; rw [Dict.get?_of_mem hd h]; rfl

theorem weight_of_not_mem {K : Type _} [Zero K] {d : Dict κ K} {k : κ} (h : k ∉ Dict.keys d) : weight d k = 0 := by
  unfold weight; rw [(Dict.get?_eq_none_iff d k).mpr h]; rfl

/-- A sum over the items is a sum over the keys. -/
theorem sum_items {K M : Type _} [Zero K] [AddCommMonoid M] {d : Dict κ K} (hd : (Dict.keys d).Nodup) (F : κ → K → M) :
    (d.map fun item => F item.1 item.2).sum = ∑ k ∈ (Dict.keys d).toFinset, F k (weight d k) := by
  rw [List.sum_toFinset _ hd]
  unfold Dict.keys
  rw [List.map_map]
  congr 1
  apply List.map_congr_left
  intro item hitem
  simp only [Function.comp]
  rw [weight_of_mem hd (k := item.1) (v := item.2) hitem]

theorem foldl_add {β M : Type _} [AddCommMonoid M] (f : β → M) (l : List β) (init : M) :
    l.foldl (fun s b => s + f b) init = init + (l.map f).sum := by
  induction l generalizing init with
  | nil => simp
  | cons b l ih => rw [List.foldl_cons, ih, List.map_cons, List.sum_cons, add_assoc]

/-! ## The weighted Jaccard similarity -/

section weighted

variable {K : Type _} [Field K] [LinearOrder K] [IsStrictOrderedRing K]

omit [IsStrictOrderedRing K] in
theorem weightedStep_foldl (B : Dict κ K) (l : List (κ × K)) (I U : K) (done : List κ) :
    (l.foldl (weightedStep B) (I, U, done)).1 = I + (l.map fun item => min item.2 (weight B item.1)).sum ∧
    (l.foldl (weightedStep B) (I, U, done)).2.1 = U + (l.map fun item => max item.2 (weight B item.1)).sum ∧
    ∀ k, k ∈ (l.foldl (weightedStep B) (I, U, done)).2.2 ↔ k ∈ done ∨ (k ∈ Dict.keys l ∧ weight B k ≠ 0) := by
  induction l generalizing I U done with
  | nil => simp [Dict.keys]
  | cons item l ih =>
      obtain ⟨k0, v⟩ := item
      rw [List.foldl_cons]
      have hstep : weightedStep B (I, U, done) (k0, v) =
          (I + min v (weight B k0), U + max v (weight B k0), if weight B k0 ≠ 0 then k0 :: done else done) := by
        unfold weightedStep weight
        simp only
        by_cases h : v < (B.get? k0).getD 0
        · rw [if_pos h, min_eq_left h.le, max_eq_right h.le]
        · rw [if_neg h, min_eq_right (not_lt.mp h), max_eq_left (not_lt.mp h)]
      rw [hstep]
      obtain ⟨h1, h2, h3⟩ := ih (I + min v (weight B k0)) (U + max v (weight B k0))
        (if weight B k0 ≠ 0 then k0 :: done else done)
      refine ⟨by rw [h1, List.map_cons, List.sum_cons, add_assoc], by rw [h2, List.map_cons, List.sum_cons, add_assoc], ?_⟩
      intro k
      rw [h3]
      simp only [Dict.keys, List.map_cons, List.mem_cons]
      by_cases hw : weight B k0 = 0
      · simp only [hw, ne_eq, not_true_eq_false, if_false]
        constructor
        · rintro (h | h)
          · exact Or.inl h
          · exact Or.inr ⟨Or.inr h.1, h.2⟩
        · rintro (h | ⟨h | h, h'⟩)
          · exact Or.inl h
          · rw [h, hw] at h'; exact absurd rfl h'
          · exact Or.inr ⟨h, h'⟩
      · simp only [ne_eq, hw, not_false_eq_true, if_true, List.mem_cons]
        constructor
        · rintro ((h | h) | h)
          · exact Or.inr ⟨Or.inl h, by rw [h]; exact hw⟩
          · exact Or.inl h
          · exact Or.inr ⟨Or.inr h.1, h.2⟩
        · rintro (h | ⟨h | h, h'⟩)
          · exact Or.inl (Or.inr h)
          · exact Or.inl (Or.inl h)
          · exact Or.inr ⟨h, h'⟩

/-- The two sums computed, whichever is iterated upon. -/
theorem weighted_sums {A B : Dict κ K} (hA : (Dict.keys A).Nodup) (hB : (Dict.keys B).Nodup)
    (hA0 : ∀ k, 0 ≤ weight A k) (hB0 : ∀ k, 0 ≤ weight B k) :
    (A.foldl (weightedStep B) (0, 0, [])).1 =
      ∑ k ∈ (Dict.keys A).toFinset ∪ (Dict.keys B).toFinset, min (weight A k) (weight B k) ∧
    B.foldl (fun U item => if item.1 ∈ (A.foldl (weightedStep B) (0, 0, [])).2.2 then U else U + item.2)
      (A.foldl (weightedStep B) (0, 0, [])).2.1 =
      ∑ k ∈ (Dict.keys A).toFinset ∪ (Dict.keys B).toFinset, max (weight A k) (weight B k) := by
  obtain ⟨h1, h2, h3⟩ := weightedStep_foldl B A 0 0 []
  generalize A.foldl (weightedStep B) (0, 0, []) = s at h1 h2 h3
  obtain ⟨I, U, done⟩ := s
  simp only at h1 h2 h3 ⊢
  rw [zero_add] at h1 h2
  rw [sum_items hA (fun k v => min v (weight B k))] at h1
  rw [sum_items hA (fun k v => max v (weight B k))] at h2
  have hdone : ∀ k, k ∈ done ↔ k ∈ Dict.keys A ∧ weight B k ≠ 0 := by intro k; simpa using h3 k
  constructor
  · rw [h1]
    apply Finset.sum_subset Finset.subset_union_left
    intro k _ hk
    have : weight A k = 0 := weight_of_not_mem (by simpa using hk)
    rw [this]; exact min_eq_left (hB0 k)
  · have hfold : ∀ (l : List (κ × K)) (U : K), l.foldl (fun U item => if item.1 ∈ done then U else U + item.2) U =
        U + (l.map fun item => if item.1 ∈ done then 0 else item.2).sum := by
      intro l U
      rw [← foldl_add]
      congr 1
      funext s b
      split <;> simp
    rw [hfold, h2, sum_items hB (fun k v => if k ∈ done then 0 else v)]
    rw [← Finset.sum_sdiff (Finset.subset_union_left (s₁ := (Dict.keys A).toFinset) (s₂ := (Dict.keys B).toFinset)), add_comm]
    congr 1
    -- keys of B only
    have hsub : ((Dict.keys A).toFinset ∪ (Dict.keys B).toFinset) \ (Dict.keys A).toFinset ⊆ (Dict.keys B).toFinset := by
      intro k hk
      simp only [Finset.mem_sdiff, Finset.mem_union] at hk
      rcases hk.1 with h | h
      · exact absurd h hk.2
      · exact h
    rw [← Finset.sum_subset hsub]
    · apply Finset.sum_congr rfl
      intro k hk
      simp only [Finset.mem_sdiff, List.mem_toFinset] at hk
      have hz : weight A k = 0 := weight_of_not_mem hk.2
      rw [hz, max_eq_right (hB0 k), if_neg (fun hd => hk.2 ((hdone k).mp hd).1)]
    · intro k hkB hk
      simp only [Finset.mem_sdiff, Finset.mem_union, List.mem_toFinset, not_and, not_not] at hk hkB
      have hkA := hk (Or.inr hkB)
      by_cases hw : weight B k = 0
      · rw [hw]; simp
      · rw [if_pos ((hdone k).mpr ⟨hkA, hw⟩)]

end weighted

/-! ## Cosine -/

theorem cosineStep_foldl (B : Dict κ ℝ) (l : List (κ × ℝ)) (xx xy : ℝ) :
    l.foldl (cosineStep B) (xx, xy) =
      (xx + (l.map fun item => item.2 ^ 2).sum, xy + (l.map fun item => item.2 * weight B item.1).sum) := by
  induction l generalizing xx xy with
  | nil => simp
  | cons item l ih =>
      rw [List.foldl_cons]
      have hstep : cosineStep B (xx, xy) item = (xx + item.2 ^ 2, xy + item.2 * weight B item.1) := by
        unfold cosineStep weight
        cases h : B.get? item.1 <;> simp [h]
      rw [hstep, ih]
      simp [add_assoc]

/-- Sums over the keys of either vector, or of both. -/
theorem dot_eq {A B : Dict κ ℝ} (hA : (Dict.keys A).Nodup) :
    (A.map fun item => item.2 * weight B item.1).sum =
      ∑ k ∈ (Dict.keys A).toFinset ∪ (Dict.keys B).toFinset, weight A k * weight B k := by
  rw [sum_items hA (fun k v => v * weight B k)]
  apply Finset.sum_subset Finset.subset_union_left
  intro k _ hk
  rw [weight_of_not_mem (by simpa using hk), zero_mul]

theorem sq_eq {A : Dict κ ℝ} (hA : (Dict.keys A).Nodup) (S : Finset κ) (hS : (Dict.keys A).toFinset ⊆ S) :
    (A.map fun item => item.2 ^ 2).sum = ∑ k ∈ S, weight A k ^ 2 := by
  rw [sum_items hA (fun _ v => v ^ 2)]
  apply Finset.sum_subset hS
  intro k _ hk
  rw [weight_of_not_mem (by simpa using hk)]; simp

end Fog.Metrics
