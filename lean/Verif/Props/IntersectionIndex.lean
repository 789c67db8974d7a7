import Mathlib.Algebra.Order.Field.Rat
import Mathlib.Tactic.Linarith
import Mathlib.Tactic.Positivity
import Verif.Spec.SetSimilarity
import Verif.Spec.Positions
import Verif.Lemmas.IntersectionIndex
import Verif.Lemmas.Buckets

/-!
# Properties of `intersection_index` (C22)
-/

namespace Fog.Props

open Fog.ClusteringUtils Fog.IntersectionIndex Fog.Spec

variable {τ α : Type _} [DecidableEq τ]

/-- The similarity that a metric names. -/
def similarityOf (metric : Metric) (A B : Finset τ) : ℚ :=
  match metric with
  | .jaccard => jaccard A B
  | _ => overlap A B

theorem dedup_length (A : List τ) : (dedup A).length = A.toFinset.card := by
  rw [← List.toFinset_card_of_nodup (nodup_dedup A)]
  congr 1
  ext t
  simp [mem_dedup]

/-- The division made by the code is the similarity, and never a division by zero when there is a common token. -/
theorem denominator_spec (metric : Metric) (A B : Finset τ) (h : 0 < (A ∩ B).card) :
    denominator metric A.card B.card (A ∩ B).card ≠ 0 ∧
      ((A ∩ B).card : ℚ) / (denominator metric A.card B.card (A ∩ B).card : ℚ) = similarityOf metric A B := by
  have hu := Finset.card_union_add_card_inter A B
  have hA := Finset.card_le_card (Finset.inter_subset_left (s₁ := A) (s₂ := B))
  have hB := Finset.card_le_card (Finset.inter_subset_right (s₁ := A) (s₂ := B))
  have key : metric ≠ .jaccard → denominator metric A.card B.card (A ∩ B).card = ((min A.card B.card : ℕ) : ℤ) := by
    intro hm
    cases metric <;> simp_all [denominator]
  cases metric with
  | jaccard =>
      have : denominator .jaccard A.card B.card (A ∩ B).card = ((A ∪ B).card : ℤ) := by
        simp only [denominator]; omega
      rw [this]
      refine ⟨by omega, ?_⟩
      simp [similarityOf, jaccard]
  | overlap =>
      rw [key (by simp)]
      refine ⟨by omega, ?_⟩
      simp [similarityOf, overlap]
  | unknown =>
      rw [key (by simp)]
      refine ⟨by omega, ?_⟩
      simp [similarityOf, overlap]

theorem similarityOf_pos {metric : Metric} {A B : Finset τ} (h : 0 < similarityOf metric A B) : 0 < (A ∩ B).card := by
  rcases Nat.eq_zero_or_pos (A ∩ B).card with h0 | h0
  · exfalso
    cases metric <;> simp [similarityOf, jaccard, overlap, h0] at h
  · exact h0

/-- C22, the pairs. For every order of iteration of the sets of tokens, and every radius: the pairs found are, once each,
the positions `j < i` whose items have a token in common and a similarity of at least the radius. -/
theorem intersection_pairs_exact (ord : List τ → List τ) (hord : ∀ l, (ord l).Perm l) (items : List (List τ))
    (metric : Metric) (radius : ℚ) :
    ∃ ps, intersectionPairs ord items metric radius = .ok ps ∧ ps.Nodup ∧
      ∀ i j, (i, j) ∈ ps ↔ ∃ A B, items[i]? = some A ∧ items[j]? = some B ∧ j < i ∧
        0 < (A.toFinset ∩ B.toFinset).card ∧ radius ≤ similarityOf metric A.toFinset B.toFinset := by
  obtain ⟨h1, h2, h3⟩ := index_spec ord hord items
  have hsize : ∀ (k : ℕ) (A : List τ), items[k]? = some A → (items.map fun item => (dedup item).length)[k]? = some A.toFinset.card := by
    intro k A h
    rw [List.getElem?_map, h]
    simp [dedup_length]
  have hget : ∀ i j I c, (i, c) ∈ (indexLoop ord 0 items ([], [])).2 → (j, I) ∈ c →
      countAt (indexLoop ord 0 items ([], [])).2 i j = some I := by
    intro i j I c hc hj
    have h4 := Dict.get?_of_mem h1 hc
    unfold countAt
    rw [h4, Option.bind_some]
    exact Dict.get?_of_mem (h2 i c h4) hj
  obtain ⟨ps, h4, h5, _, h6⟩ := clusteringLoop_spec metric (items.map fun item => (dedup item).length) radius
    (indexLoop ord 0 items ([], [])).2 h1 (fun i c hc => h2 i c (Dict.get?_of_mem h1 hc)) (by
      intro i c hc j I hj
      obtain ⟨A, B, hA, hB, _, rfl, hpos⟩ := (h3 i j I).mp (hget i j I c hc hj)
      exact ⟨_, _, hsize i A hA, hsize j B hB, (denominator_spec metric _ _ hpos).1⟩)
  refine ⟨ps, h4, h5, ?_⟩
  intro i j
  rw [h6]
  constructor
  · rintro ⟨c, I, si, sj, hc, hj, hsi, hsj, hq⟩
    obtain ⟨A, B, hA, hB, hji, rfl, hpos⟩ := (h3 i j I).mp (hget i j I c hc hj)
    rw [hsize i A hA] at hsi; cases hsi
    rw [hsize j B hB] at hsj; cases hsj
    rw [(denominator_spec metric _ _ hpos).2] at hq
    exact ⟨A, B, hA, hB, hji, hpos, hq⟩
  · rintro ⟨A, B, hA, hB, hji, hpos, hq⟩
    have h7 := (h3 i j _).mpr ⟨A, B, hA, hB, hji, rfl, hpos⟩
    unfold countAt at h7
    rw [Option.bind_eq_some_iff] at h7
    obtain ⟨c, hc, hj⟩ := h7
    refine ⟨c, _, _, _, Dict.mem_of_get? hc, Dict.mem_of_get? hj, hsize i A hA, hsize j B hB, ?_⟩
    rw [(denominator_spec metric _ _ hpos).2]
    exact hq

/-- C22, the pairs for a positive radius: exactly the positions whose items have a similarity of at least the radius. -/
theorem intersection_pairs_positive_radius (ord : List τ → List τ) (hord : ∀ l, (ord l).Perm l) (items : List (List τ))
    (metric : Metric) (radius : ℚ) (hr : 0 < radius) :
    ∃ ps, intersectionPairs ord items metric radius = .ok ps ∧ ps.Nodup ∧
      ∀ i j, (i, j) ∈ ps ↔ ∃ A B, items[i]? = some A ∧ items[j]? = some B ∧ j < i ∧
        radius ≤ similarityOf metric A.toFinset B.toFinset := by
  obtain ⟨ps, h1, h2, h3⟩ := intersection_pairs_exact ord hord items metric radius
  refine ⟨ps, h1, h2, ?_⟩
  intro i j
  rw [h3]
  constructor
  · rintro ⟨A, B, hA, hB, hji, _, hq⟩; exact ⟨A, B, hA, hB, hji, hq⟩
  · rintro ⟨A, B, hA, hB, hji, hq⟩
    exact ⟨A, B, hA, hB, hji, similarityOf_pos (lt_of_lt_of_le hr hq), hq⟩

theorem similarityOf_comm (metric : Metric) (A B : Finset τ) : similarityOf metric A B = similarityOf metric B A := by
  cases metric <;>
    simp only [similarityOf, jaccard, overlap, Finset.inter_comm A B, Finset.union_comm A B, Nat.min_comm A.card B.card]

theorem intersection_linked {items : List (List τ)} {metric : Metric} {radius : ℚ} {pairs : List (ℕ × ℕ)}
    (h3 : ∀ i j, (i, j) ∈ pairs ↔ ∃ A B, items[i]? = some A ∧ items[j]? = some B ∧ j < i ∧
      radius ≤ similarityOf metric A.toFinset B.toFinset) (a b : ℕ) : Linked pairs a b ↔
      SimilarPositions (fun A B => decide (radius ≤ similarityOf metric A.toFinset B.toFinset)) items a b := by
  unfold Linked SimilarPositions
  rw [h3, h3]
  simp only [decide_eq_true_eq]
  constructor
  · rintro (⟨A, B, hA, hB, hji, hq⟩ | ⟨A, B, hA, hB, hji, hq⟩)
    · exact Or.inr ⟨hji, B, A, hB, hA, by rw [similarityOf_comm]; exact hq⟩
    · exact Or.inl ⟨hji, B, A, hB, hA, by rw [similarityOf_comm]; exact hq⟩
  · rintro (⟨hji, A, B, hA, hB, hq⟩ | ⟨hji, A, B, hA, hB, hq⟩)
    · exact Or.inr ⟨B, A, hB, hA, hji, by rw [similarityOf_comm]; exact hq⟩
    · exact Or.inl ⟨B, A, hB, hA, hji, by rw [similarityOf_comm]; exact hq⟩

/-- C22, the clusters, for a positive radius: the items of the connected components of the positions linked by a
similarity of at least the radius. -/
theorem intersection_index_components (ord : List τ → List τ) (hord : ∀ l, (ord l).Perm l) (data : List α)
    (items : List (List τ)) (hl : items.length = data.length) (metric : Metric) (hm : metric ≠ .unknown) (radius : ℚ)
    (hr : 0 < radius) (min : ℕ) (max : Option ℕ) (hmin : 2 ≤ min) :
    ∃ ps : List (List ℕ), intersectionIndex ord data items metric radius min max .connectedComponents =
        .ok (ps.map fun c => c.filterMap fun i => data[i]?) ∧
      IsComponents
        (SimilarPositions (fun A B => decide (radius ≤ similarityOf metric A.toFinset B.toFinset)) items)
        (fun i => i < data.length) (SizeBetween min max) ps := by
  obtain ⟨pairs, h1, _, h3⟩ := intersection_pairs_positive_radius ord hord items metric radius hr
  obtain ⟨cs, h4, h5⟩ := clusters_of_relation (ord := fun _ l => l) (fun _ _ => List.Perm.refl _) pairs _ (intersection_linked h3) min max
    false
  refine ⟨cs, ?_, h5.nodes ?_ ?_ (fun n h => by have := h.1; omega)⟩
  · unfold intersectionIndex
    rw [if_neg hm, h1]
    simp [bind, Except.bind, h4]
  · rintro a ⟨b, ⟨_, A, B, hA, _⟩ | ⟨_, A, B, _, hB, _⟩⟩
    · rw [← hl]; exact (List.getElem?_eq_some_iff.mp hA).1
    · rw [← hl]; exact (List.getElem?_eq_some_iff.mp hB).1
  · intro a _ hN b hb
    exact hN ⟨b, hb⟩

/-- Three items: two with a Jaccard index of one half, one alone. -/
example : 0 < (1 / 2 : ℚ) ∧ similarityOf .jaccard ['a', 'b', 'c'].toFinset ['b', 'c', 'd', 'b'].toFinset = 1 / 2 ∧
    similarityOf .overlap ['a', 'b', 'c'].toFinset ['b', 'c', 'd', 'b'].toFinset = 2 / 3 := by
  refine ⟨by norm_num, ?_, ?_⟩
  · have h1 : (['a', 'b', 'c'].toFinset ∩ ['b', 'c', 'd', 'b'].toFinset).card = 2 := by decide
    have h2 : (['a', 'b', 'c'].toFinset ∪ ['b', 'c', 'd', 'b'].toFinset).card = 4 := by decide
    simp only [similarityOf, jaccard, h1, h2]; norm_num
  · have h1 : (['a', 'b', 'c'].toFinset ∩ ['b', 'c', 'd', 'b'].toFinset).card = 2 := by decide
    have h2 : min ['a', 'b', 'c'].toFinset.card ['b', 'c', 'd', 'b'].toFinset.card = 3 := by decide
    simp only [similarityOf, overlap, h1, h2]; norm_num

/-- An unknown metric is refused. -/
theorem intersection_index_unknown_metric (ord : List τ → List τ) (data : List α) (items : List (List τ)) (radius : ℚ)
    (min : ℕ) (max : Option ℕ) (mode : Mode) :
    intersectionIndex ord data items .unknown radius min max mode = .error .typeError := rfl

end Fog.Props
