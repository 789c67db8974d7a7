import Verif.Model.WeightedSteps
import Verif.Lemmas.Metrics

/-!
# The weighted metrics: how many steps they make (C160)
-/

namespace Fog.Props

open Fog.Metrics

variable {α κ : Type _} [DecidableEq α] [DecidableEq κ]

/-- A loop which also lists what it goes through. -/
theorem foldl_listed {σ β γ : Type _} (f : σ → β → σ) (g : β → γ) (l : List β) (s : σ) (ks : List γ) :
    l.foldl (fun (s : σ × List γ) b => (f s.1 b, s.2 ++ [g b])) (s, ks) = (l.foldl f s, ks ++ l.map g) := by
  induction l generalizing s ks with
  | nil => simp
  | cons b l ih => rw [List.foldl_cons, ih, List.foldl_cons, List.map_cons, List.append_assoc]; rfl

theorem weightedJaccardSteps_eq {K : Type _} [Field K] [LinearOrder K] (A B : Dict κ K) :
    weightedJaccardSteps false A B = (weightedJaccardSimilarity false A B,
      if A.length = 0 ∨ B.length = 0 then [] else (swapped A B).1.map Prod.fst ++ (swapped A B).2.map Prod.fst) := by
  unfold weightedJaccardSteps weightedJaccardSimilarity
  simp only [Bool.false_eq_true, if_false]
  split
  · rfl
  · simp only [foldl_listed (weightedStep (swapped A B).2) Prod.fst]
    rw [foldl_listed (fun U (item : κ × K) => if item.1 ∈ _ then U else U + item.2) Prod.fst]
    simp only [List.nil_append]

theorem sparseCosineSteps_eq (A B : Dict κ ℝ) :
    sparseCosineSteps false A B = (sparseCosineSimilarity false A B,
      if A.length = 0 ∨ B.length = 0 then [] else (swapped A B).1.map Prod.fst ++ (swapped A B).2.map Prod.fst) := by
  unfold sparseCosineSteps sparseCosineSimilarity
  simp only [Bool.false_eq_true, if_false]
  split
  · rfl
  · simp only [foldl_listed (cosineStep (swapped A B).2) Prod.fst]
    rw [foldl_listed (fun yy (item : κ × ℝ) => yy + item.2 ^ 2) Prod.fst]
    simp only [List.nil_append]

theorem sparseBinaryCosineSteps_eq (A B : List α) :
    sparseBinaryCosineSteps false A B = (sparseBinaryCosineSimilarity false A B,
      if A.length = 0 ∨ B.length = 0 then [] else (swapped A B).1) := by
  unfold sparseBinaryCosineSteps sparseBinaryCosineSimilarity
  simp only [Bool.false_eq_true, if_false]
  split
  · rfl
  · have h := foldl_listed (fun (s : ℝ × ℝ) (k : α) => (s.1 + 1, if k ∈ (swapped A B).2 then s.2 + 1 else s.2)) id (swapped A B).1
      (0, 0) []
    rw [List.map_id, List.nil_append] at h
    simp only [id] at h
    simp only [h]

theorem sparseDotSteps_eq (A B : Dict κ ℝ) : sparseDotSteps A B = (sparseDotProduct A B, (swapped A B).1.map Prod.fst) := by
  have h := foldl_listed (fun (s : ℝ) (item : κ × ℝ) =>
    match Dict.get? (swapped A B).2 item.1 with | some w2 => s + item.2 * w2 | none => s) Prod.fst (swapped A B).1 0 []
  rw [List.nil_append] at h
  exact h

/-- C160. The results are those of the functions. -/
theorem steps_same {K : Type _} [Field K] [LinearOrder K] (same : Bool) (A B : Dict κ K) (C D : Dict κ ℝ) (E F : List α) :
    (weightedJaccardSteps same A B).1 = weightedJaccardSimilarity same A B ∧ (sparseCosineSteps same C D).1 = sparseCosineSimilarity same C D ∧
    (sparseBinaryCosineSteps same E F).1 = sparseBinaryCosineSimilarity same E F ∧ (sparseDotSteps C D).1 = sparseDotProduct C D := by
  cases same with
  | true => exact ⟨rfl, rfl, rfl, by rw [sparseDotSteps_eq]⟩
  | false => rw [weightedJaccardSteps_eq, sparseCosineSteps_eq, sparseBinaryCosineSteps_eq, sparseDotSteps_eq]; exact ⟨rfl, rfl, rfl, rfl⟩

/-- C160. As documented, `weighted_jaccard_similarity` and `sparse_cosine_similarity` make as many steps as the sum of the sizes, when
no set is empty, and none otherwise. -/
theorem steps_sum {K : Type _} [Field K] [LinearOrder K] (A B : Dict κ K) (C D : Dict κ ℝ) :
    (weightedJaccardSteps false A B).2.length = (if A = [] ∨ B = [] then 0 else A.length + B.length) ∧
    (sparseCosineSteps false C D).2.length = (if C = [] ∨ D = [] then 0 else C.length + D.length) := by
  rw [weightedJaccardSteps_eq, sparseCosineSteps_eq]
  simp only [List.length_eq_zero_iff]
  constructor
  all_goals
    split
    · rfl
    · rw [List.length_append, List.length_map, List.length_map]
      unfold swapped
      split <;> dsimp only <;> omega

/-- C160. As documented, `sparse_binary_cosine_similarity` and `sparse_dot_product` make as many steps as the size of the smaller set. -/
theorem steps_min (E F : List α) (C D : Dict κ ℝ) :
    (sparseBinaryCosineSteps false E F).2.length = min E.length F.length ∧ (sparseDotSteps C D).2.length = min C.length D.length := by
  rw [sparseBinaryCosineSteps_eq, sparseDotSteps_eq]
  constructor
  · dsimp only
    split
    · rw [List.length_nil]; omega
    · unfold swapped
      split <;> dsimp only <;> omega
  · dsimp only
    rw [List.length_map]
    unfold swapped
    split <;> dsimp only <;> omega

theorem nodup_swapped_keys {V : Type _} (A B : Dict κ V) (hA : (Dict.keys A).Nodup) (hB : (Dict.keys B).Nodup) :
    ((swapped A B).1.map Prod.fst).Nodup ∧ ((swapped A B).2.map Prod.fst).Nodup := by
  unfold swapped
  split
  · exact ⟨hB, hA⟩
  · exact ⟨hA, hB⟩

theorem count_swapped_keys {V : Type _} (A B : Dict κ V) (hA : (Dict.keys A).Nodup) (hB : (Dict.keys B).Nodup) (k : κ) :
    List.count k (if A.length = 0 ∨ B.length = 0 then [] else (swapped A B).1.map Prod.fst ++ (swapped A B).2.map Prod.fst) ≤ 2 := by
  split
  · exact Nat.zero_le _
  · rw [List.count_append]
    have := List.nodup_iff_count_le_one.mp (nodup_swapped_keys A B hA hB).1 k
    have := List.nodup_iff_count_le_one.mp (nodup_swapped_keys A B hA hB).2 k
    omega

/-- C160. No key is met twice by the loop of `sparse_dot_product`, and at most twice by those of the others: once in each set. -/
theorem steps_once {K : Type _} [Field K] [LinearOrder K] (A B : Dict κ K) (hA : (Dict.keys A).Nodup) (hB : (Dict.keys B).Nodup)
    (C D : Dict κ ℝ) (hC : (Dict.keys C).Nodup) (hD : (Dict.keys D).Nodup) (k : κ) :
    (weightedJaccardSteps false A B).2.count k ≤ 2 ∧ (sparseCosineSteps false C D).2.count k ≤ 2 ∧ (sparseDotSteps C D).2.Nodup := by
  rw [weightedJaccardSteps_eq, sparseCosineSteps_eq, sparseDotSteps_eq]
  exact ⟨count_swapped_keys A B hA hB k, count_swapped_keys C D hC hD k, (nodup_swapped_keys C D hC hD).1⟩

/-- The sets of the documentation (`apple`, `pear` and `pear`, `orange`). -/
example : (weightedJaccardSteps false [("apple", (34 : ℚ)), ("pear", 3)] [("pear", 1), ("orange", 1)]).2 =
    ["apple", "pear", "pear", "orange"] := by decide +kernel

example : (Dict.keys [("apple", (34 : ℚ)), ("pear", 3)]).Nodup ∧ (Dict.keys [("pear", (1 : ℝ)), ("orange", 1)]).Nodup := by
  constructor <;> simp [Dict.keys]

end Fog.Props
