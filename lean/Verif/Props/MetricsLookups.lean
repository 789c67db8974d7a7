import Verif.Model.MetricsLookups
import Verif.Lemmas.Metrics

/-!
# The set metrics: how many lookups they make (C159)
-/

namespace Fog.Props

open Fog.Metrics

variable {α : Type _} [DecidableEq α]

theorem countInLookups_eq (A B : List α) : countInLookups A B = (countIn A B, A) := by
  have h : ∀ (A : List α) (i : Nat) (l : List α), A.foldl (fun s v => (if v ∈ B then s.1 + 1 else s.1, s.2 ++ [v])) (i, l) =
      (A.foldl (fun i v => if v ∈ B then i + 1 else i) i, l ++ A) := by
    intro A
    induction A with
    | nil => intro i l; simp
    | cons v A ih =>
        intro i l
        rw [List.foldl_cons, List.foldl_cons, ih, List.append_assoc]
        rfl
  exact h A 0 []

/-- C159. The results are those of the functions. -/
theorem lookups_same (same : Bool) (A B : List α) :
    (intersectionSizeLookups same A B).1 = intersectionSize same A B ∧ (jaccardLookups same A B).1 = jaccardSimilarity same A B ∧
    (diceLookups same A B).1 = diceCoefficient same A B ∧ (overlapLookups same A B).1 = overlapCoefficient same A B := by
  unfold intersectionSizeLookups intersectionSize jaccardLookups jaccardSimilarity diceLookups diceCoefficient overlapLookups overlapCoefficient
  simp only [countInLookups_eq]
  refine ⟨?_, ?_, ?_, ?_⟩ <;> (repeat' split) <;> rfl

/-- C159. Sets which are not the same object: each element of the smaller one is looked up once, so that there are `min(len(A), len(B))` lookups. -/
theorem lookups_count (A B : List α) :
    (intersectionSizeLookups false A B).2.length = min A.toFinset.card B.toFinset.card ∧
    (jaccardLookups false A B).2.length = min A.toFinset.card B.toFinset.card ∧
    (diceLookups false A B).2.length = min A.toFinset.card B.toFinset.card ∧
    (overlapLookups false A B).2.length = min A.toFinset.card B.toFinset.card := by
  unfold intersectionSizeLookups jaccardLookups diceLookups overlapLookups
  simp only [countInLookups_eq, Bool.false_eq_true, if_false]
  have hA := length_dedup A
  have hB := length_dedup B
  refine ⟨?_, ?_, ?_, ?_⟩
  all_goals
    by_cases h : (dedup A).length > (dedup B).length
    · simp only [if_pos h]
      split
      · simp only [List.length_nil]; omega
      · dsimp only; omega
    · simp only [if_neg h]
      split
      · simp only [List.length_nil]; omega
      · dsimp only; omega

/-- C159. No element is looked up twice. -/
theorem lookups_nodup (A B : List α) : (jaccardLookups false A B).2.Nodup ∧ (diceLookups false A B).2.Nodup ∧
    (overlapLookups false A B).2.Nodup ∧ (intersectionSizeLookups false A B).2.Nodup := by
  unfold intersectionSizeLookups jaccardLookups diceLookups overlapLookups
  simp only [countInLookups_eq, Bool.false_eq_true, if_false]
  refine ⟨?_, ?_, ?_, ?_⟩
  all_goals
    by_cases h : (dedup A).length > (dedup B).length
    · simp only [if_pos h]
      split
      · exact List.nodup_nil
      · exact nodup_dedup B
    · simp only [if_neg h]
      split
      · exact List.nodup_nil
      · exact nodup_dedup A

/-- C159. What is looked up are elements of the smaller set; of the first one when both have as many. -/
theorem lookups_smaller (A B : List α) (v : α) (hv : v ∈ (jaccardLookups false A B).2 ∨ v ∈ (diceLookups false A B).2 ∨
    v ∈ (overlapLookups false A B).2 ∨ v ∈ (intersectionSizeLookups false A B).2) :
    if B.toFinset.card < A.toFinset.card then v ∈ B else v ∈ A := by
  rw [← length_dedup A, ← length_dedup B]
  unfold intersectionSizeLookups jaccardLookups diceLookups overlapLookups at hv
  simp only [countInLookups_eq, Bool.false_eq_true, if_false] at hv
  by_cases h : (dedup A).length > (dedup B).length
  · simp only [if_pos h] at hv
    rw [if_pos h]
    rcases hv with hv | hv | hv | hv
    all_goals
      split at hv
      · exact absurd hv List.not_mem_nil
      · exact mem_dedup.mp hv
  · simp only [if_neg h] at hv
    rw [if_neg h]
    rcases hv with hv | hv | hv | hv
    all_goals
      split at hv
      · exact absurd hv List.not_mem_nil
      · exact mem_dedup.mp hv

/-- The letters of `context` and `contact`: six and five, so that five are looked up. -/
example : (jaccardLookups false "context".toList "contact".toList).2.length = 5 := by decide +kernel

/-- The second set is smaller: its elements are looked up. -/
example : (diceLookups false [1, 2, 3, 2] [4, 2]).2 = [4, 2] := by decide +kernel

end Fog.Props
