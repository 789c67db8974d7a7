import Verif.Spec.Metric
import Verif.Spec.Strings16
import Verif.Props.Levenshtein
import Mathlib.Algebra.Order.Ring.Rat
import Mathlib.Data.Nat.Cast.Order.Basic
import Mathlib.Tactic.NormNum

/-!
# C107: whether the distances are metrics
-/

namespace Fog.Props

open Fog Spec Levenshtein

/-- **C107 is false** of `levenshtein_distance`: two different strings may be at distance zero, and not the other way round. -/
theorem levenshtein_distance_not_symmetric :
    levenshteinDistance (cps "aa") (cps "ab") = 0 ∧ levenshteinDistance (cps "ab") (cps "aa") = 1 := by
  constructor <;> simp [cps, levenshteinDistance, levenshteinOrdered, suffixLoop, prefixLoop]

/-- **C107 is false** of `levenshtein_distance`: the triangle inequality does not hold, even for three strings whose distances are the
same in both directions. -/
theorem levenshtein_distance_no_triangle :
    levenshteinDistance (cps "aaz") (cps "abcz") = 1 ∧ levenshteinDistance (cps "abcz") (cps "aaz") = 1 ∧
    levenshteinDistance (cps "abcz") (cps "wbcz") = 1 ∧ levenshteinDistance (cps "wbcz") (cps "abcz") = 1 ∧
    levenshteinDistance (cps "aaz") (cps "wbcz") = 3 ∧ levenshteinDistance (cps "wbcz") (cps "aaz") = 3 := by
  refine ⟨?_, ?_, ?_, ?_, ?_, ?_⟩ <;>
    simp [cps, levenshteinDistance, levenshteinOrdered, suffixLoop, prefixLoop, outerLoop, rowLoop, cell, ushort, List.range_succ]

/-- **C107 is false** of `limited_levenshtein_distance` beyond 16 bits: two different strings may be at distance zero, and distances may
differ in the two directions. -/
theorem limited_levenshtein_distance_not_metric :
    limitedLevenshteinDistance 2 [0xF600] [0x1F600] = 0 ∧
    limitedLevenshteinDistance 2 [1, 0xF600, 2] [3, 0x1F600, 4] = 2 ∧
    limitedLevenshteinDistance 2 [3, 0x1F600, 4] [1, 0xF600, 2] = 3 := by
  refine ⟨?_, ?_, ?_⟩ <;>
    simp [limitedLevenshteinDistance, limitedOrdered, suffixLoop, prefixLoop, limitedLoop, bandLoop, cell, ushort, List.range_succ]

/-- A letter which is replaced and found elsewhere is twice in the string. -/
theorem not_replacesRepeated_of_nodup {A B : List Nat} (h : A.Nodup) : ¬ ReplacesRepeated A B := by
  rintro ⟨p, s, x, c, rfl, _, hc, _⟩
  simp [List.nodup_append] at h hc
  grind

/-- **C107**, what holds of `levenshtein_distance`: it is a metric on the strings in which no letter is repeated. -/
theorem levenshtein_distance_metric_partial :
    IsMetric (fun a b : {s : List Nat // s.Nodup ∧ ∀ c ∈ s, c < 65536} => (levenshteinDistance a b : ℚ)) := by
  have key : ∀ a b : {s : List Nat // s.Nodup ∧ ∀ c ∈ s, c < 65536}, levenshteinDistance a b = lev a.1 b.1 := fun a b =>
    isEditDistance_iff.mp (levenshtein_distance_exact_partial _ _ a.2.2 b.2.2 (not_replacesRepeated_of_nodup a.2.1)
      (not_replacesRepeated_of_nodup b.2.1))
  refine ⟨⟨fun a => ?_, fun a b => ?_, fun a b c => ?_⟩, fun a b h => ?_⟩
  · simp only [key, lev_self]; rfl
  · simp only [key, lev_comm a.1 b.1]
  · simp only [key]
    exact_mod_cast lev_triangle a.1 b.1 c.1
  · simp only [key]
    have : lev a.1 b.1 ≠ 0 := fun h0 => h (Subtype.ext (eq_of_lev_eq_zero h0))
    exact_mod_cast Nat.pos_of_ne_zero this

/-- **C107**, what holds of `levenshtein_distance` on all strings of 16-bit characters: it is a metric up to one. -/
theorem levenshtein_distance_almost_metric_partial (A B C : List Nat) (hA : ∀ c ∈ A, c < 65536) (hB : ∀ c ∈ B, c < 65536)
    (hC : ∀ c ∈ C, c < 65536) :
    levenshteinDistance A A = 0 ∧ levenshteinDistance A B ≤ levenshteinDistance B A + 1 ∧
      (levenshteinDistance A B = 0 → WithinEdits 1 A B) ∧
      levenshteinDistance A C ≤ levenshteinDistance A B + levenshteinDistance B C + 2 := by
  have key : ∀ A B : List Nat, (∀ c ∈ A, c < 65536) → (∀ c ∈ B, c < 65536) →
      levenshteinDistance A B ≤ lev A B ∧ lev A B ≤ levenshteinDistance A B + 1 := by
    intro A B hA hB
    obtain ⟨d, h1, h2⟩ := levenshtein_distance_within_one_partial A B hA hB
    rwa [← isEditDistance_iff.mp h1]
  have h1 := key A B hA hB
  have h2 := key B A hB hA
  have h3 := key B C hB hC
  have h4 := key A C hA hC
  have h5 := lev_comm A B
  have h6 := lev_triangle A B C
  refine ⟨by simp [levenshteinDistance], by omega, fun h => ?_, by omega⟩
  rw [withinEdits_iff_lev]
  omega

/-- **C107**, what holds of `limited_levenshtein_distance`: it is a metric on the strings of 16-bit characters, for all limits. -/
theorem limited_levenshtein_distance_metric_partial (max : Nat) (hmax : max + 1 < 2 ^ 32) :
    IsMetric (fun a b : {s : List Nat // Plain16 s} => (limitedLevenshteinDistance max a b : ℚ)) := by
  have key : ∀ a b : {s : List Nat // Plain16 s},
      limitedLevenshteinDistance max a b = if lev a.1 b.1 ≤ max then lev a.1 b.1 else max + 1 := fun a b =>
    limited_levenshtein_distance_partial max _ _ hmax (fun _ => a.2.1) (fun _ => b.2.1) a.2.2 b.2.2 _ (isEditDistance_lev _ _)
  refine ⟨⟨fun a => ?_, fun a b => ?_, fun a b c => ?_⟩, fun a b h => ?_⟩
  · simp [key, lev_self]
  · simp only [key, lev_comm a.1 b.1]
  · simp only [key]
    have := lev_triangle a.1 b.1 c.1
    have h2 : (if lev a.1 c.1 ≤ max then lev a.1 c.1 else max + 1) ≤ (if lev a.1 b.1 ≤ max then lev a.1 b.1 else max + 1) +
      (if lev b.1 c.1 ≤ max then lev b.1 c.1 else max + 1) := by
      split <;> split <;> split <;> omega
    exact_mod_cast h2
  · simp only [key]
    have : lev a.1 b.1 ≠ 0 := fun h0 => h (Subtype.ext (eq_of_lev_eq_zero h0))
    have h2 : 0 < (if lev a.1 b.1 ≤ max then lev a.1 b.1 else max + 1) := by split <;> omega
    exact_mod_cast h2

/-- There are such strings. -/
example : (cps "stone").Nodup ∧ (∀ c ∈ cps "stone", c < 65536) ∧ Plain16 (cps "kitten") ∧ (2 : Nat) + 1 < 2 ^ 32 := by
  refine ⟨by decide, by decide, ⟨by decide, by decide⟩, by decide⟩

end Fog.Props
