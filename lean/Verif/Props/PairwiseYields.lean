import Verif.Props.Pairwise

/-!
# C17: what `pairwise_leader` yields before it raises
-/

namespace Fog.Props

open Pairwise Spec

variable {β : Type _}

theorem leaderYields_spec (similarity : β → β → Bool) (data : List β) (min m : Nat) (is visited : List Nat) (cs : List (List Nat))
    (h : leaderOuter similarity data 0 none is visited = .ok cs) :
    leaderYields similarity data min (some m) is visited =
      ((cs.takeWhile fun c => decide (c.length ≤ m)).filter fun c => decide (min ≤ c.length),
        if ∃ c ∈ cs, m < c.length then some .attributeError else none) := by
  induction is generalizing visited cs with
  | nil =>
      obtain rfl : cs = [] := by simpa [leaderOuter] using h.symm
      simp [leaderYields]
  | cons i is ih =>
      unfold leaderOuter at h
      unfold leaderYields
      by_cases hi : i ∈ visited
      · simp only [hi, if_true] at h ⊢
        exact ih visited cs h
      · simp only [hi, if_false] at h ⊢
        rcases leaderLoop_some similarity data m i (pyRange (i + 1) data.length) [] visited with he | ⟨c, v, h1, h2, h3⟩
        · obtain ⟨c, v, h1, h2⟩ := leaderLoop_error _ _ _ _ _ _ _ he
          rw [he]
          rw [h1] at h
          simp only [bind, Except.bind] at h
          obtain ⟨cs', h4⟩ := leaderOuter_returns similarity data 0 is v
          rw [h4] at h
          have hc : c ≠ [] := by rintro rfl; simp at h2
          simp only [ne_eq, hc, not_false_eq_true, ge_iff_le, Nat.zero_le, and_self, if_true, Except.ok.injEq] at h
          subst h
          have : ¬ c.length ≤ m := by omega
          simp [this, h2]
        · rw [h1]
          rw [h2] at h
          simp only [bind, Except.bind] at h
          obtain ⟨cs', h4⟩ := leaderOuter_returns similarity data 0 is v
          rw [h4] at h
          simp only [ih v cs' h4]
          have hm : c.length ≤ m := h3 (by simp)
          by_cases hc : c = []
          · subst hc
            simp only [ne_eq, not_true_eq_false, false_and, if_false, Except.ok.injEq] at h ⊢
            subst h
            rfl
          · simp only [ne_eq, hc, not_false_eq_true, ge_iff_le, Nat.zero_le, and_self, if_true, Except.ok.injEq, true_and] at h ⊢
            subst h
            have hm' : ¬ m < c.length := by omega
            by_cases hmin : min ≤ c.length
            · simp [hmin, hm, hm']
            · simp [hmin, hm, hm']

/-- **C17**: with a maximum size, `pairwise_leader` yields the clusters which come before the first one which is too large, those which are
too small excepted, and then raises an `AttributeError`; it yields them all if none is too large. -/
theorem pairwise_leader_yields (similarity : β → β → Bool) (data : List β) (min m : Nat) (lead : Nat → Option Nat)
    (hl : IsLeaderAssignment
      (fun i j => ∃ a b, data[i]? = some a ∧ data[j]? = some b ∧ similarity a b = true) data.length lead)
    (clusters : List (List Nat)) (hclusters : clusters = (List.range data.length).filterMap fun i =>
      if lead i = none ∧ (∃ j, j < data.length ∧ lead j = some i)
      then some (i :: (List.range data.length).filter fun j => decide (lead j = some i)) else none) :
    pairwiseLeaderYields similarity data min (some m) =
      (((clusters.takeWhile fun c => decide (c.length ≤ m)).filter fun c => decide (min ≤ c.length)).map
        fun c => c.filterMap fun i => data[i]?,
      if ∃ c ∈ clusters, m < c.length then some .attributeError else none) := by
  have hl' : IsLeaderAssignment (fun i j => similarAt similarity data i j = true) data.length lead := by
    have : (fun i j => similarAt similarity data i j = true) =
        (fun i j => ∃ a b, data[i]? = some a ∧ data[j]? = some b ∧ similarity a b = true) := by
      funext i j; exact propext (similarAt_iff similarity data i j)
    rw [this]; exact hl
  have h := leaderOuter_spec similarity data 0 lead hl' 0 (by omega) [] (by
    intro j _; simp)
  have h0 : pyRange 0 data.length = List.range data.length := by
    unfold pyRange; rw [List.range_eq_range']; simp
  rw [h0] at h
  have hne : ∀ i, ledBy data.length lead i ≠ [] ↔ ∃ j, j < data.length ∧ lead j = some i := by
    intro i
    rw [ne_eq, List.eq_nil_iff_forall_not_mem]
    simp [ledBy]
  have hcs : leaderOuter similarity data 0 none (List.range data.length) [] = .ok clusters := by
    rw [h, hclusters]
    congr 2
    funext i
    by_cases hi : lead i = none ∧ ∃ j, j < data.length ∧ lead j = some i
    · rw [if_pos hi, if_pos ⟨hi.1, (hne i).mpr hi.2, by omega⟩]
      rfl
    · rw [if_neg hi, if_neg fun h => hi ⟨h.1, (hne i).mp h.2.1⟩]
  unfold pairwiseLeaderYields
  simp only [leaderYields_spec similarity data min m _ _ _ hcs]
  rfl

-- Two clusters are yielded before the third one, which is too large.
example : pairwiseLeaderYields (fun a b : Nat => decide (a / 10 = b / 10)) [0, 1, 10, 20, 11, 21, 22, 30, 31] 2 (some 2) =
    ([[0, 1], [10, 11]], some .attributeError) := by decide +kernel

end Fog.Props
