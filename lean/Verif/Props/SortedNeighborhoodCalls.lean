import Verif.Model.SortedNeighborhoodCalls
import Verif.Props.SortedNeighborhood
import Mathlib.Algebra.BigOperators.Intervals
import Mathlib.Algebra.Order.BigOperators.Group.Finset
import Mathlib.Data.Nat.Choose.Basic
import Mathlib.Tactic.Ring
import Mathlib.Tactic.Linarith

/-!
# How many times the sorted neighborhood method calls the similarity (C149)
-/

namespace Fog.Props

open Fog.ClusteringUtils Fog.SortedNeighborhood Fog.Spec

variable {α : Type _}

theorem windowCalls_pairs (similarity : α → α → Bool) (window : Nat) (S : List α) :
    ((windowCalls similarity window S).filter Call.answer).map Call.items = windowPairs similarity window S := by
  unfold windowCalls windowPairs
  rw [List.filter_flatMap, List.map_flatMap]
  congr 1
  funext i
  rcases S[i]? with _ | A
  · simp
  · induction pyRange (i + 1) (min S.length (i + window)) with
    | nil => rfl
    | cons j js ih =>
        rw [List.filterMap_cons, List.filterMap_cons]
        rcases S[j]? with _ | B
        · exact ih
        · dsimp only at ih ⊢
          rw [List.filter_cons]
          by_cases h : similarity A B
          · simp only [h, if_true, List.map_cons, ih]
          · simp only [h, Bool.false_eq_true, if_false]
            exact ih

/-- C149. The calls which answer that two items are similar are the pairs from which the clusters are made. -/
theorem snm_calls_same (oneShot : Bool) (data : List α) (keys : Keys α) (similarity : α → α → Bool) (window : Nat) :
    ((snmCalls oneShot data keys similarity window).filter Call.answer).map Call.items = snmPairs oneShot data keys similarity window := by
  unfold snmCalls snmPairs
  rw [List.filter_flatMap, List.map_flatMap]
  simp only [windowCalls_pairs]

theorem windowCalls_positions (similarity : α → α → Bool) (window : Nat) (S : List α) :
    (windowCalls similarity window S).map Call.positions =
      (List.range S.length).flatMap fun i => (pyRange (i + 1) (min S.length (i + window))).map fun j => (i, j) := by
  unfold windowCalls
  rw [List.map_flatMap]
  refine List.flatMap_congr fun i hi => ?_
  have hi' : i < S.length := List.mem_range.mp hi
  have hj : ∀ j ∈ pyRange (i + 1) (min S.length (i + window)), j < S.length := fun j hj => by
    simp only [pyRange, List.mem_range'_1] at hj
    omega
  revert hj
  induction pyRange (i + 1) (min S.length (i + window)) with
  | nil => intro _; rfl
  | cons j js ih =>
      intro hj
      rw [List.filterMap_cons, List.getElem?_eq_getElem hi', List.getElem?_eq_getElem (hj j (by simp))]
      dsimp only
      rw [List.map_cons, List.map_cons, ← ih fun x hx => hj x (by simp [hx]), List.getElem?_eq_getElem hi']

/-- C149. In a pass over `n` items, each two positions less than `window` apart are compared once, and no others. -/
theorem snm_calls_positions (similarity : α → α → Bool) (window : Nat) (S : List α) :
    ((windowCalls similarity window S).map Call.positions).Nodup ∧
    ∀ i j, (i, j) ∈ (windowCalls similarity window S).map Call.positions ↔ i < j ∧ j < S.length ∧ j < i + window := by
  rw [windowCalls_positions]
  constructor
  · rw [List.nodup_flatMap]
    constructor
    · intro i _
      exact List.Nodup.map (fun a b h => (Prod.mk.inj h).2) (List.nodup_range' (step := 1))
    · refine (List.nodup_range (n := S.length)).imp fun {i i'} h => ?_
      intro p hp hp'
      obtain ⟨_, _, rfl⟩ := List.mem_map.mp hp
      obtain ⟨_, _, e⟩ := List.mem_map.mp hp'
      exact h (Prod.mk.inj e).1.symm
  · intro i j
    simp only [List.mem_flatMap, List.mem_range, List.mem_map, Prod.mk.injEq, pyRange, List.mem_range'_1]
    constructor
    · rintro ⟨_, h1, _, h2, rfl, rfl⟩; omega
    · intro h; exact ⟨i, by omega, j, by omega, rfl, rfl⟩

theorem sum_window (n window : Nat) :
    ((List.range n).map fun i => min n (i + window) - (i + 1)).sum = ∑ d ∈ Finset.Ico 1 window, (n - d) := by
  have conv : ∀ f : Nat → Nat, ((List.range n).map f).sum = ∑ i ∈ Finset.range n, f i := fun f => rfl
  rw [conv]
  induction window with
  | zero =>
      rw [Finset.sum_eq_zero fun i hi => ?_]
      · simp
      · omega
  | succ w ih =>
      rcases Nat.eq_zero_or_pos w with rfl | hw
      · rw [Finset.sum_eq_zero fun i hi => ?_]
        · simp
        · omega
      · rw [Finset.sum_Ico_succ_top hw, ← ih]
        have h : ∀ i, i ∈ Finset.range n → min n (i + (w + 1)) - (i + 1) = (min n (i + w) - (i + 1)) + if i < n - w then 1 else 0 := by
          intro i hi
          have := Finset.mem_range.mp hi
          split <;> omega
        rw [Finset.sum_congr rfl h, Finset.sum_add_distrib]
        congr 1
        rw [← Finset.sum_filter, ← Finset.card_eq_sum_ones]
        have : (Finset.range n).filter (fun i => i < n - w) = Finset.range (n - w) := by
          ext i; simp only [Finset.mem_filter, Finset.mem_range]; omega
        rw [this, Finset.card_range]

theorem length_windowCalls (similarity : α → α → Bool) (window : Nat) (S : List α) :
    (windowCalls similarity window S).length = ∑ d ∈ Finset.Ico 1 window, (S.length - d) := by
  rw [← List.length_map (f := Call.positions), windowCalls_positions, List.length_flatMap, ← sum_window]
  simp [pyRange]

/-- C149. The number of similarities computed: for each pass and each `d < window`, as many as there are positions `d` apart. Only the first pass computes
any when the data is an iterator. -/
theorem snm_calls_count (oneShot : Bool) (data : List α) (keys : Keys α) (similarity : α → α → Bool) (window : Nat) :
    (snmCalls oneShot data keys similarity window).length =
      (if oneShot then min 1 keys.multipass.length else keys.multipass.length) * ∑ d ∈ Finset.Ico 1 window, (data.length - d) := by
  unfold snmCalls
  have hl : ∀ (le : α → α → Bool) (l : List α), (windowCalls similarity window (pySorted l le)).length =
      ∑ d ∈ Finset.Ico 1 window, (l.length - d) := by
    intro le l
    rw [length_windowCalls, pySorted, (List.mergeSort_perm l le).length_eq]
  rw [List.length_flatMap]
  simp only [hl]
  cases hk : keys.multipass with
  | nil => cases oneShot <;> simp [passes]
  | cons k ks =>
      rw [passes]
      cases oneShot
      · simp [Function.comp_def]; ring
      · simp [Function.comp_def]

/-- C149. At most `window - 1` similarities per item and per key, and never more than comparing all pairs once for each key. -/
theorem snm_calls_bound (oneShot : Bool) (data : List α) (keys : Keys α) (similarity : α → α → Bool) (window : Nat) :
    (snmCalls oneShot data keys similarity window).length ≤ keys.multipass.length * ((window - 1) * data.length) ∧
    (snmCalls oneShot data keys similarity window).length ≤ keys.multipass.length * data.length.choose 2 := by
  rw [snm_calls_count]
  have hp : (if oneShot then min 1 keys.multipass.length else keys.multipass.length) ≤ keys.multipass.length := by
    split
    · exact Nat.min_le_right ..
    · exact le_rfl
  constructor
  · refine Nat.mul_le_mul hp ?_
    have := Finset.sum_le_card_nsmul (Finset.Ico 1 window) (fun d => data.length - d) data.length fun d _ => Nat.sub_le ..
    simpa using this
  · refine Nat.mul_le_mul hp ?_
    have h : ∀ n w : Nat, ∑ d ∈ Finset.Ico 1 w, (n - d) ≤ n.choose 2 := by
      intro n
      induction n with
      | zero => intro w; simp
      | succ n ih =>
          intro w
          cases w with
          | zero => simp
          | succ w =>
              rcases Nat.eq_zero_or_pos w with rfl | hw
              · simp
              · rw [Finset.sum_eq_sum_Ico_succ_bot (by omega), Nat.choose_succ_succ, Nat.choose_one_right,
                  ← Finset.sum_Ico_add' (fun d => n + 1 - d) 1 w 1]
                refine Nat.add_le_add (by omega) ?_
                refine le_trans (le_of_eq (Finset.sum_congr rfl fun d _ => by omega)) (ih w)
    exact h ..

/-- C149. The number of similarities of one pass, when the window is not larger than the data. -/
theorem snm_calls_closed (data : List α) (le similarity : α → α → Bool) (window : Nat) (h1 : 1 ≤ window) (h2 : window ≤ data.length + 1) :
    2 * (snmCalls false data (.key le) similarity window).length = (window - 1) * (2 * data.length - window) := by
  rw [snm_calls_count]
  simp only [Keys.multipass, List.length_singleton, Bool.false_eq_true, if_false, Nat.one_mul]
  generalize data.length = n at *
  obtain ⟨w, rfl⟩ : ∃ w, window = w + 1 := ⟨window - 1, by omega⟩
  clear h1
  induction w with
  | zero => simp
  | succ w ih =>
      rw [Finset.sum_Ico_succ_top (by omega), Nat.mul_add, ih (by omega)]
      obtain ⟨m, rfl⟩ : ∃ m, n = w + 1 + m := ⟨n - (w + 1), by omega⟩
      have e1 : 2 * (w + 1 + m) - (w + 1) = w + 1 + 2 * m := by omega
      have e2 : 2 * (w + 1 + m) - (w + 1 + 1) = w + 2 * m := by omega
      have e3 : w + 1 + m - (w + 1) = m := by omega
      rw [e1, e2, e3]
      simp only [Nat.add_sub_cancel]
      ring

/-- Four numbers, a window of three: five comparisons in each of two passes. -/
example : (snmCalls false [4, 3, 1, 2] (.keys [fun a b => decide (a ≤ b), fun a b => decide (b ≤ a)]) (fun a b => decide (a + 1 = b)) 3).length = 10 := by
  rw [snm_calls_count]; decide

example : ((snmCalls false [4, 3, 1, 2] (.key fun a b => decide (a ≤ b)) (fun a b => decide (a + 1 = b)) 3).map Call.positions) =
    [(0, 1), (0, 2), (1, 2), (1, 3), (2, 3)] := by
  simp [snmCalls, passes, Keys.multipass, pySorted, windowCalls, List.mergeSort, List.MergeSort.Internal.splitInTwo, pyRange, List.range_succ, List.range'_succ]

example : 2 * (snmCalls false [4, 3, 1, 2] (.key fun a b => decide (a ≤ b)) (fun a b => decide (a + 1 = b)) 3).length = (3 - 1) * (2 * 4 - 3) :=
  snm_calls_closed _ _ _ _ (by decide) (by decide)

end Fog.Props
