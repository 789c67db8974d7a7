import Verif.Model.AdaptiveCalls
import Verif.Props.SortedNeighborhood
import Mathlib.Data.List.Basic
import Mathlib.Tactic.Linarith
import Mathlib.Tactic.Ring

/-!
# adaptive_sorted_neighborhood: how many comparisons a pass makes (C154)
-/

namespace Fog.Props

open Fog.SortedNeighborhood Fog.AdaptiveCalls Fog.Spec Fog.Pairwise

variable {α : Type _}

theorem enlargeSteps_snd (similarity : α → α → Bool) (S : List α) (f fuel : Nat) : ∀ first last,
    (enlargeSteps similarity S f fuel first last).2 = enlarge similarity S f fuel first last := by
  induction fuel with
  | zero => intro _ _; rfl
  | succ fuel ih =>
      intro first last
      rw [enlargeSteps, enlarge]
      rcases compareAt similarity S first last with e | b
      · rfl
      · cases b
        · rfl
        · exact ih _ _

theorem enlargeSteps_compare (similarity : α → α → Bool) (S : List α) (f fuel : Nat) : ∀ first last,
    (enlargeSteps similarity S f fuel first last).1.filterMap Step.compare? = [] := by
  induction fuel with
  | zero => intro _ _; rfl
  | succ fuel ih =>
      intro first last
      rw [enlargeSteps]
      rcases compareAt similarity S first last with e | b
      · rfl
      · cases b
        · rfl
        · exact ih _ _

theorem retrenchSteps_snd (similarity : α → α → Bool) (S : List α) (window w : Nat) : ∀ last,
    (retrenchSteps similarity S window w last).2 = retrench similarity S window w last := by
  induction w with
  | zero => intro _; rfl
  | succ w ih =>
      intro last
      rw [retrenchSteps, retrench]
      split
      · rcases compareAt similarity S (last - 1) last with e | b
        · rfl
        · cases b
          · exact ih _
          · rfl
      · rfl

theorem retrenchSteps_compare (similarity : α → α → Bool) (S : List α) (window w : Nat) : ∀ last,
    (retrenchSteps similarity S window w last).1.filterMap Step.compare? = [] := by
  induction w with
  | zero => intro _; rfl
  | succ w ih =>
      intro last
      rw [retrenchSteps]
      split
      · rcases compareAt similarity S (last - 1) last with e | b
        · rfl
        · cases b
          · exact ih _
          · rfl
      · rfl

theorem filterMap_compare (l : List (Nat × Nat)) : (l.map Step.compare).filterMap Step.compare? = l := by
  rw [List.filterMap_map]
  exact List.filterMap_some

theorem passSteps_snd (similarity : α → α → Bool) (S : List α) (window fuel : Nat) : ∀ first,
    (passSteps similarity S window fuel first).2 = snmLoop similarity S window fuel first := by
  induction fuel with
  | zero => intro _; rfl
  | succ fuel ih =>
      intro first
      rw [passSteps, snmLoop]
      dsimp only
      split
      · rw [enlargeSteps_snd]
        rcases enlarge similarity S first (fuel + 1) first (first + (window - 1)) with _ | e | last
        · rfl
        · rfl
        · dsimp only
          rw [retrenchSteps_snd]
          rcases retrench similarity S window (last - first + 1) last with e | last
          · rfl
          · dsimp only
            rw [ih]
            rcases snmLoop similarity S window fuel (last + 1) with _ | e | blocks <;> rfl
      · split <;> rfl

theorem passSteps_compare (similarity : α → α → Bool) (S : List α) (window fuel : Nat) : ∀ first blocks,
    (passSteps similarity S window fuel first).2 = some (.ok blocks) →
    (passSteps similarity S window fuel first).1.filterMap Step.compare? = blocks.flatMap fun b => blockCalls b.1 b.2 := by
  induction fuel with
  | zero => intro _ _ h; cases h
  | succ fuel ih =>
      intro first blocks h
      rw [passSteps] at h ⊢
      dsimp only at h ⊢
      split at h
      · next hlt =>
          rw [if_pos hlt]
          have hc := enlargeSteps_compare similarity S first (fuel + 1) first (first + (window - 1))
          rcases he : enlargeSteps similarity S first (fuel + 1) first (first + (window - 1)) with ⟨c1, _ | e | last⟩
          · rw [he] at h; cases h
          · rw [he] at h; cases h
          · rw [he] at h hc
            dsimp only at h hc ⊢
            have hr := retrenchSteps_compare similarity S window (last - first + 1) last
            rcases hr' : retrenchSteps similarity S window (last - first + 1) last with ⟨c2, e | last'⟩
            · rw [hr'] at h; cases h
            · rw [hr'] at h hr
              dsimp only at h hr ⊢
              rcases hp : passSteps similarity S window fuel (last' + 1) with ⟨c3, _ | e | bs⟩
              · rw [hp] at h; cases h
              · rw [hp] at h; cases h
              · rw [hp] at h
                dsimp only at h ⊢
                cases h
                have := ih (last' + 1) bs (by rw [hp])
                rw [hp] at this
                dsimp only at this
                rw [List.filterMap_append, List.filterMap_append, List.filterMap_append, hc, hr, filterMap_compare, this]
                rfl
      · next hlt =>
          rw [if_neg hlt]
          split at h
          · next hf => rw [if_pos hf]; cases h; rw [filterMap_compare]; simp
          · next hf => rw [if_neg hf]; cases h; rfl

theorem blockCalls_eq (start stop : Nat) (h : start ≤ stop) :
    blockCalls start stop = (pyRange start (stop + 1)).flatMap fun i => (pyRange (i + 1) (stop + 1)).map fun j => (i, j) := by
  unfold blockCalls
  dsimp only
  split
  · next h1 =>
      have : stop = start := by omega
      subst this
      simp [pyRange]
  · split
    · next h1 h2 =>
        have : stop = start + 1 := by omega
        subst this
        have e1 : start + 1 + 1 - start = 2 := by omega
        simp [pyRange, e1, List.range'_succ]
    · rfl

theorem blockCalls_yielded (similarity : α → α → Bool) (S : List α) (start stop : Nat) (h : start ≤ stop) :
    (blockCalls start stop).filterMap (yielded similarity S) = blockPairs similarity S start stop := by
  rw [blockCalls_eq start stop h, blockPairs, List.filterMap_flatMap]
  refine List.flatMap_congr fun i _ => ?_
  rw [List.filterMap_map]
  rfl

theorem length_blockCalls (start stop : Nat) (h : start ≤ stop) :
    2 * (blockCalls start stop).length = (stop + 1 - start) * (stop + 1 - start - 1) := by
  rw [blockCalls_eq start stop h, List.length_flatMap]
  simp only [List.length_map, pyRange, List.length_range']
  obtain ⟨m, rfl⟩ : ∃ m, stop = start + m := ⟨stop - start, by omega⟩
  have e : start + m + 1 - start = m + 1 := by omega
  rw [e]
  clear h e
  induction m generalizing start with
  | zero => simp
  | succ m ih =>
      have := ih (start + 1)
      have e1 : start + 1 + m + 1 = start + (m + 1) + 1 := by omega
      rw [e1] at this
      rw [List.range'_succ, List.map_cons, List.sum_cons, Nat.mul_add, this]
      have e2 : start + (m + 1) + 1 - (start + 1) = m + 1 := by omega
      rw [e2]
      simp only [Nat.add_sub_cancel]
      ring

/-- C154. The steps are those of the model of C24: the same blocks or error, and the same pairs are yielded. -/
theorem adaptive_calls_same (similarity : α → α → Bool) (S : List α) (window fuel : Nat) (hw : 2 ≤ window) (hfuel : S.length < fuel) :
    (passSteps similarity S window fuel 0).2 = fullAASNM similarity S window fuel ∧
    ∀ blocks, fullAASNM similarity S window fuel = some (.ok blocks) →
      ((passSteps similarity S window fuel 0).1.filterMap Step.compare?).filterMap (yielded similarity S) =
        blocks.flatMap fun b => blockPairs similarity S b.1 b.2 := by
  refine ⟨passSteps_snd similarity S window fuel 0, fun blocks h => ?_⟩
  have hb : ∀ b ∈ blocks, b.1 ≤ b.2 := by
    rcases adaptive_blocks_partial similarity S window fuel hw hfuel with h' | ⟨bs, h', h1, _⟩
    · rw [h'] at h; cases h
    · rw [h'] at h; cases h; exact h1
  rw [passSteps_compare similarity S window fuel 0 blocks (by rw [passSteps_snd]; exact h), List.filterMap_flatMap]
  exact List.flatMap_congr fun b hb' => blockCalls_yielded similarity S b.1 b.2 (hb b hb')

theorem sum_choose_le (l : List Nat) : (l.map fun x => x * (x - 1)).sum ≤ l.sum * (l.sum - 1) := by
  induction l with
  | nil => simp
  | cons x l ih =>
      rw [List.map_cons, List.sum_cons, List.sum_cons]
      generalize l.sum = s at *
      refine le_trans (Nat.add_le_add_left ih _) ?_
      rcases x with _ | x
      · simp
      · rcases s with _ | s
        · simp
        · have e : x + 1 + (s + 1) - 1 = x + s + 1 := by omega
          rw [e]
          simp only [Nat.add_sub_cancel]
          nlinarith

/-- C154, what holds: inside the blocks, the comparisons are those of all pairs of each block, as many as `l (l - 1) / 2` for a block of `l` items, and no more
than there are pairs of items. -/
theorem adaptive_calls_partial (similarity : α → α → Bool) (S : List α) (window fuel : Nat) (hw : 2 ≤ window) (hfuel : S.length < fuel)
    (blocks : List (Nat × Nat)) (h : (passSteps similarity S window fuel 0).2 = some (.ok blocks)) :
    2 * ((passSteps similarity S window fuel 0).1.filterMap Step.compare?).length =
      (blocks.map fun b => (b.2 + 1 - b.1) * (b.2 + 1 - b.1 - 1)).sum ∧
    2 * ((passSteps similarity S window fuel 0).1.filterMap Step.compare?).length ≤ S.length * (S.length - 1) := by
  have hb : (∀ b ∈ blocks, b.1 ≤ b.2) ∧ (blocks.flatMap fun b => List.range' b.1 (b.2 + 1 - b.1)) = List.range S.length := by
    have h' := h
    rw [passSteps_snd] at h'
    rcases adaptive_blocks_partial similarity S window fuel hw hfuel with h2 | ⟨bs, h2, h1⟩
    · rw [fullAASNM] at h2; rw [h2] at h'; cases h'
    · rw [fullAASNM] at h2; rw [h2] at h'; cases h'; exact h1
  have e : 2 * ((passSteps similarity S window fuel 0).1.filterMap Step.compare?).length =
      (blocks.map fun b => (b.2 + 1 - b.1) * (b.2 + 1 - b.1 - 1)).sum := by
    rw [passSteps_compare similarity S window fuel 0 blocks h, List.length_flatMap]
    have := hb.1
    clear h hb
    induction blocks with
    | nil => rfl
    | cons b bs ih =>
        rw [List.map_cons, List.sum_cons, Nat.mul_add, length_blockCalls b.1 b.2 (this b (by simp)), List.map_cons, List.sum_cons,
          ih fun b' hb' => this b' (by simp [hb'])]
  refine ⟨e, ?_⟩
  rw [e]
  have hlen : (blocks.map fun b => b.2 + 1 - b.1).sum = S.length := by
    have := congrArg List.length hb.2
    rw [List.length_flatMap, List.length_range] at this
    simpa only [List.length_range'] using this
  have := sum_choose_le (blocks.map fun b => b.2 + 1 - b.1)
  rw [hlen, List.map_map] at this
  exact this

theorem enlarge_bounds (similarity : α → α → Bool) (S : List α) (f fuel : Nat) : ∀ first last, f < last →
    (enlargeSteps similarity S f fuel first last).1.length + last ≤ max S.length last ∧
    ∀ l, (enlargeSteps similarity S f fuel first last).2 = some (.ok l) → last ≤ l ∧ l < S.length := by
  induction fuel with
  | zero => intro first last _; exact ⟨by simp [enlargeSteps], fun l h => by cases h⟩
  | succ fuel ih =>
      intro first last hf
      rw [enlargeSteps]
      rcases hc : compareAt similarity S first last with e | b
      · exact ⟨by simp, fun l h => by cases h⟩
      · have hlast : last < S.length := by
          by_contra hn
          unfold compareAt at hc
          rw [List.getElem?_eq_none (Nat.le_of_not_lt hn)] at hc
          rcases hS : S[first]? with _ | _ <;> simp only [hS] at hc <;> cases hc
        cases b
        · exact ⟨by simp only [List.length_cons, List.length_nil]; omega, fun l h => by cases h; exact ⟨le_rfl, hlast⟩⟩
        · obtain ⟨h1, h2⟩ := ih last (last + (last - f + 1) - 1) (by omega)
          dsimp only
          refine ⟨?_, fun l h => ?_⟩
          · rw [List.length_cons]; omega
          · have := h2 l h
            omega

theorem retrench_bounds (similarity : α → α → Bool) (S : List α) (window w : Nat) : ∀ last, w ≤ last + 1 →
    (retrenchSteps similarity S window w last).1.length ≤ w - window ∧
    ∀ l, (retrenchSteps similarity S window w last).2 = .ok l → window ≤ w → last + window ≤ l + w := by
  induction w with
  | zero => intro last _; exact ⟨by simp [retrenchSteps], fun l h _ => by cases h; omega⟩
  | succ w ih =>
      intro last hl
      rw [retrenchSteps]
      split
      · rcases compareAt similarity S (last - 1) last with e | b
        · exact ⟨by simp, fun l h => by cases h⟩
        · cases b
          · obtain ⟨h1, h2⟩ := ih (last - 1) (by omega)
            dsimp only
            refine ⟨by rw [List.length_cons]; omega, fun l h hw => ?_⟩
            have := h2 l h (by omega)
            omega
          · exact ⟨by simp only [List.length_cons, List.length_nil]; omega, fun l h _ => by cases h; omega⟩
      · exact ⟨by simp, fun l h _ => by cases h; omega⟩

theorem filterMap_place (l : List (Nat × Nat)) : (l.map Step.compare).filterMap Step.place? = [] := by
  induction l with
  | nil => rfl
  | cons p l ih => exact ih

theorem passSteps_place (similarity : α → α → Bool) (S : List α) (window : Nat) (hw : 2 ≤ window) (fuel : Nat) : ∀ first,
    ((passSteps similarity S window fuel first).1.filterMap Step.place?).length * window ≤ (S.length - first) * (S.length - first) := by
  induction fuel with
  | zero => intro first; simp [passSteps]
  | succ fuel ih =>
      intro first
      rw [passSteps]
      dsimp only
      split
      · next hlt =>
          obtain ⟨m, hm⟩ : ∃ m, S.length - first = m + window := ⟨S.length - first - window, by omega⟩
          have hsq : (2 * m + 1) * window ≤ (S.length - first) * (S.length - first) := by rw [hm]; nlinarith
          obtain ⟨h1, h2⟩ := enlarge_bounds similarity S first (fuel + 1) first (first + (window - 1)) (by omega)
          rcases he : enlargeSteps similarity S first (fuel + 1) first (first + (window - 1)) with ⟨c1, r⟩
          rw [he] at h1 h2
          dsimp only at h1 h2
          have hc1 : (c1.filterMap Step.place?).length ≤ m + 1 := le_trans (List.length_filterMap_le _ _) (by omega)
          rcases r with _ | e | last
          · dsimp only; exact le_trans (Nat.mul_le_mul_right _ (by omega)) hsq
          · dsimp only; exact le_trans (Nat.mul_le_mul_right _ (by omega)) hsq
          · dsimp only
            obtain ⟨h3, h4⟩ := h2 last rfl
            obtain ⟨h5, h6⟩ := retrench_bounds similarity S window (last - first + 1) last (by omega)
            rcases hr : retrenchSteps similarity S window (last - first + 1) last with ⟨c2, e | last'⟩
            · rw [hr] at h5
              dsimp only at h5 ⊢
              have hc2 : (c2.filterMap Step.place?).length ≤ m := le_trans (List.length_filterMap_le _ _) (by omega)
              rw [List.filterMap_append, List.length_append]
              exact le_trans (Nat.mul_le_mul_right _ (by omega)) hsq
            · rw [hr] at h5 h6
              dsimp only at h5 h6 ⊢
              have hc2 : (c2.filterMap Step.place?).length ≤ m := le_trans (List.length_filterMap_le _ _) (by omega)
              have h7 := h6 last' rfl (by omega)
              have hrest := ih (last' + 1)
              have hle : S.length - (last' + 1) ≤ m := by omega
              have hrest' := le_trans hrest (Nat.mul_le_mul hle hle)
              rw [List.filterMap_append, List.filterMap_append, List.filterMap_append, filterMap_place, List.length_append, List.length_append,
                List.length_append, List.length_nil, Nat.add_zero, Nat.add_mul]
              have h8 : ((c1.filterMap Step.place?).length + (c2.filterMap Step.place?).length) * window ≤ (2 * m + 1) * window :=
                Nat.mul_le_mul_right _ (by omega)
              rw [hm]
              nlinarith
      · split
        · rw [filterMap_place]; simp
        · simp

/-- C154. The comparisons which place the windows: at most `n ^ 2 / window` for `n` items, whether the pass ends or raises. -/
theorem adaptive_place_bound (similarity : α → α → Bool) (S : List α) (window fuel : Nat) (hw : 2 ≤ window) :
    ((passSteps similarity S window fuel 0).1.filterMap Step.place?).length * window ≤ S.length ^ 2 := by
  have := passSteps_place similarity S window hw fuel 0
  rw [Nat.sub_zero] at this
  rw [pow_two]
  exact this

/-- C154. Each call either places a window or compares the items of a block. -/
theorem adaptive_calls_sum (similarity : α → α → Bool) (S : List α) (window fuel : Nat) :
    (passSteps similarity S window fuel 0).1.length = ((passSteps similarity S window fuel 0).1.filterMap Step.place?).length +
      ((passSteps similarity S window fuel 0).1.filterMap Step.compare?).length := by
  induction (passSteps similarity S window fuel 0).1 with
  | nil => rfl
  | cons s l ih =>
      cases s <;> simp only [List.filterMap_cons, Step.place?, Step.compare?, List.length_cons] <;> omega

/-- C154 is false: two items which fill a window are compared to place it, and again in their block. With a window as long as the data and no two items similar,
there is one more comparison than there are pairs. -/
theorem adaptive_calls_many (S : List α) (fuel : Nat) (h2 : 2 ≤ S.length) :
    (passSteps (fun _ _ => false) S S.length (fuel + 2) 0).2 = some (.ok [(0, S.length - 1)]) ∧
    2 * (passSteps (fun _ _ => false) S S.length (fuel + 2) 0).1.length = 2 + S.length * (S.length - 1) := by
  have hc : compareAt (fun _ _ : α => false) S 0 (S.length - 1) = .ok false := by
    unfold compareAt
    rw [List.getElem?_eq_getElem (show 0 < S.length by omega), List.getElem?_eq_getElem (show S.length - 1 < S.length by omega)]
  have he : enlargeSteps (fun _ _ : α => false) S 0 (fuel + 1 + 1) 0 (S.length - 1) = ([.place (0, S.length - 1)], some (.ok (S.length - 1))) := by
    rw [enlargeSteps, hc]
  have hr : retrenchSteps (fun _ _ : α => false) S S.length (S.length - 1 - 0 + 1) (S.length - 1) = ([], .ok (S.length - 1)) := by
    rw [retrenchSteps, if_neg (by omega)]
  have hlast : passSteps (fun _ _ : α => false) S S.length (fuel + 1) (S.length - 1 + 1) = ([], some (.ok [])) := by
    rw [passSteps]
    dsimp only
    rw [if_neg (by omega), if_neg (by omega)]
  have hp : passSteps (fun _ _ : α => false) S S.length (fuel + 2) 0 =
      ([.place (0, S.length - 1)] ++ [] ++ (blockCalls 0 (S.length - 1)).map .compare ++ [], some (.ok [(0, S.length - 1)])) := by
    rw [passSteps]
    simp only [Nat.zero_add]
    rw [if_pos (by omega), he]
    dsimp only
    rw [hr]
    dsimp only
    rw [hlast]
  rw [hp]
  refine ⟨rfl, ?_⟩
  have := length_blockCalls 0 (S.length - 1) (by omega)
  simp only [Nat.sub_zero, Nat.sub_add_cancel (show 1 ≤ S.length by omega)] at this
  simp only [List.length_append, List.length_map, List.length_cons, List.length_nil]
  omega

/-- Five numbers, similar when they differ by at most one, and a window of two: the first window grows from 1 2 to 1 2 7, and shrinks to 1 2. Four calls
place the windows, and two compare the items of the blocks. -/
example : (passSteps (fun a b : Int => decide ((a - b).natAbs ≤ 1)) [1, 2, 7, 9, 20] 2 6 0).2 = some (.ok [(0, 1), (2, 3), (4, 4)]) ∧
    (passSteps (fun a b : Int => decide ((a - b).natAbs ≤ 1)) [1, 2, 7, 9, 20] 2 6 0).1.length = 6 := by
  decide +kernel

end Fog.Props
