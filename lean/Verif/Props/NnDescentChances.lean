import Verif.Lemmas.NnDescentChances
import Verif.Props.NnDescent
import Mathlib.Algebra.Order.Archimedean.Basic
import Mathlib.Data.Real.Archimedean

/-!
# C121: nn_descent ends for almost every drawing of its first neighbors

An outcome gives the first `s` results of `rng.randint(0, N - 1)`, all being as likely; what comes next does not matter.
-/

namespace Fog.Props

open Fog.Spec Fog.NnDescent Fog.ClusteringUtils

variable {α K F : Type} [LinearOrder K]

/-- The draws made among the first `s` ones: all of them when the samples are not over by then. -/
def drawsMade (s : Nat) (r : Py (Option (List (List (Neighbor K F)) × Nat))) : Nat :=
  match r with
  | .ok (some (_, t)) => min s t
  | _ => s

theorem drawsMade_used {heapq : Heapq (Neighbor K F)} (hq : NnDescent.Lawful heapq) (setOrd : List Nat → List Nat)
    (hset : ∀ l, (setOrd l).Perm l) (draws : Nat → Nat) (V : List α) (hV : 0 < V.length) (similarity : α → α → K) (flag : F) (k : Nat)
    (hk : 0 < k) (s : Nat) :
    drawsMade s (initial heapq setOrd draws V similarity flag k (s + 1) (List.range V.length) 0) =
      used draws V.length k s 0 (List.range V.length, []) := by
  rcases initial_spec hq hset (V := V) (P := fun _ => True) (fun _ => trivial) (draws := draws) (similarity := similarity) (flag := flag)
    (k := k) (fuel := s + 1) (t := 0) (is := List.range V.length) (by simp) with h | ⟨B, t, h, _⟩
  · rw [h]
    refine (used_all _ _ _ _ _ _ fun hover => ?_).symm
    obtain ⟨x, hx⟩ := initial_after hq hset (V := V) similarity flag (List.range V.length) s 0 (by simp) (Or.inr hover)
    rw [h] at hx
    simp at hx
  · rw [h]
    obtain ⟨_, h2⟩ := initial_used hV hk _ _ _ _ h
    rw [h2]
    rfl

theorem sound_range {N k : Nat} (hk : 0 < k) : Sound N k (List.range N, []) :=
  ⟨by simp, fun i _ => ⟨drawn_nil N i, by simpa using hk⟩⟩

theorem meanDraws_range {N k : Nat} (hN : 0 < N) :
    meanDraws N k (List.range N, []) = N * ∑ x ∈ Finset.range k, (N : ℝ) / (N - 1 - x) := by
  obtain ⟨n, rfl⟩ : ∃ n, N = n + 1 := ⟨N - 1, by omega⟩
  rw [List.range_succ_eq_map]
  simp only [meanDraws, List.length_map, List.length_range, List.length_nil]
  unfold toGo
  rw [← Finset.range_eq_Ico]
  push_cast
  ring

theorem share_over {N k : Nat} (hk0 : 0 < k) (hk : k < N) (s : Nat) (hs : 0 < s) (rest : Nat → Nat) :
    share (fun o : Fin s → Fin N => (after (stream o rest) N k s 0 (List.range N, [])).1 ≠ []) ≤
      meanDraws N k (List.range N, []) / s := by
  have hpos : (0 : ℝ) < s := by exact_mod_cast hs
  have h := average_used hk0 hk s rest (List.range N, []) (sound_range hk0)
  have hm : 0 ≤ average (fun o : Fin s → Fin N => meanDraws N k (after (stream o rest) N k s 0 (List.range N, []))) := by
    unfold average
    exact div_nonneg (Finset.sum_nonneg fun o _ => meanDraws_nonneg hk _) (by positivity)
  rw [le_div_iff₀ hpos, mul_comm]
  refine (markov (fun o : Fin s → Fin N => (used (stream o rest) N k s 0 (List.range N, []) : ℝ)) (fun o => by positivity) (s : ℝ) _ ?_).trans
    (by linarith)
  intro o ho
  rw [used_all _ _ _ _ _ _ ho]

/-- Draws never make the mean number of those to come greater. -/
theorem meanDraws_after_le {N k : Nat} (hk0 : 0 < k) (hk : k < N) (draws : Nat → Nat) : ∀ (s t : Nat) (st : Drawing), Sound N k st →
    meanDraws N k (after draws N k s t st) ≤ meanDraws N k st := by
  intro s
  induction s with
  | zero => intro t st _; exact le_refl _
  | succ s ih =>
      intro t st hst
      simp only [after]
      refine (ih _ _ (drawOnce_sound hk0 hst (Nat.mod_lt _ (by omega)))).trans ?_
      match st with
      | ([], S) => exact le_refl _
      | (i :: is, S) =>
          obtain ⟨_, hl⟩ := hst.2 i (by simp)
          simp only at hl
          rw [meanDraws_next i is S hl]
          have hpos : (0 : ℝ) ≤ N - 1 - S.length := by
            have : (S.length : ℝ) + 1 ≤ N := by exact_mod_cast (show S.length + 1 ≤ N by omega)
            linarith
          split
          · linarith
          · have : (0 : ℝ) ≤ (N : ℝ) / (N - 1 - S.length) := by positivity
            linarith

/-! ### C121 -/

/-- C121: the first neighbors of the `N` items take in the mean `N * (N / (N - 1) + ... + N / (N - k))` draws: the mean of those made among
the first `s` ones is at most this number, and gets as near to it as wanted. -/
theorem nn_descent_draws_mean {heapq : Heapq (Neighbor K F)} (hq : NnDescent.Lawful heapq) (setOrd : List Nat → List Nat)
    (hset : ∀ l, (setOrd l).Perm l) (V : List α) (similarity : α → α → K) (flag : F) (k : Nat) (hk0 : 0 < k) (hk : k < V.length)
    (rest : Nat → Nat) (s : Nat) (hs : 0 < s) {M : ℝ} (hM : M = V.length * ∑ x ∈ Finset.range k, (V.length : ℝ) / (V.length - 1 - x)) :
    average (fun o : Fin s → Fin V.length => (drawsMade s
      (initial heapq setOrd (stream o rest) V similarity flag k (s + 1) (List.range V.length) 0) : ℝ)) ≤ M ∧
    M * (1 - M / s) ≤ average (fun o : Fin s → Fin V.length => (drawsMade s
      (initial heapq setOrd (stream o rest) V similarity flag k (s + 1) (List.range V.length) 0) : ℝ)) := by
  simp only [fun o : Fin s → Fin V.length =>
    drawsMade_used hq setOrd hset (stream o rest) V (by omega) similarity flag k hk0 s]
  have h := average_used hk0 hk s rest (List.range V.length, []) (sound_range hk0)
  have hm : 0 ≤ average (fun o : Fin s → Fin V.length => meanDraws V.length k (after (stream o rest) V.length k s 0 (List.range V.length, []))) := by
    unfold average
    exact div_nonneg (Finset.sum_nonneg fun o _ => meanDraws_nonneg hk _) (by positivity)
  have hshare := share_over hk0 hk s hs rest
  have hrange := meanDraws_range (N := V.length) (k := k) (by omega)
  rw [← hM] at hrange
  rw [hrange] at h hshare
  have hM0 : 0 ≤ M := by rw [← hrange]; exact meanDraws_nonneg hk _
  refine ⟨by linarith, ?_⟩
  have hup : average (fun o : Fin s → Fin V.length => meanDraws V.length k (after (stream o rest) V.length k s 0 (List.range V.length, []))) ≤
      M * (M / s) := by
    classical
    refine le_trans ?_ (mul_le_mul_of_nonneg_left hshare hM0)
    rw [← average_indicator, ← average_mul]
    apply Fog.LeastRank.average_le
    intro o
    by_cases ho : (after (stream o rest) V.length k s 0 (List.range V.length, [])).1 = []
    · rw [if_neg (by simp [ho])]
      generalize after (stream o rest) V.length k s 0 (List.range V.length, []) = st at ho
      obtain ⟨is, S⟩ := st
      simp only at ho
      subst ho
      simp [meanDraws]
    · rw [if_pos ho, mul_one, ← hrange]
      exact meanDraws_after_le hk0 hk _ _ _ _ (sound_range hk0)
  nlinarith

/-- C121: when there are more items than neighbors to look for, `nn_descent` does not end for a share of the drawings which goes to zero:
it ends with probability one. -/
theorem nn_descent_ends {heapq : Heapq (Neighbor K Unit)} (hq : NnDescent.Lawful heapq) (setOrd : List Nat → List Nat)
    (hset : ∀ l, (setOrd l).Perm l) (ord : Nat → List Nat → List Nat) (hord : ∀ a l, (ord a l).Perm l) (V : List α) (radius : K)
    (similarity : α → α → K) (k : Option Nat) (hk : neighborsOf V.length k < V.length) (min_size : Nat) (max_size : Option Nat)
    (rest : Nat → Nat) (s : Nat) (hs : 0 < s) :
    share (fun o : Fin s → Fin V.length => ∃ fuel, s + 1 + V.length * (neighborsOf V.length k * (V.length * V.length)) ≤ fuel ∧
      nnDescent heapq setOrd ord (stream o rest) V radius similarity k min_size max_size .connectedComponents fuel = .ok none) ≤
      V.length * (∑ x ∈ Finset.range (neighborsOf V.length k), (V.length : ℝ) / (V.length - 1 - x)) / s := by
  classical
  have key : ∀ o : Fin s → Fin V.length,
      (neighborsOf V.length k = 0 ∨ (after (stream o rest) V.length (neighborsOf V.length k) s 0 (List.range V.length, [])).1 = []) →
      ¬ ∃ fuel, s + 1 + V.length * (neighborsOf V.length k * (V.length * V.length)) ≤ fuel ∧
        nnDescent heapq setOrd ord (stream o rest) V radius similarity k min_size max_size .connectedComponents fuel = .ok none := by
    rintro o ho ⟨fuel, hf, hnone⟩
    obtain ⟨⟨B, t⟩, hx⟩ := initial_after hq hset (V := V) similarity () (List.range V.length) s 0 (by simp) ho
    obtain ⟨result, h⟩ := nn_descent_from_initial hq setOrd hset ord hord (stream o rest) V (by omega) radius similarity k min_size max_size hx
    rw [h fuel (by omega)] at hnone
    simp at hnone
  by_cases h0 : neighborsOf V.length k = 0
  · rw [share_congr (F := fun _ => False) (fun o => by simpa using key o (Or.inl h0)), h0]
    unfold share
    simp
  · rw [← meanDraws_range (by omega)]
    refine le_trans ?_ (share_over (Nat.pos_of_ne_zero h0) hk s hs rest)
    rw [← average_indicator, ← average_indicator]
    apply Fog.LeastRank.average_le
    intro o
    by_cases ho : (after (stream o rest) V.length (neighborsOf V.length k) s 0 (List.range V.length, [])).1 = []
    · rw [if_neg (key o (Or.inr ho)), if_neg (by simpa using ho)]
    · rw [if_pos ho]
      split <;> norm_num

/-- C121: the same of `nn_descent_full`, when there is at least one neighbor to look for and `delta` is positive. -/
theorem nn_descent_full_ends {heapq : Heapq (Neighbor K Bool)} (hq : NnDescent.Lawful heapq) (setOrd : List Nat → List Nat)
    (hset : ∀ l, (setOrd l).Perm l) (ord : Nat → List Nat → List Nat) (hord : ∀ a l, (ord a l).Perm l) (V : List α) (radius : K)
    (similarity : α → α → K) (k : Option Nat) (hk : neighborsOf V.length k < V.length) (hpos : 0 < neighborsOf V.length k) (min_size : Nat)
    (max_size : Option Nat) (rho delta : Rat) (hd : 0 < delta) (rest : Nat → Nat) (s : Nat) (hs : 0 < s) :
    share (fun o : Fin s → Fin V.length => ∃ fuel, s + 2 + V.length * (neighborsOf V.length k * (V.length * V.length)) ≤ fuel ∧
      nnDescentFull heapq setOrd ord (stream o rest) V radius similarity k min_size max_size .connectedComponents rho delta fuel = .ok none) ≤
      V.length * (∑ x ∈ Finset.range (neighborsOf V.length k), (V.length : ℝ) / (V.length - 1 - x)) / s := by
  classical
  rw [← meanDraws_range (by omega)]
  refine le_trans ?_ (share_over hpos hk s hs rest)
  rw [← average_indicator, ← average_indicator]
  apply Fog.LeastRank.average_le
  intro o
  by_cases ho : (after (stream o rest) V.length (neighborsOf V.length k) s 0 (List.range V.length, [])).1 = []
  · rw [if_neg, if_neg (by simpa using ho)]
    rintro ⟨fuel, hf, hnone⟩
    obtain ⟨⟨B, t⟩, hx⟩ := initial_after hq hset (V := V) similarity true (List.range V.length) s 0 (by simp) (Or.inr ho)
    obtain ⟨result, h⟩ := nn_descent_full_from_initial hq setOrd hset ord hord (stream o rest) V (by omega) radius similarity k hpos min_size
      max_size rho delta hd hx
    rw [h fuel (by omega)] at hnone
    simp at hnone
  · rw [if_pos ho]
    split <;> norm_num

/-- C121: so for any risk there are enough draws. -/
theorem nn_descent_ends_almost_surely {heapq : Heapq (Neighbor K Unit)} (hq : NnDescent.Lawful heapq) (setOrd : List Nat → List Nat)
    (hset : ∀ l, (setOrd l).Perm l) (ord : Nat → List Nat → List Nat) (hord : ∀ a l, (ord a l).Perm l) (V : List α) (radius : K)
    (similarity : α → α → K) (k : Option Nat) (hk : neighborsOf V.length k < V.length) (min_size : Nat) (max_size : Option Nat)
    (rest : Nat → Nat) (risk : ℝ) (hrisk : 0 < risk) :
    ∃ s₀ : Nat, ∀ s, s₀ ≤ s →
      share (fun o : Fin s → Fin V.length => ∃ fuel, s + 1 + V.length * (neighborsOf V.length k * (V.length * V.length)) ≤ fuel ∧
        nnDescent heapq setOrd ord (stream o rest) V radius similarity k min_size max_size .connectedComponents fuel = .ok none) ≤ risk := by
  obtain ⟨m, hm⟩ := exists_nat_gt
    (V.length * (∑ x ∈ Finset.range (neighborsOf V.length k), (V.length : ℝ) / (V.length - 1 - x)) / risk)
  refine ⟨m + 1, fun s hs => ?_⟩
  have hpos : (0 : ℝ) < s := by exact_mod_cast (show 0 < s by omega)
  refine (nn_descent_ends hq setOrd hset ord hord V radius similarity k hk min_size max_size rest s (by omega)).trans ?_
  rw [div_le_iff₀ hpos]
  rw [div_lt_iff₀ hrisk] at hm
  have : (m : ℝ) ≤ s := by exact_mod_cast (show m ≤ s by omega)
  nlinarith

/-- Four items with two neighbors each: a thousand draws are enough but for less than fourteen drawings in a thousand. -/
example (rest : Nat → Nat) (s : Nat) (hs : s = 1000) :
    share (fun o : Fin s → Fin 4 => ∃ fuel, s + 1 + 4 * (2 * (4 * 4)) ≤ fuel ∧
      nnDescent (sortedHeapq Int Unit) (fun l => l) (fun _ l => l) (stream o rest) [1, 2, 10, 11] (-3) close (some 2) 2 none
        .connectedComponents fuel = .ok none) ≤ 14 / 1000 := by
  refine (nn_descent_ends (sortedHeapq_laws Int Unit).lawful _ (fun _ => .refl _) _ (fun _ _ => .refl _) [1, 2, 10, 11] (-3) close (some 2)
    (by decide) 2 none rest s (by omega)).trans ?_
  have h2 : neighborsOf [(1 : Int), 2, 10, 11].length (some 2) = 2 := rfl
  rw [h2, hs]
  simp only [List.length_cons, List.length_nil, Finset.sum_range_succ, Finset.sum_range_zero]
  norm_num

/-- The first item is drawn again and again: its own neighbors are never found. -/
theorem sample_stuck (N k : Nat) (hk : 0 < k) : ∀ fuel t, sample (fun _ => 0) N k 0 fuel t [] = none := by
  intro fuel
  induction fuel with
  | zero => intro t; rfl
  | succ fuel ih =>
      intro t
      rw [sample, if_pos (by simpa using hk)]
      simp only [randint, Nat.zero_mod, Nat.add_zero, if_true]
      exact ih (t + 1)

/-- C121: yet for some drawings it never ends, whatever the items: the index of the first item is drawn at each turn. -/
theorem nn_descent_may_never_end (heapq : Heapq (Neighbor K Unit)) (setOrd : List Nat → List Nat) (ord : Nat → List Nat → List Nat)
    (V : List α) (hV : V ≠ []) (radius : K) (similarity : α → α → K) (k : Option Nat) (hk : 0 < neighborsOf V.length k) (min_size : Nat)
    (max_size : Option Nat) (mode : Mode) (fuel : Nat) :
    nnDescent heapq setOrd ord (fun _ => 0) V radius similarity k min_size max_size mode fuel = .ok none := by
  have hpos := List.length_pos_iff.mpr hV
  unfold nnDescent
  rw [chooseK_ok hpos]
  simp only [bind, Except.bind]
  obtain ⟨n, hn⟩ : ∃ n, V.length = n + 1 := ⟨V.length - 1, by omega⟩
  rw [hn] at hk ⊢
  rw [List.range_succ_eq_map, initial, sample_stuck _ _ hk]
  rfl

example (fuel : Nat) : nnDescent (sortedHeapq Int Unit) (fun l => l) (fun _ l => l) (fun _ => 0) [1, 2, 10, 11] (-3) close none 2 none
    .connectedComponents fuel = .ok none :=
  nn_descent_may_never_end _ _ _ _ (by simp) _ _ _ (by decide) _ _ _ _

/-- With two items and one neighbor each, four draws in the mean: each is to draw the other one. -/
example (s : Nat) (hs : 0 < s) (rest : Nat → Nat) : average (fun o : Fin s → Fin 2 => (drawsMade s
      (initial (sortedHeapq Int Unit) (fun l => l) (stream o rest) [1, 2] close () 1 (s + 1) [0, 1] 0) : ℝ)) ≤ 4 ∧
    4 * (1 - 4 / (s : ℝ)) ≤ average (fun o : Fin s → Fin 2 => (drawsMade s
      (initial (sortedHeapq Int Unit) (fun l => l) (stream o rest) [1, 2] close () 1 (s + 1) [0, 1] 0) : ℝ)) :=
  nn_descent_draws_mean (sortedHeapq_laws Int Unit).lawful _ (fun _ => .refl _) [1, 2] close () 1 (by omega) (by simp) rest s hs
    (by simp; norm_num)

end Fog.Props
