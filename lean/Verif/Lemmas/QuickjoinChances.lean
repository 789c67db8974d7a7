import Verif.Lemmas.Quickjoin
import Verif.Lemmas.LeastRank
import Mathlib.Logic.Equiv.Fin.Basic
import Mathlib.Data.Finset.Prod
import Mathlib.Data.Fintype.Fin
import Mathlib.Tactic.FieldSimp
import Mathlib.Tactic.Positivity

/-!
# How long `blocks()` of quickjoin lasts when its pivots are drawn
-/

namespace Fog.Spec

theorem average_equiv {Ω Ω' : Type _} [Fintype Ω] [Fintype Ω'] (e : Ω ≃ Ω') (X : Ω' → ℝ) :
    average (fun o => X (e o)) = average X := by
  unfold average
  rw [Fintype.card_congr e, Equiv.sum_comp e X]

/-- The mean over pairs is the mean of the means. -/
theorem average_prod {Ω Ω' : Type _} [Fintype Ω] [Fintype Ω'] (X : Ω × Ω' → ℝ) :
    average X = average fun o => average fun o' => X (o, o') := by
  unfold average
  rw [Fintype.sum_prod_type, ← Finset.sum_div, Fintype.card_prod, Nat.cast_mul, div_div, mul_comm]

/-- The mean of what depends on one part of the outcome. -/
theorem average_part {ι : Type _} [Fintype ι] [DecidableEq ι] {β : ι → Type _} [∀ i, Fintype (β i)] [∀ i, Nonempty (β i)]
    (i : ι) (X : β i → ℝ) : average (fun o : ∀ i, β i => X (o i)) = average X := by
  rw [← average_equiv (Equiv.piSplitAt i β).symm, average_prod]
  congr 1
  funext x
  have : ∀ y : ∀ j : { j // j ≠ i }, β j, X (((Equiv.piSplitAt i β).symm (x, y)) i) = X x := by
    intro y
    simp [Equiv.piSplitAt]
  simp only [this]
  exact average_const _

theorem share_part {ι : Type _} [Fintype ι] [DecidableEq ι] {β : ι → Type _} [∀ i, Fintype (β i)] [∀ i, Nonempty (β i)]
    (i : ι) (E : β i → Prop) : share (fun o : ∀ i, β i => E (o i)) = share E := by
  classical
  rw [← average_indicator, ← average_indicator]
  exact average_part i fun x => if E x then (1 : ℝ) else 0

/-- Drawing `s + 1` times is drawing once, then `s` times. -/
theorem average_cons {Δ : Type _} [Fintype Δ] {s : Nat} (X : (Fin (s + 1) → Δ) → ℝ) :
    average X = average fun d : Δ => average fun o : Fin s → Δ => X (Fin.cons d o) := by
  rw [← average_equiv (Fin.consEquiv fun _ => Δ), average_prod]
  rfl

theorem markov {Ω : Type _} [Fintype Ω] (X : Ω → ℝ) (hX : ∀ o, 0 ≤ X o) (c : ℝ) (E : Ω → Prop) (h : ∀ o, E o → c ≤ X o) :
    c * share E ≤ average X := by
  classical
  rw [← average_indicator, ← average_mul]
  apply Fog.LeastRank.average_le
  intro o
  split
  · next ho => have := h o ho; linarith
  · have := hX o; linarith

end Fog.Spec

namespace Fog.Quickjoin

open Fog.Spec

variable {α K : Type _} [Field K] [LinearOrder K]

/-- Two different positions among `N`: what the loops of quickjoin.py l. 259-263 and 292-296 draw. -/
abbrev Two (N : Nat) := { p : Fin N × Fin N // p.1 ≠ p.2 }

instance (N : Nat) : Nonempty (Two (N + 2)) := ⟨⟨(0, 1), by simp⟩⟩

/-- The positions of the pair. -/
def Two.nat {N : Nat} (p : Two N) : Nat × Nat := (p.1.1.val, p.1.2.val)

/-- The number of items of a block. -/
def size : Block α → Nat
  | (S, none) => S.length
  | (S1, some S2) => S1.length + S2.length

/-- What is on the stack after one turn of the loop (quickjoin.py l. 245-309). -/
def next (distance : α → α → K) (radius beta : K) (block_size : Nat) (p : Nat × Nat) : List (Block α) → List (Block α)
  | [] => []
  | (S, none) :: stack =>
      if S.length ≤ block_size then stack
      else
        match S[p.1]?, S[p.2]? with
        | some x, some y =>
            let P := partition distance x radius (beta * distance x y) S
            (P.Lw, some P.Gw) :: (P.L, none) :: (P.G, none) :: stack
        | _, _ => stack
  | (S1, some S2) :: stack =>
      if S1.length + S2.length ≤ block_size then stack
      else
        match (if p.1 < S1.length then S1[p.1]? else S2[p.1 - S1.length]?),
          (if p.2 < S1.length then S1[p.2]? else S2[p.2 - S1.length]?) with
        | some x, some y =>
            let P1 := partition distance x radius (beta * distance x y) S1
            let P2 := partition distance x radius (beta * distance x y) S2
            (P1.Gw, some P2.Lw) :: (P1.Lw, some P2.Gw) :: (P1.G, some P2.G) :: (P1.L, some P2.L) :: stack
        | _, _ => stack

/-- Positions of two items of a list followed by another one. -/
theorem get_two {S1 S2 : List α} {p : Nat} (h : p < S1.length + S2.length) :
    ∃ x, (if p < S1.length then S1[p]? else S2[p - S1.length]?) = some x := by
  by_cases hp : p < S1.length
  · rw [if_pos hp, List.getElem?_eq_getElem hp]; exact ⟨_, rfl⟩
  · have h' : p - S1.length < S2.length := by omega
    rw [if_neg hp, List.getElem?_eq_getElem h']; exact ⟨_, rfl⟩

/-- `blocks()` goes on from the next stack. -/
theorem blocks_next (distance : α → α → K) (radius beta : K) {block_size : Nat} (hbs : 2 ≤ block_size) (pivots : Pivots α)
    (fuel step : Nat) (block : Block α) (stack : List (Block α))
    (h1 : block_size < size block → (pivots step block).1 < size block)
    (h2 : block_size < size block → (pivots step block).2 < size block) :
    blocks distance radius beta block_size pivots (fuel + 1) step (block :: stack) = none ↔
      blocks distance radius beta block_size pivots fuel (step + 1)
        (next distance radius beta block_size (pivots step block) (block :: stack)) = none := by
  match block with
  | (S, none) =>
      simp only [blocks, next, size] at *
      by_cases hN : S.length ≤ block_size
      · rw [if_pos hN, if_pos hN]; simp
      · rw [if_neg hN, if_neg hN, if_neg (by omega)]
        have h1 := h1 (by omega)
        have h2 := h2 (by omega)
        rw [List.getElem?_eq_getElem h1, List.getElem?_eq_getElem h2]
  | (S1, some S2) =>
      simp only [blocks, next, size] at *
      by_cases hN : S1.length + S2.length ≤ block_size
      · rw [if_pos hN, if_pos hN]; split <;> simp
      · rw [if_neg hN, if_neg hN, if_neg (by omega)]
        obtain ⟨x, hx⟩ := get_two (h1 (by omega))
        obtain ⟨y, hy⟩ := get_two (h2 (by omega))
        rw [hx, hy]

/-- `blocks()` only asks for the pivots of the steps to come. -/
theorem blocks_shift (distance : α → α → K) (radius beta : K) (block_size : Nat) (pivots : Pivots α) (fuel : Nat) :
    ∀ (step : Nat) (stack : List (Block α)),
      blocks distance radius beta block_size pivots fuel (step + 1) stack =
        blocks distance radius beta block_size (fun t => pivots (t + 1)) fuel step stack := by
  induction fuel with
  | zero => intro step stack; rfl
  | succ fuel ih =>
      intro step stack
      match stack with
      | [] => rfl
      | (S, none) :: stack => simp only [blocks, ih]
      | (S1, some S2) :: stack => simp only [blocks, ih]

/-- The blocks are of at most `n` different items. -/
def Fine (n : Nat) (stack : List (Block α)) : Prop := ∀ block ∈ stack, NoRepeat block ∧ size block ≤ n

theorem next_fine (distance : α → α → K) (radius beta : K) (block_size : Nat) (p : Nat × Nat) {n : Nat}
    {stack : List (Block α)} (h : Fine n stack) : Fine n (next distance radius beta block_size p stack) := by
  match stack with
  | [] => exact h
  | (S, none) :: stack =>
      unfold Fine at h
      rw [List.forall_mem_cons] at h
      obtain ⟨⟨hS, hn⟩, h⟩ := h
      simp only [next]
      split
      · exact h
      · split
        · next x y _ _ =>
            have hsz := partition_sizes distance x radius (beta * distance x y) S
            have hnr := noRepeat_parts (distance := distance) (p := x) (radius := radius) (rho := beta * distance x y) hS
            simp only [size] at *
            unfold Fine
            simp only [List.forall_mem_cons]
            exact ⟨⟨⟨hnr.2.2.1, hnr.2.2.2⟩, by simp only [size]; omega⟩, ⟨hnr.1, by simp only [size]; omega⟩,
              ⟨hnr.2.1, by simp only [size]; omega⟩, h⟩
        · exact h
  | (S1, some S2) :: stack =>
      unfold Fine at h
      rw [List.forall_mem_cons] at h
      obtain ⟨⟨hS, hn⟩, h⟩ := h
      simp only [next]
      split
      · exact h
      · split
        · next x y _ _ =>
            have hsz1 := partition_sizes distance x radius (beta * distance x y) S1
            have hsz2 := partition_sizes distance x radius (beta * distance x y) S2
            have hnr1 := noRepeat_parts (distance := distance) (p := x) (radius := radius) (rho := beta * distance x y) hS.1
            have hnr2 := noRepeat_parts (distance := distance) (p := x) (radius := radius) (rho := beta * distance x y) hS.2
            simp only [size] at *
            unfold Fine
            simp only [List.forall_mem_cons]
            exact ⟨⟨⟨hnr1.2.2.2, hnr2.2.2.1⟩, by simp only [size]; omega⟩, ⟨⟨hnr1.2.2.1, hnr2.2.2.2⟩, by simp only [size]; omega⟩,
              ⟨⟨hnr1.2.1, hnr2.2.1⟩, by simp only [size]; omega⟩, ⟨⟨hnr1.1, hnr2.1⟩, by simp only [size]; omega⟩, h⟩
        · exact h

/-- What a block may cost. -/
noncomputable def cost : Block α → ℝ
  | (S, none) => 2 * 11 ^ S.length
  | (S1, some S2) => 11 ^ (S1.length + S2.length)

/-- What a stack may cost. -/
noncomputable def costs (stack : List (Block α)) : ℝ := (stack.map cost).sum

theorem one_le_eleven (n : Nat) : (1 : ℝ) ≤ 11 ^ n := one_le_pow₀ (by norm_num)

theorem eleven_mono {a b : Nat} (h : a ≤ b) : (11 : ℝ) ^ a ≤ 11 ^ b := pow_le_pow_right₀ (by norm_num) h

theorem one_le_cost (block : Block α) : 1 ≤ cost block := by
  match block with
  | (S, none) => simp only [cost]; have := one_le_eleven S.length; linarith
  | (S1, some S2) => exact one_le_eleven _

theorem costs_nonneg (stack : List (Block α)) : 0 ≤ costs stack := by
  induction stack with
  | nil => simp [costs]
  | cons b l ih =>
      simp only [costs, List.map_cons, List.sum_cons] at *
      have := one_le_cost b
      linarith

/-- The pair is made of one position before `k` and one after. -/
def Across (k : Nat) (p : Nat × Nat) : Prop := (p.1 < k ∧ k ≤ p.2) ∨ (p.2 < k ∧ k ≤ p.1)

instance (k : Nat) (p : Nat × Nat) : Decidable (Across k p) := by unfold Across; infer_instance

theorem card_two (N : Nat) : Fintype.card (Two N) = N * N - N := by
  rw [Fintype.card_subtype]
  have : (Finset.univ.filter fun p : Fin N × Fin N => p.1 ≠ p.2) = (Finset.univ : Finset (Fin N)).offDiag := by
    ext p; simp
  rw [this, Finset.offDiag_card]
  simp

/-- At most two pairs out of three are across. -/
theorem share_across {N k : Nat} (hk : k ≤ N) (hN : 3 ≤ N) : share (fun p : Two N => Across k p.nat) ≤ 2 / 3 := by
  classical
  have hle : (Finset.univ.filter fun p : Two N => Across k p.nat).card ≤ 2 * (k * (N - k)) := by
    have hlow : (Finset.univ.filter fun i : Fin N => i.val < k).card = k := by
      rw [Fin.card_filter_val_lt]; omega
    have hhigh : (Finset.univ.filter fun i : Fin N => k ≤ i.val).card = N - k := by
      have h := Finset.card_filter_add_card_filter_not (s := (Finset.univ : Finset (Fin N))) (fun i : Fin N => i.val < k)
      simp only [not_lt, Finset.card_univ, Fintype.card_fin] at h
      omega
    have hinj : (Finset.univ.filter fun p : Two N => Across k p.nat).card =
        ((Finset.univ.filter fun p : Two N => Across k p.nat).map (Function.Embedding.subtype _)).card := by
      rw [Finset.card_map]
    rw [hinj]
    refine (Finset.card_le_card (t := (Finset.univ.filter fun i : Fin N => i.val < k) ×ˢ
      (Finset.univ.filter fun i : Fin N => k ≤ i.val) ∪ (Finset.univ.filter fun i : Fin N => k ≤ i.val) ×ˢ
      (Finset.univ.filter fun i : Fin N => i.val < k)) ?_).trans ?_
    · intro q hq
      simp only [Finset.mem_map, Finset.mem_filter, Finset.mem_univ, true_and, Function.Embedding.subtype_apply] at hq
      obtain ⟨p, hp, rfl⟩ := hq
      simp only [Across, Two.nat] at hp
      simp only [Finset.mem_union, Finset.mem_product, Finset.mem_filter, Finset.mem_univ, true_and]
      rcases hp with ⟨h1, h2⟩ | ⟨h1, h2⟩
      · exact Or.inl ⟨h1, h2⟩
      · exact Or.inr ⟨h2, h1⟩
    · refine (Finset.card_union_le _ _).trans ?_
      rw [Finset.card_product, Finset.card_product, hlow, hhigh]
      rw [Nat.mul_comm (N - k) k]; omega
  have hcard : Fintype.card (Two N) = N * N - N := card_two N
  have hmul : 3 * (k * (N - k)) ≤ N * N - N := by
    obtain ⟨j, rfl⟩ := Nat.exists_eq_add_of_le hk
    have : k + j - k = j := by omega
    rw [this]
    apply Nat.le_sub_of_add_le
    rcases Nat.lt_trichotomy k j with h | h | h
    · obtain ⟨d, rfl⟩ := Nat.exists_eq_add_of_lt h
      have hd : 0 ≤ d := by omega
      rcases Nat.eq_zero_or_pos k with h0 | h0
      · subst h0; nlinarith
      · nlinarith [Nat.mul_le_mul h0 h0, Nat.zero_le (d * d), Nat.zero_le (k * d)]
    · subst h
      have : 2 ≤ k := by omega
      nlinarith
    · obtain ⟨d, rfl⟩ := Nat.exists_eq_add_of_lt h
      rcases Nat.eq_zero_or_pos j with h0 | h0
      · subst h0; nlinarith
      · nlinarith [Nat.mul_le_mul h0 h0, Nat.zero_le (d * d), Nat.zero_le (j * d)]
  have hpos : 0 < Fintype.card (Two N) := by
    obtain ⟨M, rfl⟩ := Nat.exists_eq_add_of_le' (show 2 ≤ N by omega)
    exact Fintype.card_pos
  have hfin : 3 * (Finset.univ.filter fun p : Two N => Across k p.nat).card ≤ 2 * Fintype.card (Two N) := by
    rw [hcard]; omega
  rw [share_of_card (s := Finset.univ.filter fun p : Two N => Across k p.nat) (by simp)]
  rw [div_le_div_iff₀ (by exact_mod_cast hpos) (by norm_num)]
  have : (3 : ℝ) * ((Finset.univ.filter fun p : Two N => Across k p.nat).card : ℝ) ≤ 2 * (Fintype.card (Two N) : ℝ) := by
    exact_mod_cast hfin
  linarith

/-- A turn on one list costs less. -/
theorem next_self [IsStrictOrderedRing K] {distance : α → α → K} (hd : IsMetric distance) {radius beta : K} (hb : 0 < beta)
    (hb' : beta ≤ 1) {block_size : Nat} {S : List α} (hS : S.Nodup) (stack : List (Block α))
    {p : Nat × Nat} (h1 : p.1 < S.length) (h2 : p.2 < S.length) (hne : p.1 ≠ p.2) :
    costs (next distance radius beta block_size p ((S, none) :: stack)) ≤ costs ((S, none) :: stack) - 1 := by
  simp only [next]
  split
  · simp only [costs, List.map_cons, List.sum_cons]
    have := one_le_cost ((S, none) : Block α)
    linarith
  · next hN =>
      rw [List.getElem?_eq_getElem h1, List.getElem?_eq_getElem h2]
      simp only
      have hxy : S[p.1] ≠ S[p.2] := fun h => hne ((List.getElem_inj hS).mp h)
      have hm := partition_smaller hd (radius := radius) hb hb' hxy (List.getElem_mem h1) (List.getElem_mem h2)
      have hsz := partition_sizes distance S[p.1] radius (beta * distance S[p.1] S[p.2]) S
      generalize partition distance S[p.1] radius (beta * distance S[p.1] S[p.2]) S = P at *
      simp only at hm hsz
      simp only [costs, List.map_cons, List.sum_cons, cost]
      have e1 := eleven_mono (show P.Lw.length + P.Gw.length ≤ S.length by omega)
      have e2 := eleven_mono (show P.L.length ≤ S.length - 1 by omega)
      have e3 := eleven_mono (show P.G.length ≤ S.length - 1 by omega)
      have e4 := one_le_eleven (S.length - 1)
      have e5 : (11 : ℝ) ^ S.length = 11 * 11 ^ (S.length - 1) := by
        rw [← pow_succ']; congr 1; omega
      linarith

/-- A turn on two lists: what is left, for pivots of the same list or not. -/
theorem next_pair [IsStrictOrderedRing K] {distance : α → α → K} (hd : IsMetric distance) {radius beta : K} (hb : 0 < beta)
    (hb' : beta ≤ 1) {block_size : Nat} {S1 S2 : List α} (hS1 : S1.Nodup) (hS2 : S2.Nodup)
    (stack : List (Block α)) (hN : block_size < S1.length + S2.length) {p : Nat × Nat} (h1 : p.1 < S1.length + S2.length)
    (h2 : p.2 < S1.length + S2.length) (hne : p.1 ≠ p.2) :
    costs (next distance radius beta block_size p ((S1, some S2) :: stack)) ≤
      costs stack + 4 * 11 ^ (S1.length + S2.length - 1) +
        10 * 11 ^ (S1.length + S2.length - 1) * (if Across S1.length p then 1 else 0) := by
  simp only [next]
  rw [if_neg (by omega)]
  obtain ⟨x, hx⟩ := get_two h1
  obtain ⟨y, hy⟩ := get_two h2
  rw [hx, hy]
  simp only
  have hsz1 := partition_sizes distance x radius (beta * distance x y) S1
  have hsz2 := partition_sizes distance x radius (beta * distance x y) S2
  have hm : ¬ Across S1.length p → ((partition distance x radius (beta * distance x y) S1).L.length < S1.length ∧
      (partition distance x radius (beta * distance x y) S1).G.length < S1.length) ∨
      ((partition distance x radius (beta * distance x y) S2).L.length < S2.length ∧
      (partition distance x radius (beta * distance x y) S2).G.length < S2.length) := by
    intro hna
    unfold Across at hna
    by_cases hp : p.1 < S1.length
    · have hp' : p.2 < S1.length := by omega
      rw [if_pos hp, List.getElem?_eq_getElem hp] at hx
      rw [if_pos hp', List.getElem?_eq_getElem hp'] at hy
      cases hx; cases hy
      exact Or.inl (partition_smaller hd hb hb' (fun h => hne ((List.getElem_inj hS1).mp h)) (List.getElem_mem hp)
        (List.getElem_mem hp'))
    · have hp' : ¬ p.2 < S1.length := by omega
      have hq : p.1 - S1.length < S2.length := by omega
      have hq' : p.2 - S1.length < S2.length := by omega
      rw [if_neg hp, List.getElem?_eq_getElem hq] at hx
      rw [if_neg hp', List.getElem?_eq_getElem hq'] at hy
      cases hx; cases hy
      refine Or.inr (partition_smaller hd hb hb' (fun h => ?_) (List.getElem_mem hq) (List.getElem_mem hq'))
      have := (List.getElem_inj hS2).mp h
      omega
  generalize partition distance x radius (beta * distance x y) S1 = P1 at *
  generalize partition distance x radius (beta * distance x y) S2 = P2 at *
  simp only at hsz1 hsz2 hm
  simp only [costs, List.map_cons, List.sum_cons, cost]
  have e0 := one_le_eleven (S1.length + S2.length - 1)
  have e5 : (11 : ℝ) ^ (S1.length + S2.length) = 11 * 11 ^ (S1.length + S2.length - 1) := by
    rw [← pow_succ']; congr 1; omega
  have small : ∀ a, a < S1.length + S2.length → (11 : ℝ) ^ a ≤ 11 ^ (S1.length + S2.length - 1) :=
    fun a ha => eleven_mono (by omega)
  have big : ∀ a, a ≤ S1.length + S2.length → (11 : ℝ) ^ a ≤ 11 * 11 ^ (S1.length + S2.length - 1) :=
    fun a ha => by rw [← e5]; exact eleven_mono ha
  by_cases ha : Across S1.length p
  · rw [if_pos ha]
    have hboth : 0 < S1.length ∧ 0 < S2.length := by unfold Across at ha; omega
    have b1 := big (P1.Gw.length + P2.Lw.length) (by omega)
    have b2 := big (P1.Lw.length + P2.Gw.length) (by omega)
    have b3 := big (P1.G.length + P2.G.length) (by omega)
    have b4 := big (P1.L.length + P2.L.length) (by omega)
    have hone : (P1.Lw.length + P2.Gw.length < S1.length + S2.length ∧ P1.G.length + P2.G.length < S1.length + S2.length ∧
          P1.L.length + P2.L.length < S1.length + S2.length) ∨
        (P1.Gw.length + P2.Lw.length < S1.length + S2.length ∧ P1.G.length + P2.G.length < S1.length + S2.length ∧
          P1.L.length + P2.L.length < S1.length + S2.length) ∨
        (P1.Gw.length + P2.Lw.length < S1.length + S2.length ∧ P1.Lw.length + P2.Gw.length < S1.length + S2.length ∧
          P1.L.length + P2.L.length < S1.length + S2.length) ∨
        (P1.Gw.length + P2.Lw.length < S1.length + S2.length ∧ P1.Lw.length + P2.Gw.length < S1.length + S2.length ∧
          P1.G.length + P2.G.length < S1.length + S2.length) := by omega
    rcases hone with ⟨a1, a2, a3⟩ | ⟨a1, a2, a3⟩ | ⟨a1, a2, a3⟩ | ⟨a1, a2, a3⟩ <;>
      (have c1 := small _ a1; have c2 := small _ a2; have c3 := small _ a3; linarith)
  · rw [if_neg ha]
    have hm := hm ha
    have c1 := small (P1.Gw.length + P2.Lw.length) (by omega)
    have c2 := small (P1.Lw.length + P2.Gw.length) (by omega)
    have c3 := small (P1.G.length + P2.G.length) (by omega)
    have c4 := small (P1.L.length + P2.L.length) (by omega)
    linarith

/-- In the mean, a turn costs one less. -/
theorem average_next [IsStrictOrderedRing K] {distance : α → α → K} (hd : IsMetric distance) {radius beta : K}
    (hb : 0 < beta) (hb' : beta ≤ 1) {block_size : Nat} (hbs : 2 ≤ block_size) {block : Block α} (h : NoRepeat block)
    (stack : List (Block α)) {N : Nat} (hN : N + 2 = size block) :
    average (fun p : Two (N + 2) => costs (next distance radius beta block_size p.nat (block :: stack))) ≤
      costs (block :: stack) - 1 := by
  rw [← average_const (Ω := Two (N + 2)) (costs (block :: stack) - 1)]
  match block with
  | (S, none) =>
      simp only [size] at hN
      apply Fog.LeastRank.average_le
      intro p
      exact next_self hd hb hb' h stack (by have := p.1.1.isLt; simp only [Two.nat]; omega)
        (by have := p.1.2.isLt; simp only [Two.nat]; omega) (by have := p.2; simp only [Two.nat]; omega)
  | (S1, some S2) =>
      simp only [size] at hN
      by_cases hle : S1.length + S2.length ≤ block_size
      · apply Fog.LeastRank.average_le
        intro p
        simp only [next, if_pos hle, costs, List.map_cons, List.sum_cons]
        have := one_le_cost ((S1, some S2) : Block α)
        linarith
      · rw [average_const]
        have hx := one_le_eleven (S1.length + S2.length - 3)
        have hxx : (11 : ℝ) ^ (S1.length + S2.length - 1) = 121 * 11 ^ (S1.length + S2.length - 3) := by
          rw [show S1.length + S2.length - 1 = S1.length + S2.length - 3 + 2 by omega, pow_add]; ring
        have e5 : (11 : ℝ) ^ (S1.length + S2.length) = 11 * 11 ^ (S1.length + S2.length - 1) := by
          rw [← pow_succ']; congr 1; omega
        have hs := share_across (N := N + 2) (k := S1.length) (by omega) (by omega)
        calc average (fun p : Two (N + 2) => costs (next distance radius beta block_size p.nat ((S1, some S2) :: stack)))
            ≤ average (fun p : Two (N + 2) => costs stack + 4 * 11 ^ (S1.length + S2.length - 1) +
              10 * 11 ^ (S1.length + S2.length - 1) * (if Across S1.length p.nat then 1 else 0)) := by
              apply Fog.LeastRank.average_le
              intro p
              exact next_pair hd hb hb' h.1 h.2 stack (by omega) (by have := p.1.1.isLt; simp only [Two.nat]; omega)
                (by have := p.1.2.isLt; simp only [Two.nat]; omega) (by have := p.2; simp only [Two.nat]; omega)
          _ = costs stack + 4 * 11 ^ (S1.length + S2.length - 1) +
              10 * 11 ^ (S1.length + S2.length - 1) * share (fun p : Two (N + 2) => Across S1.length p.nat) := by
              rw [average_add, average_const, average_mul, ← average_indicator]
              congr 3
              funext p
              congr
          _ ≤ costs ((S1, some S2) :: stack) - 1 := by
              simp only [costs, List.map_cons, List.sum_cons, cost]
              rw [e5, hxx]
              nlinarith

/-- A drawing of the pivots of one turn (quickjoin.py l. 259-263 and 292-296), for every number of items up to `n + 1`. Simplified: the second
position is drawn at once among those which differ from the first one. -/
abbrev Draw (n : Nat) := ∀ i : Fin n, Two (i.val + 2)

/-- The pivots of one turn. -/
def Draw.at {n : Nat} (d : Draw n) (block : Block α) : Nat × Nat :=
  if h : 2 ≤ size block ∧ size block - 2 < n then (d ⟨size block - 2, h.2⟩).nat else (0, 1)

/-- The pivots of `s` turns. -/
def drawn {n s : Nat} (o : Fin s → Draw n) : Pivots α := fun t block => if h : t < s then (o ⟨t, h⟩).at block else (0, 1)

theorem drawn_cons_zero {n s : Nat} (d : Draw n) (o : Fin s → Draw n) (block : Block α) :
    drawn (Fin.cons d o) 0 block = d.at block := by
  simp only [drawn, Nat.zero_lt_succ, dif_pos]
  rfl

theorem drawn_cons_succ {n s : Nat} (d : Draw n) (o : Fin s → Draw n) :
    (fun t => drawn (α := α) (Fin.cons d o) (t + 1)) = drawn o := by
  funext t block
  simp only [drawn]
  by_cases h : t < s
  · rw [dif_pos (by omega), dif_pos h]; rfl
  · rw [dif_neg (by omega), dif_neg h]

theorem at_lt {n : Nat} (d : Draw n) {block : Block α} (h : 2 ≤ size block) (hn : size block ≤ n) :
    (d.at block).1 < size block ∧ (d.at block).2 < size block ∧ (d.at block).1 ≠ (d.at block).2 := by
  unfold Draw.at
  have hh : 2 ≤ size block ∧ size block - 2 < n := by omega
  rw [dif_pos hh]
  have h1 := (d ⟨size block - 2, hh.2⟩).1.1.isLt
  have h2 := (d ⟨size block - 2, hh.2⟩).1.2.isLt
  have h3 := (d ⟨size block - 2, hh.2⟩).2
  simp only [Two.nat] at *
  refine ⟨by omega, by omega, ?_⟩
  intro h; exact h3 (Fin.ext h)

theorem average_at [IsStrictOrderedRing K] {distance : α → α → K} (hd : IsMetric distance) {radius beta : K}
    (hb : 0 < beta) (hb' : beta ≤ 1) {block_size : Nat} (hbs : 2 ≤ block_size) {n : Nat} {block : Block α}
    {stack : List (Block α)} (h : Fine n (block :: stack)) :
    average (fun d : Draw n => costs (next distance radius beta block_size (d.at block) (block :: stack))) ≤
      costs (block :: stack) - 1 := by
  have hb0 := (List.forall_mem_cons.mp h).1
  by_cases h2 : 2 ≤ size block
  · have hh : 2 ≤ size block ∧ size block - 2 < n := by omega
    have : ∀ d : Draw n, d.at block = (d ⟨size block - 2, hh.2⟩).nat := fun d => dif_pos hh
    simp only [this]
    rw [average_part (β := fun i : Fin n => Two (i.val + 2)) ⟨size block - 2, hh.2⟩
      (fun p => costs (next distance radius beta block_size p.nat (block :: stack)))]
    exact average_next hd hb hb' hbs hb0.1 stack (by simp only; omega)
  · rw [← average_const (Ω := Draw n) (costs (block :: stack) - 1)]
    apply Fog.LeastRank.average_le
    intro d
    have hnext : next distance radius beta block_size (d.at block) (block :: stack) = stack := by
      match block with
      | (S, none) => simp only [size] at h2; simp only [next]; rw [if_pos (by omega)]
      | (S1, some S2) => simp only [size] at h2; simp only [next]; rw [if_pos (by omega)]
    rw [hnext]
    simp only [costs, List.map_cons, List.sum_cons]
    have := one_le_cost block
    linarith

/-- How many of the first `s` turns `blocks()` takes. -/
def turns (distance : α → α → K) (radius beta : K) (block_size : Nat) (pivots : Pivots α) (stack : List (Block α))
    (s : Nat) : Nat :=
  (List.range s).countP fun j => (blocks distance radius beta block_size pivots (j + 1) 0 stack).isNone

theorem turns_nil (distance : α → α → K) (radius beta : K) (block_size : Nat) (pivots : Pivots α) (s : Nat) :
    turns distance radius beta block_size pivots [] s = 0 := by
  simp [turns, blocks]

theorem turns_cons (distance : α → α → K) (radius beta : K) {block_size : Nat} (hbs : 2 ≤ block_size) {n s : Nat}
    (d : Draw n) (o : Fin s → Draw n) {block : Block α} {stack : List (Block α)} (h : Fine n (block :: stack)) :
    turns distance radius beta block_size (drawn (Fin.cons d o)) (block :: stack) (s + 1) =
      1 + turns distance radius beta block_size (drawn o) (next distance radius beta block_size (d.at block) (block :: stack))
        s := by
  have hstep : ∀ fuel, blocks distance radius beta block_size (drawn (Fin.cons d o)) (fuel + 1) 0 (block :: stack) = none ↔
      blocks distance radius beta block_size (drawn o) fuel 0
        (next distance radius beta block_size (d.at block) (block :: stack)) = none := by
    intro fuel
    have hb0 := (List.forall_mem_cons.mp h).1
    rw [blocks_next distance radius beta hbs _ fuel 0 block stack
      (by intro hN; rw [drawn_cons_zero]; exact (at_lt d (by omega) hb0.2).1)
      (by intro hN; rw [drawn_cons_zero]; exact (at_lt d (by omega) hb0.2).2.1),
      blocks_shift, drawn_cons_zero, drawn_cons_succ]
  unfold turns
  rw [List.range_succ_eq_map, List.countP_cons, List.countP_map, Nat.add_comm]
  congr 1
  · rw [if_pos]
    rw [Option.isNone_iff_eq_none, hstep]
    rfl
  · apply List.countP_congr
    intro j _
    simp only [Function.comp, Option.isNone_iff_eq_none, Nat.succ_eq_add_one]
    exact hstep (j + 1)

/-- In the mean, `blocks()` takes no more turns than the cost of its stack. -/
theorem average_turns [IsStrictOrderedRing K] {distance : α → α → K} (hd : IsMetric distance) {radius beta : K}
    (hb : 0 < beta) (hb' : beta ≤ 1) {block_size : Nat} (hbs : 2 ≤ block_size) {n : Nat} (s : Nat) :
    ∀ stack : List (Block α), Fine n stack →
      average (fun o : Fin s → Draw n => (turns distance radius beta block_size (drawn o) stack s : ℝ)) ≤ costs stack := by
  induction s with
  | zero =>
      intro stack _
      simp only [turns, List.range_zero, List.countP_nil, Nat.cast_zero]
      rw [average_const]
      exact costs_nonneg stack
  | succ s ih =>
      intro stack hstack
      match stack with
      | [] =>
          simp only [turns_nil, Nat.cast_zero]
          rw [average_const]
          exact costs_nonneg _
      | block :: stack =>
          rw [average_cons]
          simp only [turns_cons distance radius beta hbs _ _ hstack, Nat.cast_add, Nat.cast_one]
          calc average (fun d : Draw n => average fun o : Fin s → Draw n => 1 +
                (turns distance radius beta block_size (drawn o)
                  (next distance radius beta block_size (d.at block) (block :: stack)) s : ℝ))
              ≤ average (fun d : Draw n => 1 + costs (next distance radius beta block_size (d.at block) (block :: stack))) := by
                apply Fog.LeastRank.average_le
                intro d
                rw [average_add, average_const]
                have := ih _ (next_fine distance radius beta block_size (d.at block) hstack)
                linarith
            _ ≤ costs (block :: stack) := by
                rw [average_add, average_const]
                have := average_at hd (radius := radius) hb hb' hbs hstack
                linarith

/-- With more fuel, `blocks()` is still over. -/
theorem blocks_more (distance : α → α → K) (radius beta : K) (block_size : Nat) (pivots : Pivots α) (fuel : Nat) :
    ∀ (step : Nat) (stack : List (Block α)), blocks distance radius beta block_size pivots (fuel + 1) step stack = none →
      blocks distance radius beta block_size pivots fuel step stack = none := by
  induction fuel with
  | zero => intro step stack _; rfl
  | succ fuel ih =>
      intro step stack h
      match stack with
      | [] => simp [blocks] at h
      | (S, none) :: stack =>
          rw [blocks] at h ⊢
          simp only at h ⊢
          split
          · next hN => rw [if_pos hN] at h; simp only [Option.map_eq_none_iff] at h ⊢; exact ih _ _ h
          · next hN =>
              rw [if_neg hN] at h
              split
              · rfl
              · next hN2 =>
                  rw [if_neg hN2] at h
                  split
                  · next x y hx hy => rw [hx, hy] at h; exact ih _ _ h
                  · rfl
      | (S1, some S2) :: stack =>
          rw [blocks] at h ⊢
          simp only at h ⊢
          split
          · next hN =>
              rw [if_pos hN] at h
              split
              · next h0 => rw [if_pos h0] at h; exact ih _ _ h
              · next h0 => rw [if_neg h0] at h; simp only [Option.map_eq_none_iff] at h ⊢; exact ih _ _ h
          · next hN =>
              rw [if_neg hN] at h
              split
              · rfl
              · next hN2 =>
                  rw [if_neg hN2] at h
                  split
                  · next x y hx hy => rw [hx, hy] at h; exact ih _ _ h
                  · rfl

theorem blocks_less (distance : α → α → K) (radius beta : K) (block_size : Nat) (pivots : Pivots α) {a b : Nat} (hab : a ≤ b)
    (step : Nat) (stack : List (Block α)) (h : blocks distance radius beta block_size pivots b step stack = none) :
    blocks distance radius beta block_size pivots a step stack = none := by
  induction b with
  | zero => obtain rfl : a = 0 := by omega
            exact h
  | succ b ih =>
      rcases Nat.lt_or_ge b a with h' | h'
      · obtain rfl : a = b + 1 := by omega
        exact h
      · exact ih h' (blocks_more _ _ _ _ _ _ _ _ h)

/-- `blocks()` takes all of the first turns when it is not over after them. -/
theorem turns_all (distance : α → α → K) (radius beta : K) (block_size : Nat) (pivots : Pivots α) (stack : List (Block α))
    (s : Nat) (h : blocks distance radius beta block_size pivots (s + 1) 0 stack = none) :
    turns distance radius beta block_size pivots stack s = s := by
  have : ∀ j ∈ List.range s, (blocks distance radius beta block_size pivots (j + 1) 0 stack).isNone = true := by
    intro j hj
    rw [List.mem_range] at hj
    rw [Option.isNone_iff_eq_none]
    exact blocks_less _ _ _ _ _ (by omega) _ _ h
  unfold turns
  rw [List.countP_eq_length.mpr this, List.length_range]

end Fog.Quickjoin
