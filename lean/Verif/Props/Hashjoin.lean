import Verif.Model.Hashjoin
import Mathlib.Data.List.ProdSigma
import Mathlib.Data.List.Basic

/-!
# C45: hashjoin
-/

namespace Fog.Props

open Hashjoin

variable {α κ : Type _} [DecidableEq κ]

/-- The pairs of rows which satisfy a condition, in order. -/
def joined (left right : List α) (P : α → α → Bool) : List (α × α) := (left ×ˢ right).filter fun p => P p.1 p.2

theorem flatMap_zipIdx {β γ : Type _} (l : List β) (f : β → Nat → List γ) (g : β → List γ) (h : ∀ b i, f b i = g b) (k : Nat) :
    (l.zipIdx k).flatMap (fun p => f p.1 p.2) = l.flatMap g := by
  induction l generalizing k with
  | nil => rfl
  | cons b l ih => rw [List.zipIdx_cons, List.flatMap_cons, List.flatMap_cons, ih, h]

theorem joined_eq (left right : List α) (P : α → α → Bool) :
    joined left right P = left.flatMap fun a => right.flatMap fun b => if P a b then [(a, b)] else [] := by
  unfold joined
  induction left with
  | nil => rfl
  | cons a left ih =>
      rw [List.product_cons, List.filter_append, ih, List.flatMap_cons]
      congr 1
      clear ih
      induction right with
      | nil => rfl
      | cons b right ihr =>
          rw [List.map_cons, List.filter_cons, List.flatMap_cons, ihr]
          by_cases h : P a b = true <;> simp [h]

/-- Pairs found by a join from the right to the left. -/
theorem joined_swap (left right : List α) (P : α → α → Bool) :
    (right.flatMap fun b => left.flatMap fun a => if P b a then [(a, b)] else []).Perm
      (joined left right fun a b => P b a) := by
  rw [joined_eq]
  induction left with
  | nil => simp
  | cons a left ih =>
      rw [List.flatMap_cons]
      refine List.Perm.trans ?_ (List.Perm.append_left _ ih)
      clear ih
      induction right with
      | nil => simp
      | cons b right ihr =>
          simp only [List.flatMap_cons]
          have h1 : ∀ (x y z w : List (α × α)), (x ++ y ++ (z ++ w)).Perm (x ++ z ++ (y ++ w)) := by
            intro x y z w
            rw [List.append_assoc, List.append_assoc]
            apply List.Perm.append_left
            rw [← List.append_assoc, ← List.append_assoc]
            exact List.Perm.append_right _ List.perm_append_comm
          refine List.Perm.trans ?_ (h1 _ _ _ _)
          apply List.Perm.append_left
          simpa using ihr

theorem loops_perm {left right : Iterable α} (hr : right.oneShot = false) (m : Nat → α → α → Bool) (P : α → α → Bool)
    (hm : ∀ j a b, m j a b = P a b) (hsym : ∀ a b, P a b = P b a) :
    (loops (if swaps left right then right else left) (if swaps left right then left else right) (swaps left right) 0 m).Perm
      (joined left.items right.items P) := by
  unfold loops
  by_cases hs : swaps left right = true
  · have hl : left.oneShot = false := by
      unfold swaps at hs
      simp only [Bool.and_eq_true, Bool.not_eq_true'] at hs
      exact hs.1.1
    simp only [hs, if_true, Iterable.again, hr, hl, Bool.false_and, Bool.false_eq_true, if_false]
    rw [flatMap_zipIdx right.items (fun a _ => (left.items.zipIdx).flatMap fun p => if m p.2 a p.1 then [(p.1, a)] else [])
      (fun a => left.items.flatMap fun b => if P a b then [(b, a)] else []) (by
        intro a _
        exact flatMap_zipIdx left.items (fun b j => if m j a b then [(b, a)] else []) _ (by intro b j; rw [hm]) 0)]
    refine (joined_swap left.items right.items P).trans ?_
    rw [show (fun a b => P b a) = P from funext fun a => funext fun b => hsym b a]
  · have hs' : swaps left right = false := by simpa using hs
    simp only [hs', Bool.false_eq_true, if_false, Iterable.again, hr, Bool.false_and]
    simp only [ne_eq, not_true_eq_false, decide_false, Bool.and_false, Bool.false_eq_true, if_false]
    rw [flatMap_zipIdx left.items (fun a _ => (right.items.zipIdx).flatMap fun p => if m p.2 a p.1 then [(a, p.1)] else [])
      (fun a => right.items.flatMap fun b => if P a b then [(a, b)] else []) (by
        intro a _
        exact flatMap_zipIdx right.items (fun b j => if m j a b then [(a, b)] else []) _ (by intro b j; rw [hm]) 0), joined_eq]

/-- **C45** partial: with `key`, and `right` which is not a one-shot iterator, the pairs of rows with the same key are given, each
once. Missing: a one-shot `right`, see below. -/
theorem hashjoin_key_partial {left right : Iterable α} (hr : right.oneShot = false) (key : α → κ) :
    (hashjoin left right (some key) none).Perm (joined left.items right.items fun a b => decide (key a = key b)) := by
  unfold hashjoin
  simp only [List.append_nil]
  exact loops_perm hr _ _ (fun _ _ _ => rfl) (fun a b => by simp [eq_comm])

/-- **C45** partial: with `keys`, when it does not give generators, and `right` which is not a one-shot iterator, the pairs of rows
with a common key are given, each once. Missing: a one-shot `right` and generators, see below. -/
theorem hashjoin_keys_partial {left right : Iterable α} (hr : right.oneShot = false) {keys : α → Keys κ}
    (hk : ∀ a, (keys a).oneShot = false) :
    (hashjoin left right none (some keys)).Perm
      (joined left.items right.items fun a b => (keys a).items.any fun k => decide (k ∈ (keys b).items)) := by
  unfold hashjoin
  simp only [List.nil_append, Option.isSome_none, Bool.false_eq_true, if_false]
  refine loops_perm hr _ _ (fun j a b => ?_) (fun a b => ?_)
  · simp [shareKey, hk a]
  · rw [Bool.eq_iff_iff, List.any_eq_true, List.any_eq_true]
    simp only [decide_eq_true_eq]
    exact exists_congr fun _ => and_comm

/-- **C45** is false for a one-shot `right`: only the first row of `left` is joined. -/
theorem hashjoin_one_shot :
    hashjoin ⟨[1, 2], false⟩ ⟨[1, 2], true⟩ (some fun n : Nat => n) none = [(1, 1)] ∧
    hashjoin ⟨[1, 2], false⟩ ⟨[1, 2], false⟩ (some fun n : Nat => n) none = [(1, 1), (2, 2)] := by decide

/-- **C45** is false when `keys` gives generators: they are empty from the second row on. -/
theorem hashjoin_generator_keys :
    hashjoin ⟨[2], false⟩ ⟨[1, 2], false⟩ none (some fun n : Nat => ⟨[n], true⟩) = [] ∧
    hashjoin ⟨[2], false⟩ ⟨[1, 2], false⟩ none (some fun n : Nat => ⟨[n], false⟩) = [(2, 2)] := by decide

/-- With both `key` and `keys`, pairs are given by both loops. -/
theorem hashjoin_both :
    hashjoin ⟨[2], false⟩ ⟨[2], false⟩ (some fun n : Nat => n) (some fun n : Nat => ⟨[n], false⟩) = [(2, 2), (2, 2)] := by decide

/-- A list, or only its first item. -/
def upToOne (one : Bool) (l : List α) : List α := if one then l.take 1 else l

theorem flatMap_upToOne {γ : Type _} (l : List α) (one : Bool) (f : α → Nat → List γ) (g : α → List γ) (h0 : ∀ b, f b 0 = g b)
    (h : ∀ b i, i ≠ 0 → f b i = if one then [] else g b) :
    l.zipIdx.flatMap (fun p => f p.1 p.2) = (upToOne one l).flatMap g := by
  cases l with
  | nil => cases one <;> rfl
  | cons b l =>
      have hrest : ∀ (l : List α) (k : Nat), 1 ≤ k → (l.zipIdx k).flatMap (fun p => f p.1 p.2) = if one then [] else l.flatMap g := by
        intro l
        induction l with
        | nil => intro k _; simp
        | cons c l ih =>
            intro k hk
            rw [List.zipIdx_cons, List.flatMap_cons, ih _ (by omega), h c k (by omega)]
            cases one <;> simp
      rw [List.zipIdx_cons, List.flatMap_cons, hrest l 1 (Nat.le_refl _), h0]
      cases one <;> simp [upToOne]

theorem loops_exact {left right : Iterable α} (g : Bool) (m : Nat → α → α → Bool) (P : α → α → Bool)
    (h0 : ∀ a b, m 0 a b = P a b) (hm : ∀ j a b, j ≠ 0 → m j a b = (!g && P a b)) (hsym : ∀ a b, P a b = P b a) :
    (loops (if swaps left right then right else left) (if swaps left right then left else right) (swaps left right) 0 m).Perm
      (if swaps left right then joined (upToOne g left.items) right.items P
        else joined (upToOne right.oneShot left.items) (upToOne g right.items) P) := by
  have hinner : ∀ (l : List α) (a : α) (f : α → α × α), l.zipIdx.flatMap (fun p => if m p.2 a p.1 then [f p.1] else []) =
      (upToOne g l).flatMap fun b => if P a b then [f b] else [] := by
    intro l a f
    refine flatMap_upToOne l g (fun b j => if m j a b then [f b] else []) _ (fun b => by simp only [h0]) (fun b i hi => ?_)
    simp only [hm i a b hi]
    cases g <;> simp
  unfold loops
  by_cases hs : swaps left right = true
  · have hl : left.oneShot = false ∧ right.oneShot = false := by
      unfold swaps at hs
      simp only [Bool.and_eq_true, Bool.not_eq_true'] at hs
      exact hs.1
    simp only [hs, if_true, Iterable.again, hl.1, hl.2, Bool.false_and, Bool.false_eq_true, if_false]
    rw [flatMap_zipIdx right.items (fun a _ => (left.items.zipIdx).flatMap fun p => if m p.2 a p.1 then [(p.1, a)] else [])
      (fun a => (upToOne g left.items).flatMap fun b => if P a b then [(b, a)] else []) (fun a _ => hinner left.items a fun b => (b, a))]
    refine (joined_swap _ right.items P).trans ?_
    rw [show (fun a b => P b a) = P from funext fun a => funext fun b => hsym b a]
  · have hs' : swaps left right = false := by simpa using hs
    simp only [hs', Bool.false_eq_true, if_false, Iterable.again, Nat.zero_add, ne_eq, not_true_eq_false, decide_false, Bool.and_false]
    rw [joined_eq]
    refine List.Perm.of_eq (flatMap_upToOne left.items right.oneShot
      (fun a i => ((if right.oneShot && decide (¬ i = 0) then [] else right.items).zipIdx).flatMap fun p => if m p.2 a p.1 then [(a, p.1)] else [])
      _ (fun a => ?_) (fun a i hi => ?_))
    · simp only [not_true_eq_false, decide_false, Bool.and_false, Bool.false_eq_true, if_false]
      exact hinner right.items a fun b => (a, b)
    · cases right.oneShot
      · simp only [Bool.false_and, Bool.false_eq_true, if_false]
        exact hinner right.items a fun b => (a, b)
      · simp [hi]

theorem loops_second {left right : Iterable α} (m : Nat → α → α → Bool) (h : left.oneShot = true ∨ right.oneShot = true) :
    loops (if swaps left right then right else left) (if swaps left right then left else right) (swaps left right) 1 m = [] := by
  have hs : swaps left right = false := by
    unfold swaps
    rcases h with h | h <;> simp [h]
  simp only [hs, Bool.false_eq_true, if_false]
  unfold loops
  rcases h with h | h
  · simp [Iterable.again, h]
  · rw [List.flatMap_eq_nil_iff]
    intro p _
    have : right.again (1 + p.2) = [] := by simp [Iterable.again, h]
    simp only [this, List.zipIdx_nil, List.flatMap_nil]

/-- **C45**, what `hashjoin` gives with `key` in all cases: a one-shot `right` is joined with the first row of `left` only. -/
theorem hashjoin_key_exact (left right : Iterable α) (key : α → κ) :
    (hashjoin left right (some key) none).Perm
      (joined (upToOne right.oneShot left.items) right.items fun a b => decide (key a = key b)) := by
  unfold hashjoin
  simp only [List.append_nil]
  refine (loops_exact false _ (fun a b => decide (key a = key b)) (fun _ _ => rfl) (fun _ _ _ _ => by simp) (fun a b => by simp [eq_comm])).trans ?_
  split
  · rename_i hs
    have hr : right.oneShot = false := by
      unfold swaps at hs
      simp only [Bool.and_eq_true, Bool.not_eq_true'] at hs
      exact hs.1.2
    simp [upToOne, hr]
  · simp [upToOne]

/-- **C45**, what `hashjoin` gives with `keys` in all cases: if `keys` gives generators, only the first row of the longer input is compared, of `right` if neither is
longer or if one has no length. -/
theorem hashjoin_keys_exact (left right : Iterable α) {keys : α → Keys κ} {g : Bool} (hg : ∀ a, (keys a).oneShot = g) :
    (hashjoin left right none (some keys)).Perm
      (if left.oneShot = false ∧ right.oneShot = false ∧ right.items.length < left.items.length then
        joined (upToOne g left.items) right.items fun a b => (keys a).items.any fun k => decide (k ∈ (keys b).items)
      else joined (upToOne right.oneShot left.items) (upToOne g right.items)
        fun a b => (keys a).items.any fun k => decide (k ∈ (keys b).items)) := by
  unfold hashjoin
  simp only [List.nil_append, Option.isSome_none, Bool.false_eq_true, if_false]
  have hiff : swaps left right = true ↔ left.oneShot = false ∧ right.oneShot = false ∧ right.items.length < left.items.length := by
    simp [swaps, and_assoc]
  refine (loops_exact g _ (fun a b => (keys a).items.any fun k => decide (k ∈ (keys b).items)) (fun a b => by simp [shareKey])
    (fun j a b hj => ?_) (fun a b => ?_)).trans ?_
  · cases g <;> simp [shareKey, hg a, hj]
  · rw [Bool.eq_iff_iff, List.any_eq_true, List.any_eq_true]
    simp only [decide_eq_true_eq]
    exact exists_congr fun _ => and_comm
  · simp only [hiff]
    exact List.Perm.refl _

/-- With both `key` and `keys`, the pairs of `keys` follow those of `key`; there are none if an input is a one-shot iterator. -/
theorem hashjoin_both_exact (left right : Iterable α) (key : α → κ) (keys : α → Keys κ) :
    hashjoin left right (some key) (some keys) = hashjoin left right (some key) none ++
      (if left.oneShot || right.oneShot then [] else hashjoin left right none (some keys)) := by
  unfold hashjoin
  simp only [Option.isSome_some, Option.isSome_none, if_true, Bool.false_eq_true, if_false, List.append_nil, List.nil_append]
  congr 1
  by_cases h : left.oneShot = true ∨ right.oneShot = true
  · have hf : (left.oneShot || right.oneShot) = true := by simpa using h
    rw [loops_second _ h, hf]
    rfl
  · have h' : left.oneShot = false ∧ right.oneShot = false := by simpa using h
    have hf : (left.oneShot || right.oneShot) = false := by simp [h']
    rw [hf]
    simp only [Bool.false_eq_true, if_false]
    unfold loops
    cases swaps left right <;> simp [Iterable.again, h']

example : hashjoin ⟨[1, 2], false⟩ ⟨[1, 2], true⟩ (some fun n : Nat => n) (some fun n : Nat => ⟨[n], false⟩) = [(1, 1)] := by decide

-- A larger `left`, hence an inverted join.
example : hashjoin ⟨[1, 2, 4], false⟩ ⟨[3, 6], false⟩ (some fun n : Nat => n % 2) none = [(1, 3), (2, 6), (4, 6)] := by decide

end Fog.Props
