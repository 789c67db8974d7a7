import Verif.Model.HashjoinCalls
import Verif.Props.Hashjoin

/-!
# How many times hashjoin computes keys (C152)
-/

namespace Fog.Props

open Fog.Hashjoin

variable {α κ : Type _} [DecidableEq κ]

theorem loopsSteps_pairs (A B : Iterable α) (invert : Bool) (before : Nat) (m : Nat → α → α → Bool) :
    (loopsSteps A B invert before m).filterMap Step.pair? = loops A B invert before m := by
  unfold loopsSteps loops
  rw [List.filterMap_flatMap]
  refine List.flatMap_congr fun ai _ => ?_
  obtain ⟨a, i⟩ := ai
  dsimp only
  rw [List.filterMap_cons, List.filterMap_flatMap]
  simp only [Step.pair?]
  refine List.flatMap_congr fun bj _ => ?_
  obtain ⟨b, j⟩ := bj
  dsimp only
  rw [List.filterMap_cons]
  simp only [Step.pair?]
  cases m j a b <;> rfl

/-- C152. The pairs which are yielded by the steps are those of the other model. -/
theorem hashjoin_steps_same (left right : Iterable α) (key : Option (α → κ)) (keys : Option (α → Keys κ)) :
    (hashjoinSteps left right key keys).filterMap Step.pair? = hashjoin left right key keys := by
  unfold hashjoinSteps hashjoin
  dsimp only
  rw [List.filterMap_append]
  congr 1
  · cases key with
    | none => rfl
    | some key => exact loopsSteps_pairs ..
  · cases keys with
    | none => rfl
    | some keys => exact loopsSteps_pairs ..

theorem loopsSteps_calls (A B : List α) (invert : Bool) (before : Nat) (m : Nat → α → α → Bool) :
    (loopsSteps ⟨A, false⟩ ⟨B, false⟩ invert before m).filterMap Step.called? = A.flatMap fun a => a :: B := by
  unfold loopsSteps
  simp only [Iterable.again, Bool.false_and, Bool.false_eq_true, if_false]
  rw [List.filterMap_flatMap]
  have inner : ∀ (a : α) (l : List α) (k : Nat), ((l.zipIdx k).flatMap fun (b, j) =>
      Step.call b :: if m j a b then [Step.pair (if invert then (b, a) else (a, b))] else []).filterMap Step.called? = l := by
    intro a l
    induction l with
    | nil => intro k; rfl
    | cons b l ih =>
        intro k
        rw [List.zipIdx_cons, List.flatMap_cons, List.filterMap_append, ih]
        dsimp only
        cases m k a b <;> rfl
  have outer : ∀ (l : List α) (k : Nat), ((l.zipIdx k).flatMap fun p => (Step.call p.1 :: (B.zipIdx).flatMap fun (b, j) =>
      Step.call b :: if m j p.1 b then [Step.pair (if invert then (b, p.1) else (p.1, b))] else []).filterMap Step.called?) =
        l.flatMap fun a => a :: B := by
    intro l
    induction l with
    | nil => intro k; rfl
    | cons a l ih =>
        intro k
        rw [List.zipIdx_cons, List.flatMap_cons, List.flatMap_cons, ih, List.filterMap_cons]
        simp only [Step.called?]
        rw [inner]
  exact outer A 0

/-- C152. On two lists, the items on which the key function is called: for each item of the shorter one, in order, this item and all items of the longer
one. -/
theorem hashjoin_calls_partial (left right : List α) (key : α → κ) :
    (hashjoinSteps ⟨left, false⟩ ⟨right, false⟩ (some key) none).filterMap Step.called? =
      if left.length > right.length then right.flatMap fun a => a :: left else left.flatMap fun a => a :: right := by
  unfold hashjoinSteps
  dsimp only
  rw [List.append_nil]
  by_cases h : left.length > right.length
  · have hs : swaps (⟨left, false⟩ : Iterable α) ⟨right, false⟩ = true := by simp [swaps, h]
    rw [if_pos h, hs, if_pos rfl, if_pos rfl]
    exact loopsSteps_calls ..
  · have hs : swaps (⟨left, false⟩ : Iterable α) ⟨right, false⟩ = false := by simp [swaps]; omega
    rw [if_neg h, hs, if_neg (by simp), if_neg (by simp)]
    exact loopsSteps_calls ..

/-- C152. The same with `keys`. -/
theorem hashjoin_calls_keys_partial (left right : List α) (keys : α → Keys κ) :
    (hashjoinSteps ⟨left, false⟩ ⟨right, false⟩ none (some keys)).filterMap Step.called? =
      if left.length > right.length then right.flatMap fun a => a :: left else left.flatMap fun a => a :: right := by
  unfold hashjoinSteps
  dsimp only
  rw [List.nil_append]
  by_cases h : left.length > right.length
  · have hs : swaps (⟨left, false⟩ : Iterable α) ⟨right, false⟩ = true := by simp [swaps, h]
    rw [if_pos h, hs, if_pos rfl, if_pos rfl]
    exact loopsSteps_calls ..
  · have hs : swaps (⟨left, false⟩ : Iterable α) ⟨right, false⟩ = false := by simp [swaps]; omega
    rw [if_neg h, hs, if_neg (by simp), if_neg (by simp)]
    exact loopsSteps_calls ..

theorem length_flatMap_cons (l B : List α) : (l.flatMap fun a => a :: B).length = l.length * (B.length + 1) := by
  induction l with
  | nil => simp
  | cons a l ih => rw [List.flatMap_cons, List.length_append, ih, List.length_cons, List.length_cons, Nat.add_mul, Nat.one_mul, Nat.add_comm]

/-- C152 is false: with two lists of `n` and `m` items, `min n m * (max n m + 1)` keys are computed, more than one for each pair of items as soon as no list
is empty. -/
theorem hashjoin_calls_many (left right : List α) (key : α → κ) :
    ((hashjoinSteps ⟨left, false⟩ ⟨right, false⟩ (some key) none).filterMap Step.called?).length =
      left.length * right.length + min left.length right.length := by
  rw [hashjoin_calls_partial]
  split
  · rw [length_flatMap_cons, Nat.mul_add, Nat.mul_one, Nat.min_eq_right (by omega), Nat.mul_comm]
  · rw [length_flatMap_cons, Nat.mul_add, Nat.mul_one, Nat.min_eq_left (by omega)]

/-- Three and two items: eight keys. -/
example : (hashjoinSteps ⟨[1, 2, 3], false⟩ ⟨[11, 13], false⟩ (some fun n => n % 10) none).filterMap Step.called? = [11, 1, 2, 3, 13, 1, 2, 3] ∧
    (hashjoinSteps ⟨[1, 2, 3], false⟩ ⟨[11, 13], false⟩ (some fun n => n % 10) none).filterMap Step.pair? = [(1, 11), (3, 13)] := by
  decide

end Fog.Props
