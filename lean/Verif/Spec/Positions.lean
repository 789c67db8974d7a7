import Verif.Spec.Graph

/-!
# Specification: similar positions and leaders

Independent of the code.
-/

namespace Fog.Spec

variable {β : Type _}

/-- The items at positions `i < j`, or `j < i`, are similar; the earlier one is given first to the similarity. -/
def SimilarPositions (similarity : β → β → Bool) (items : List β) (i j : Nat) : Prop :=
  (i < j ∧ ∃ a b, items[i]? = some a ∧ items[j]? = some b ∧ similarity a b = true) ∨
  (j < i ∧ ∃ a b, items[j]? = some a ∧ items[i]? = some b ∧ similarity a b = true)

/-- `lead j` is the leader of `j`: the first earlier position which has no leader and to which `j` is similar. -/
structure IsLeaderAssignment (similar : Nat → Nat → Prop) (n : Nat) (lead : Nat → Option Nat) : Prop where
  leads : ∀ j, j < n → ∀ i, lead j = some i →
    i < j ∧ lead i = none ∧ similar i j ∧ ∀ k, k < i → lead k = none → ¬ similar k j
  free : ∀ j, j < n → lead j = none → ∀ i, i < j → lead i = none → ¬ similar i j

/-- Pairs of positions in the order in which chunks are read: by the chunk of the second one, then the chunk of the first one, and then by the
first one and the second one. -/
def ReadBefore (chunk : Nat) (p q : Nat × Nat) : Prop :=
  p.2 / chunk < q.2 / chunk ∨ (p.2 / chunk = q.2 / chunk ∧ (p.1 / chunk < q.1 / chunk ∨ (p.1 / chunk = q.1 / chunk ∧
    (p.1 < q.1 ∨ (p.1 = q.1 ∧ p.2 < q.2)))))

/-- The items at `a` and `b` are similar, and this pair comes before `p`, by its first position and then by its second one. -/
def SimilarBefore (similarity : β → β → Bool) (items : List β) (p : Nat × Nat) (a b : Nat) : Prop :=
  SimilarPositions similarity items a b ∧ (Nat.min a b < p.1 ∨ (Nat.min a b = p.1 ∧ Nat.max a b < p.2))

end Fog.Spec
