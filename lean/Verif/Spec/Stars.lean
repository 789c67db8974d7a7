/-!
# Specification: fuzzy clusters

Independent of the code.
-/

namespace Fog.Spec

/-- The clusters are stars of a relation: each is an item followed by the items related to it, without repetitions, and no cluster starts
with an item of an earlier one. If the sizes from two on are accepted, every related item is in a cluster. -/
structure IsStars {α : Type _} (R : α → α → Prop) (size : Nat → Prop) (cs : List (List α)) : Prop where
  star : ∀ c ∈ cs, size c.length ∧ c.Nodup ∧ ∃ item rest, c = item :: rest ∧ rest ≠ [] ∧ ∀ x, x ∈ rest ↔ R item x
  heads : cs.Pairwise fun c d => ∀ item, d.head? = some item → item ∉ c
  cover : (∀ n, 2 ≤ n → size n) → ∀ a b, R a b → ∃ c ∈ cs, a ∈ c

/-- The pairs in both directions. -/
def bothWays {α : Type _} (pairs : List (α × α)) : List (α × α) := pairs.flatMap fun p => [(p.1, p.2), (p.2, p.1)]

/-- The items paired with an item, in the order of the pairs, as many times as they are. -/
def partnersOf {α : Type _} [DecidableEq α] (pairs : List (α × α)) (a : α) : List α :=
  (bothWays pairs).filterMap fun p => if p.1 = a then some p.2 else none

/-- The items which lead a cluster, among nodes taken in order: those whose cluster has an accepted size and which are in the cluster of no
earlier leader. -/
structure IsLeaders {α : Type _} (nodes : List α) (others : α → List α) (size : Nat → Prop) (leaders : List α) : Prop where
  sub : leaders.Sublist nodes
  mem : ∀ before a after, nodes = before ++ a :: after →
    (a ∈ leaders ↔ size ((others a).length + 1) ∧ ∀ b ∈ leaders, b ∈ before → a ∉ others b)

end Fog.Spec
