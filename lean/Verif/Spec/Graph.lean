/-!
# Specification: connected components

Independent of the code.
-/

namespace Fog.Spec

variable {α : Type _}

/-- The graph of a sequence of pairs: an edge between the two items of each pair. -/
def Linked (pairs : List (α × α)) (a b : α) : Prop := (a, b) ∈ pairs ∨ (b, a) ∈ pairs

/-- `b` can be reached from `a` by following `R`. -/
inductive Connected (R : α → α → Prop) : α → α → Prop
  | refl (a : α) : Connected R a a
  | step {a b c : α} : R a b → Connected R b c → Connected R a c

/-- `c` lists, without repetition, exactly what can be reached from `a`. -/
def IsComponentOf (R : α → α → Prop) (a : α) (c : List α) : Prop := c.Nodup ∧ ∀ x, x ∈ c ↔ Connected R a x

/-- `clusters` are the connected components of the graph `R` on the nodes `N` whose size is accepted by `ok`, each
listed once. -/
structure IsComponents (R : α → α → Prop) (N : α → Prop) (ok : Nat → Prop) (clusters : List (List α)) : Prop where
  /-- Each cluster is a component of an accepted size. -/
  sound : ∀ c ∈ clusters, ok c.length ∧ ∃ a, N a ∧ IsComponentOf R a c
  /-- Each component of an accepted size is there. -/
  complete : ∀ a, N a → ∀ l, IsComponentOf R a l → ok l.length → ∃ c ∈ clusters, a ∈ c
  /-- No item is in two clusters. -/
  disjoint : clusters.Pairwise (fun c d => ∀ x, x ∈ c → x ∉ d)

/-- The same clusters, up to the order of the clusters and of the items in each. -/
inductive SameClusters : List (List α) → List (List α) → Prop
  | nil : SameClusters [] []
  | cons {c : List α} {cs d1 d2 : List (List α)} {d : List α} :
      c.Perm d → SameClusters cs (d1 ++ d2) → SameClusters (c :: cs) (d1 ++ d :: d2)

/-- A size between two bounds; no upper bound is infinity. -/
def SizeBetween (min : Nat) (max : Option Nat) (n : Nat) : Prop := min ≤ n ∧ ∀ m, max = some m → n ≤ m

end Fog.Spec
