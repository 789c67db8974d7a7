/-!
# Specification: pairs whose ends are in two parts

Independent of the code.
-/

namespace Fog.Spec

variable {α π : Type _}

/-- The ends of each pair have different parts, and there are at most two parts. -/
def TwoParts (part : α → Option π) (edges : List (α × α)) : Prop :=
  (∀ e ∈ edges, ∃ p q, part e.1 = some p ∧ part e.2 = some q ∧ p ≠ q) ∧
  ∃ p q, ∀ e ∈ edges, (part e.1 = p ∨ part e.1 = q) ∧ (part e.2 = p ∨ part e.2 = q)

/-- Going through the pairs, the first after which they are no more in two parts is this one. -/
def FirstBad (part : α → Option π) (edges : List (α × α)) (bad : α × α) : Prop :=
  ∃ before after, edges = before ++ bad :: after ∧ TwoParts part before ∧ ¬ TwoParts part (before ++ [bad])

end Fog.Spec
