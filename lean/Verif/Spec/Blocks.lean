/-!
# Specification: cutting a string in equal parts
-/

namespace Fog.Spec

variable {α : Type _}

/-- `s'` is `s`, or `s` with two adjacent letters swapped. -/
def UpToSwap (s s' : List α) : Prop := s' = s ∨ ∃ u c d v, s = u ++ c :: d :: v ∧ s' = u ++ d :: c :: v

/-- `p` and `q` are halves of `s`, as equal as can be. -/
def Halves (s p q : List α) : Prop := s = p ++ q ∧ p.length ≤ q.length + 1 ∧ q.length ≤ p.length + 1

/-- `p`, `q` and `r` are thirds of `s`, as equal as can be. -/
def Thirds (s p q r : List α) : Prop :=
  s = p ++ q ++ r ∧ ∀ x ∈ [p, q, r], ∀ y ∈ [p, q, r], x.length ≤ y.length + 1

end Fog.Spec
