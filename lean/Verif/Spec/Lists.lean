/-!
# Specification: lists

Independent of the code.
-/

namespace Fog.Spec

variable {α : Type _}

/-- `a` and `b` are two items of the list, at different places. -/
def TwoItems (l : List α) (a b : α) : Prop := [a, b].Sublist l ∨ [b, a].Sublist l

variable [DecidableEq α]

/-- The distinct elements of a list, in order of first appearance. -/
def firsts : List α → List α
  | [] => []
  | a :: l => a :: (firsts l).filter (fun b => b ≠ a)

end Fog.Spec
