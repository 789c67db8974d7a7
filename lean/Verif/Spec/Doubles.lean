/-!
# Specification: doubled letters

Independent of the code.
-/

namespace Fog.Spec

variable {α : Type _} [DecidableEq α]

/-- The number of letters which are the same as the one before them. -/
def doubles : List α → Nat
  | a :: b :: l => (if a = b then 1 else 0) + doubles (b :: l)
  | _ => 0

end Fog.Spec
