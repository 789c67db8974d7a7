/-!
# Specification: pieces of a text

Independent of the code.
-/

namespace Fog.Spec

/-- The pieces are found in the text one after the other, without overlap: the text is made of the pieces, in order, and of what is between
them. -/
def CutFrom {α : Type _} (s : List α) : List (List α) → Prop
  | [] => True
  | t :: ts => ∃ gap rest, s = gap ++ t ++ rest ∧ CutFrom rest ts

end Fog.Spec
