/-!
# Specification: words of a text

Independent of the code.
-/

namespace Fog.Spec

/-- The pieces of a text between separators, some of which may be empty. -/
def pieces (space : Char → Bool) : List Char → List (List Char)
  | [] => [[]]
  | c :: s =>
      if space c then [] :: pieces space s
      else match pieces space s with
        | [] => [[c]]
        | p :: ps => (c :: p) :: ps

/-- The words of a text: the pieces between separators which are not empty. -/
def words (space : Char → Bool) (s : List Char) : List (List Char) := (pieces space s).filter fun w => decide (w ≠ [])

end Fog.Spec
