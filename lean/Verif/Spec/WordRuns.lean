import Mathlib.Data.List.Chain
import Mathlib.Data.List.SplitBy

/-!
# Runs of word characters

A text is cut into its longest runs of word characters and of other characters.
-/

namespace Fog.Spec

/-- The parts `r` are not empty, each is made of word characters only or of other characters only, and the kinds alternate. -/
structure IsRuns (isWord : Char → Bool) (r : List (List Char)) : Prop where
  ne_nil : ∀ x ∈ r, x ≠ []
  kind : ∀ x ∈ r, (∀ c ∈ x, isWord c = true) ∨ (∀ c ∈ x, isWord c = false)
  alternate : r.IsChain fun x y => x.getLast?.any isWord ≠ y.head?.any isWord

end Fog.Spec
