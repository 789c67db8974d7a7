/-!
# Where words written together are cut

Nothing here refers to the model.
-/

namespace Fog.Spec

/-- What a character is. -/
inductive Case
  | upper | lower | digit
  deriving DecidableEq, Repr

/-- Whether there is a cut before the place `p`: between digits and letters, between a small letter and a capital, and before the last of
several capitals when a small letter follows. -/
def cutBefore (k : List Case) (p : Nat) : Bool :=
  decide (0 < p) && match k[p - 1]?, k[p]? with
    | some .digit, some .upper | some .digit, some .lower | some .upper, some .digit | some .lower, some .digit | some .lower, some .upper => true
    | some .upper, some .upper => decide (k[p + 1]? = some .lower)
    | _, _ => false

/-- The places where pieces put together meet. -/
def cutPlaces {α : Type _} (offset : Nat) : List (List α) → List Nat
  | [] => []
  | [_] => []
  | t :: t' :: ts => (offset + t.length) :: cutPlaces (offset + t.length) (t' :: ts)

end Fog.Spec
