/-!
# Specification: the first fault of a list, the first place of a value

Independent of the code.
-/

namespace Fog.Spec

/-- `FirstFault fault l e`: going through the list, the first element with a fault has the fault `e`. -/
def FirstFault {α ε : Type} (fault : α → ε → Prop) (l : List α) (e : ε) : Prop :=
  ∃ before x after, l = before ++ x :: after ∧ (∀ y ∈ before, ∀ e', ¬ fault y e') ∧ fault x e

/-- `FirstAt l x i`: the value is first found at this place. -/
def FirstAt {α : Type} (l : List α) (x : α) (i : Nat) : Prop := l[i]? = some x ∧ ∀ j < i, l[j]? ≠ some x

/-- The names of the operations of `fog transform`, as documented. -/
def operationNames : List (List Char) :=
  ["fingerprint".toList, "len".toList, "lower".toList, "squeeze".toList, "strip".toList, "unidecode".toList, "upper".toList]

/-- Those which would take a number to `len()` or `re.sub`, the others calling a method of strings. -/
def takesAnything : List (List Char) := ["len".toList, "squeeze".toList]

end Fog.Spec
