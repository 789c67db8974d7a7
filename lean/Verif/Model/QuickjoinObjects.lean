import Verif.Model.Quickjoin

/-!
# Model of `quickjoin_self_vptree` of `fog/clustering/quickjoin.py`, on objects

`Verif.Model.Quickjoin` supposes that equal items have the same identity. Here items are objects, with an identity and a value: equal items may be
different objects, as two strings read from a file are.
-/

namespace Fog.QuickjoinObjects

/-- An object: what `id` returns, and its value, which `==` and `distance` look at. -/
structure Obj (β : Type _) where
  ident : Nat
  value : β

variable {β K : Type _}

/-- `quickjoin_self_vptree(S, distance, radius)` (quickjoin.py l. 110-123). `neighbors A` are the objects of
`VPTree(S, distance).neighbors_in_radius(A, radius)` (l. 118). -/
def selfVptree [DecidableEq β] (neighbors : Obj β → List (Obj β)) (S : List (Obj β)) : List (Obj β × Obj β) :=
  if S.length = 1 then []
  else S.flatMap fun A => (neighbors A).filterMap fun B =>
    if A.value = B.value then none else if A.ident < B.ident then some (A, B) else none

end Fog.QuickjoinObjects
