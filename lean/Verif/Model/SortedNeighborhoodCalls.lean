import Verif.Model.SortedNeighborhood

/-!
# Model of `fog/clustering/sorted_neighborhood.py`: the calls of the similarity

The loops of `sorted_neighborhood`, which list the calls of `similarity` in the order in which they are made, each with the positions of the items in the
sorted data, the items, and the answer.
-/

namespace Fog.SortedNeighborhood

open Fog.ClusteringUtils

variable {α : Type _}

/-- A call of `similarity` (sorted_neighborhood.py l. 98). -/
structure Call (α : Type _) where
  positions : Nat × Nat
  items : α × α
  answer : Bool

/-- The calls of one pass (sorted_neighborhood.py l. 89-99), as `windowPairs`: `S` is the sorted data. -/
def windowCalls (similarity : α → α → Bool) (window : Nat) (S : List α) : List (Call α) :=
  (List.range S.length).flatMap fun i =>
    (pyRange (i + 1) (min S.length (i + window))).filterMap fun j =>
      match S[i]?, S[j]? with
      | some A, some B => some ⟨(i, j), (A, B), similarity A B⟩
      | _, _ => none

/-- The calls made by `sorted_neighborhood` when its clusters are read (sorted_neighborhood.py l. 85-99). -/
def snmCalls (oneShot : Bool) (data : List α) (keys : Keys α) (similarity : α → α → Bool) (window : Nat) : List (Call α) :=
  (passes oneShot data keys.multipass).flatMap fun p => windowCalls similarity window (pySorted p.2 p.1)

end Fog.SortedNeighborhood
