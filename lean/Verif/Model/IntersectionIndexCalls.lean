import Verif.Model.IntersectionIndex

/-!
# Model of `fog/clustering/intersection_index.py`: the increments and the quotients

The loops of `Verif.Model.IntersectionIndex`, which list the increments of the counters and the pairs for which a quotient is computed.
-/

namespace Fog.IntersectionIndex

open Fog.ClusteringUtils

variable {τ : Type _} [DecidableEq τ]

/-- The increments `intersections[i][j] += 1` made for the shingles of item `i` (intersection_index.py l. 80-86), as `(i, j)`. -/
def shingleIncrements (i : Nat) : State τ → List τ → List (Nat × Nat)
  | _, [] => []
  | s, shingle :: shingles =>
      let bucket := (s.1.get? shingle).getD []
      bucket.map (fun j => (i, j)) ++ shingleIncrements i (shingleStep i s shingle) shingles

/-- The increments made by the loop over the items (intersection_index.py l. 73-86) from item `i` on, as `indexLoop`. -/
def indexIncrements (ord : List τ → List τ) : Nat → List (List τ) → State τ → List (Nat × Nat)
  | _, [], _ => []
  | i, item :: items, s =>
      shingleIncrements i s (ord (dedup item)) ++ indexIncrements ord (i + 1) items ((ord (dedup item)).foldl (shingleStep i) s)

/-- The pairs `i`, `j` over which the two loops of `clustering()` go, for which a quotient is computed (intersection_index.py l. 89-102). -/
def quotients (intersections : Dict Nat (Dict Nat Nat)) : List (Nat × Nat) :=
  intersections.flatMap fun (i, neighbors) => neighbors.map fun (j, _) => (i, j)

end Fog.IntersectionIndex
