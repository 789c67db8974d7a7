import Verif.Model.Passjoin

/-!
# Model of `fog/clustering/passjoin.py`: the calls of the distance

The loops of `Verif.Model.Passjoin`, which list all candidate pairs, with the calls of `distance`.
-/

namespace Fog.Passjoin

open Fog.ClusteringUtils

variable {α : Type _} [DecidableEq α]

/-- A candidate pair (passjoin.py l. 259-269): the two strings, whether `distance` is called on them, and whether the pair is yielded. -/
structure Trial (α : Type _) where
  pair : List α × List α
  called : Bool
  yielded : Bool

/-- The candidates for one string (passjoin.py l. 243-269), as `matchString`. `or` does not call `distance` when its left side holds. -/
def matchStringTrials (k : Nat) (distance : List α → List α → Nat) (sort : Bool) (L : Index α) (A : List α) : List (Trial α) :=
  let s := A.length
  (pyRange (if sort then s else s - k) (s + k + 1)).flatMap fun l =>
    match L.get? l with
    | none => []
    | some Ll =>
        (partition k l).flatMap fun (i, start, length) =>
          (multiMatchAwareSubstrings k A l i start length).flatMap fun substring =>
            match Ll.get? (i, substring) with
            | none => []
            | some candidates =>
                candidates.map fun B =>
                  if s ≤ k ∧ l ≤ k then ⟨(A, B), false, true⟩ else ⟨(A, B), true, decide (distance A B ≤ k)⟩

/-- `clustering()` (passjoin.py l. 238-276), from an index: all candidates. -/
def clusteringTrials (k : Nat) (distance : List α → List α → Nat) (sort : Bool) : (L : Index α) → List (List α) → List (Trial α)
  | _, [] => []
  | L, A :: data => matchStringTrials k distance sort L A ++ clusteringTrials k distance sort (indexString k L A) data

/-- The candidates of `passjoin(data, k, distance, sort)` (passjoin.py l. 229-276), in order. -/
def passjoinTrials (lexLe : List α → List α → Bool) (data : List (List α)) (k : Nat) (distance : List α → List α → Nat) (sort : Bool) :
    List (Trial α) :=
  let data := if sort then data.mergeSort (sortKeyLe lexLe) else data
  clusteringTrials k distance sort [] data

/-- The pairs on which `passjoin` calls `distance` (passjoin.py l. 268), in order. -/
def passjoinCalls (lexLe : List α → List α → Bool) (data : List (List α)) (k : Nat) (distance : List α → List α → Nat) (sort : Bool) :
    List (List α × List α) :=
  ((passjoinTrials lexLe data k distance sort).filter Trial.called).map Trial.pair

end Fog.Passjoin
