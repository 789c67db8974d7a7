import Verif.Model.Pairwise
import Mathlib.Order.Defs.LinearOrder
import Mathlib.Algebra.Notation.Defs

/-!
# Model of `make_similarity_function` (clustering/utils.py) and of `pairwise` (clustering/pairwise.py)

What similarities and distances return are numbers, `False` and `True` being 0 and 1. Functions are assumed to be true when tested.
-/

namespace Fog.Pairwise

variable {β K : Type} [LinearOrder K] [Zero K]

/-- `make_similarity_function(similarity, distance, radius)` (clustering/utils.py l. 11-41). The results are used as conditions: they are
`true` when they are true for Python, that is not zero. -/
def makeSimilarityFunction (similarity distance : Option (β → β → K)) (radius : Option K) : Py (β → β → Bool) :=
  if similarity.isNone && distance.isNone then .error .typeError
  else
    match radius with
    | some radius =>
        match similarity, distance with
        | some similarity, _ => .ok fun A B => decide (similarity A B ≥ radius)
        | none, some distance => .ok fun A B => decide (distance A B ≤ radius)
        | none, none => .error .typeError
    | none =>
        match similarity, distance with
        | some similarity, _ => .ok fun A B => decide (similarity A B ≠ 0)
        | none, some distance => .ok fun A B => !decide (distance A B ≠ 0)
        | none, none => .error .typeError

/-- The named arguments of `pairwise` (pairwise.py l. 371), which are given or not. -/
structure Kwargs (β K : Type) where
  similarity : Option (β → β → K) := none
  distance : Option (β → β → K) := none
  radius : Option K := none
  min_size : Nat := 2
  max_size : Option Nat := none
  key : Option (β → β) := none
  processes : Option Nat := none
  chunk_size : Option Nat := none

/-- `keys` (pairwise.py l. 214-217 and 327-330). -/
def keysOf (key : Option (β → β)) (data : List β) : List β :=
  match key with
  | some key => data.map key
  | none => data

/-- `pairwise(data, mode, **kwargs)` (pairwise.py l. 371-408), and what is then yielded. `pairwise_leader` has no argument `key`, `processes`
nor `chunk_size` (l. 19-20): a `TypeError`. The default values are those of l. 146-148 and 268-270. A pool without
processes (l. 245 and 361) raises a `ValueError`. -/
def pairwise {σ : Type} (uf : UnionFind σ) (arrival : List (List (Nat × Nat)) → List (List (Nat × Nat))) (data : List β) (mode : String)
    (kwargs : Kwargs β K) : Py (List (List β)) :=
  if mode ∉ ["leader", "fuzzy_clusters", "connected_components"] then .error .typeError
  else if mode = "leader" then
    if kwargs.key.isSome || kwargs.processes.isSome || kwargs.chunk_size.isSome then .error .typeError
    else do
      let similarity ← makeSimilarityFunction kwargs.similarity kwargs.distance kwargs.radius
      pairwiseLeader similarity data kwargs.min_size kwargs.max_size
  else if mode = "fuzzy_clusters" then do
    let similarity ← makeSimilarityFunction kwargs.similarity kwargs.distance kwargs.radius
    if kwargs.processes = some 0 then .error .valueError
    else
      pairwiseFuzzyClusters similarity data (keysOf kwargs.key data) kwargs.min_size kwargs.max_size (kwargs.processes.getD 1)
        (kwargs.chunk_size.getD 100)
  else do
    let similarity ← makeSimilarityFunction kwargs.similarity kwargs.distance kwargs.radius
    if kwargs.processes = some 0 then .error .valueError
    else if kwargs.processes.getD 1 = 1 then
      .ok (pairwiseConnectedComponentsSerial uf similarity data (keysOf kwargs.key data) kwargs.min_size kwargs.max_size)
    else
      pairwiseConnectedComponentsParallel uf arrival similarity data (keysOf kwargs.key data) kwargs.min_size kwargs.max_size
        (kwargs.chunk_size.getD 100)

end Fog.Pairwise
