import Verif.Model.KeyCollision

/-!
# Model of `fog/clustering/blocking.py`

The similarity is the Boolean function returned by `make_similarity_function`. Serialising it for the workers changes
nothing.
-/

namespace Fog.Blocking

open Fog.ClusteringUtils Fog.KeyCollision

variable {α κ : Type _} [DecidableEq α] [DecidableEq κ]

/-- `graph is not None and A in graph and B in graph[A]` (blocking.py l. 41). -/
def known (graph : Option (Dict α (List α))) (A B : α) : Bool :=
  match graph with
  | none => false
  | some graph =>
      match graph.get? A with
      | none => false
      | some ns => decide (B ∈ ns)

/-- `block_worker(payload)` (blocking.py l. 21-47): the pairs of the block in the order of the two loops. -/
def blockWorker (similarity : α → α → Bool) (block : List α) (graph : Option (Dict α (List α))) : List (α × α) :=
  (bucketPairs block).filter fun p => !known graph p.1 p.2 && similarity p.1 p.2

/-- How an item is put in blocks: `block` or `blocks` (blocking.py l. 109-115). -/
inductive BlockFn (α κ : Type _)
  | block (f : α → κ)
  | blocks (f : α → List κ)

/-- What is appended to the buckets (blocking.py l. 106-115). `setOrd` is the order of iteration of the set
`set(blocks(item))`. -/
def blockEntries (setOrd : List κ → List κ) (data : List α) : BlockFn α κ → List (κ × α)
  | .block f => data.map fun item => (f item, item)
  | .blocks f => data.flatMap fun item => (setOrd (dedup (f item))).map fun b => (b, item)

/-- `worker_graph` (blocking.py l. 92-103): `None`, or the graph which stays empty since nothing is ever added to it. -/
def workerGraph : BlockFn α κ → Option (Dict α (List α))
  | .block _ => none
  | .blocks _ => some []

/-- `fuzzy=blocks is not None` (blocking.py l. 145). -/
def isBlocks : BlockFn α κ → Bool
  | .block _ => false
  | .blocks _ => true

/-- `blocking(data, ..., processes=1)` (blocking.py l. 50-149). -/
def blockingSerial (ord : α → List α → List α) (setOrd : List κ → List κ) (data : List α) (fn : BlockFn α κ)
    (similarity : α → α → Bool) (min_size : Nat) (max_size : Option Nat) (mode : Mode) : Py (List (List α)) :=
  let buckets := (bucketsOf (blockEntries setOrd data fn)).map Prod.snd
  let pairs := (buckets.filter fun bucket => ¬ bucket.length < 2).flatMap fun bucket =>
    blockWorker similarity bucket (workerGraph fn)
  clustersFromPairs ord pairs min_size max_size mode (isBlocks fn)

/-- `blocking(data, ...)` with several processes (blocking.py l. 50-149). `arrival` reorders the results of the workers:
`pool.imap_unordered`. -/
def blockingParallel (ord : α → List α → List α) (setOrd : List κ → List κ)
    (arrival : List (List (α × α)) → List (List (α × α))) (data : List α) (fn : BlockFn α κ)
    (similarity : α → α → Bool) (min_size : Nat) (max_size : Option Nat) (mode : Mode) : Py (List (List α)) :=
  let buckets := (bucketsOf (blockEntries setOrd data fn)).map Prod.snd
  let results := (buckets.filter fun bucket => bucket.length > 1).map fun bucket => blockWorker similarity bucket none
  clustersFromPairs ord (arrival results).flatten min_size max_size mode (isBlocks fn)

end Fog.Blocking
