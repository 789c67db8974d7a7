import Verif.Model.Blocking

/-!
# Model of `fog/clustering/blocking.py`: the calls of the similarity

The loops of `Verif.Model.Blocking`, which list the calls of `similarity` in the order in which they are made, each with its answer.
-/

namespace Fog.Blocking

open Fog.ClusteringUtils Fog.KeyCollision

variable {α κ : Type _} [DecidableEq α] [DecidableEq κ]

/-- `block_worker(payload)` (blocking.py l. 21-47): its calls of `similarity` (l. 44), each with its answer. A pair which is in the graph is skipped
(l. 41-42). -/
def blockWorkerCalls (similarity : α → α → Bool) (block : List α) (graph : Option (Dict α (List α))) : List ((α × α) × Bool) :=
  (bucketPairs block).flatMap fun p => if known graph p.1 p.2 then [] else [(p, similarity p.1 p.2)]

/-- The calls made by `blocking(data, ..., processes=1)` when its clusters are read (blocking.py l. 106-128), in order, each with its answer. -/
def blockingSerialCalls (setOrd : List κ → List κ) (data : List α) (fn : BlockFn α κ) (similarity : α → α → Bool) : List ((α × α) × Bool) :=
  (((bucketsOf (blockEntries setOrd data fn)).map Prod.snd).filter fun bucket => ¬ bucket.length < 2).flatMap fun bucket =>
    blockWorkerCalls similarity bucket (workerGraph fn)

/-- The calls made by `blocking(data, ...)` with several processes (blocking.py l. 106-141), those of each payload in one list. -/
def blockingParallelCalls (setOrd : List κ → List κ) (data : List α) (fn : BlockFn α κ) (similarity : α → α → Bool) :
    List (List ((α × α) × Bool)) :=
  (((bucketsOf (blockEntries setOrd data fn)).map Prod.snd).filter fun bucket => bucket.length > 1).map fun bucket =>
    blockWorkerCalls similarity bucket none

end Fog.Blocking
