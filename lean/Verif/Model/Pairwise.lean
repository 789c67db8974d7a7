import Verif.Model.ClusteringUtils

/-!
# Model of `fog/clustering/pairwise.py`

The similarity is the Boolean function returned by `make_similarity_function`. Clusters are kept as lists of positions
and turned into items when they are yielded: the code keeps the items `data[i]` themselves.
-/

namespace Fog.Pairwise

open Fog.ClusteringUtils

variable {β : Type _}

/-- `similarity(keys[i], keys[j])`; the positions are always in range in the code (pairwise.py l. 230, 348). -/
def similarAt (similarity : β → β → Bool) (keys : List β) (i j : Nat) : Bool :=
  match keys[i]?, keys[j]? with
  | some A, some B => similarity A B
  | _, _ => false

/-- `[data[i] for i in positions]` (pairwise.py l. 264, 368). -/
def itemsAt (data : List β) (positions : List Nat) : List β := positions.filterMap fun i => data[i]?

/-- The inner loop of `pairwise_leader` (pairwise.py l. 94-112) over the positions `js`; `cluster` is `[]` for `None`.
`visited.delete(c)` (l. 109) does not exist on a set: an `AttributeError`. Returns the cluster and what is visited. -/
def leaderLoop (similarity : β → β → Bool) (data : List β) (max_size : Option Nat) (i : Nat) :
    List Nat → (cluster visited : List Nat) → Py (List Nat × List Nat)
  | [], cluster, visited => .ok (cluster, visited)
  | j :: js, cluster, visited =>
      if j ∈ visited then leaderLoop similarity data max_size i js cluster visited
      else if similarAt similarity data i j then
        let cluster := if cluster = [] then [i, j] else cluster ++ [j]
        match max_size with
        | none => leaderLoop similarity data max_size i js cluster (j :: visited)
        | some m =>
            if cluster.length > m then .error .attributeError
            else leaderLoop similarity data max_size i js cluster (j :: visited)
      else leaderLoop similarity data max_size i js cluster visited

/-- The outer loop of `pairwise_leader` (pairwise.py l. 86-115) over the positions `is`. -/
def leaderOuter (similarity : β → β → Bool) (data : List β) (min_size : Nat) (max_size : Option Nat) :
    List Nat → (visited : List Nat) → Py (List (List Nat))
  | [], _ => .ok []
  | i :: is, visited =>
      if i ∈ visited then leaderOuter similarity data min_size max_size is visited
      else do
        let (cluster, visited) ←
          leaderLoop similarity data max_size i (pyRange (i + 1) data.length) [] visited
        let rest ← leaderOuter similarity data min_size max_size is visited
        if cluster ≠ [] ∧ cluster.length ≥ min_size then .ok (cluster :: rest) else .ok rest

/-- `pairwise_leader(data, similarity, min_size, max_size)` (pairwise.py l. 19-115), as positions. -/
def leaderPositions (similarity : β → β → Bool) (data : List β) (min_size : Nat) (max_size : Option Nat) :
    Py (List (List Nat)) :=
  leaderOuter similarity data min_size max_size (List.range data.length) []

/-- `pairwise_leader(data, similarity, min_size, max_size)` (pairwise.py l. 19-115). -/
def pairwiseLeader (similarity : β → β → Bool) (data : List β) (min_size : Nat) (max_size : Option Nat) :
    Py (List (List β)) := do
  let clusters ← leaderPositions similarity data min_size max_size
  .ok (clusters.map (itemsAt data))

/-- The outer loop of `pairwise_leader` (pairwise.py l. 86-115) over the positions `is`: the clusters yielded, and the exception raised after them
if there is one. -/
def leaderYields (similarity : β → β → Bool) (data : List β) (min_size : Nat) (max_size : Option Nat) :
    List Nat → (visited : List Nat) → List (List Nat) × Option PyErr
  | [], _ => ([], none)
  | i :: is, visited =>
      if i ∈ visited then leaderYields similarity data min_size max_size is visited
      else
        match leaderLoop similarity data max_size i (pyRange (i + 1) data.length) [] visited with
        | .error e => ([], some e)
        | .ok (cluster, visited) =>
            let rest := leaderYields similarity data min_size max_size is visited
            if cluster ≠ [] ∧ cluster.length ≥ min_size then (cluster :: rest.1, rest.2) else rest

/-- `pairwise_leader(data, similarity, min_size, max_size)` (pairwise.py l. 19-115): the clusters yielded, and the exception raised after them if
there is one. -/
def pairwiseLeaderYields (similarity : β → β → Bool) (data : List β) (min_size : Nat) (max_size : Option Nat) : List (List β) × Option PyErr :=
  let result := leaderYields similarity data min_size max_size (List.range data.length) []
  (result.1.map (itemsAt data), result.2)

/-- `pairwise_worker(payload)` (pairwise.py l. 118-143). -/
def pairwiseWorker (similarity : β → β → Bool) (chunk : Chunk β) : List (Nat × Nat) :=
  let diagonal_chunk := chunk.i_offset = chunk.j_offset
  let I := chunk.I
  let J := if diagonal_chunk then chunk.I else chunk.J
  (List.range I.length).flatMap fun i =>
    (pyRange (if diagonal_chunk then i + 1 else 0) J.length).filterMap fun j =>
      match I[i]?, J[j]? with
      | some A, some B => if similarity A B then some (chunk.i_offset + i, chunk.j_offset + j) else none
      | _, _ => none

/-- The pairs of positions in the order of the two loops of the serial versions (pairwise.py l. 224-228, 337-343). -/
def upperPairs (n : Nat) : List (Nat × Nat) :=
  (List.range n).flatMap fun i => (pyRange (i + 1) n).map fun j => (i, j)

/-- The similar pairs found by the serial `pairwise_fuzzy_clusters` (pairwise.py l. 223-232). -/
def serialPairs (similarity : β → β → Bool) (keys : List β) : List (Nat × Nat) :=
  (upperPairs keys.length).filter fun p => similarAt similarity keys p.1 p.2

/-- The results of the workers, in the order of the chunks (pairwise.py l. 237-247, 353-363). -/
def workerResults (similarity : β → β → Bool) (keys : List β) (chunk_size : Nat) : Py (List (List (Nat × Nat))) := do
  let chunks ← upperTriangularMatrixChunkIter keys chunk_size
  .ok (chunks.map (pairwiseWorker similarity))

/-- `pairwise_fuzzy_clusters` (pairwise.py l. 146-265) from the pairs: the graph and the loop are the ones of
`clusters_from_pairs` with `fuzzy=False`. -/
def fuzzyFromPairs (data : List β) (pairs : List (Nat × Nat)) (min_size : Nat) (max_size : Option Nat) :
    List (List β) :=
  (fuzzyClusters false (fun _ l => l) min_size max_size (makeGraph false pairs) []).map (itemsAt data)

/-- `pairwise_fuzzy_clusters(data, similarity, ..., key, processes, chunk_size)` (pairwise.py l. 146-265). `keys` are
the keys of the items, the items themselves when there is no key function. `pool.imap` keeps the order. -/
def pairwiseFuzzyClusters {γ : Type _} (similarity : γ → γ → Bool) (data : List β) (keys : List γ) (min_size : Nat)
    (max_size : Option Nat) (processes chunk_size : Nat) : Py (List (List β)) :=
  if processes = 1 then .ok (fuzzyFromPairs data (serialPairs similarity keys) min_size max_size)
  else do
    let results ← workerResults similarity keys chunk_size
    .ok (fuzzyFromPairs data results.flatten min_size max_size)

/-- The union-find structure of the `phylactery` library: what the code uses of it (pairwise.py l. 333, 345, 349, 367). -/
structure UnionFind (σ : Type _) where
  init : Nat → σ
  connected : σ → Nat → Nat → Bool
  union : σ → Nat → Nat → σ
  components : σ → (min_size : Nat) → (max_size : Option Nat) → List (List Nat)

/-- The serial loop of `pairwise_connected_components` (pairwise.py l. 336-349). -/
def serialUnions {σ : Type _} (uf : UnionFind σ) (similarity : β → β → Bool) (keys : List β) : σ :=
  (upperPairs keys.length).foldl (fun sets p =>
    if uf.connected sets p.1 p.2 then sets
    else if similarAt similarity keys p.1 p.2 then uf.union sets p.1 p.2 else sets) (uf.init keys.length)

/-- The parallel loop of `pairwise_connected_components` (pairwise.py l. 361-364): `results` are the results of the
workers in the order in which they arrive. -/
def parallelUnions {σ : Type _} (uf : UnionFind σ) (n : Nat) (results : List (List (Nat × Nat))) : σ :=
  results.foldl (fun sets pairs => pairs.foldl (fun sets p => uf.union sets p.1 p.2) sets) (uf.init n)

/-- `pairwise_connected_components(..., processes=1)` (pairwise.py l. 268-368). -/
def pairwiseConnectedComponentsSerial {σ γ : Type _} (uf : UnionFind σ) (similarity : γ → γ → Bool) (data : List β)
    (keys : List γ) (min_size : Nat) (max_size : Option Nat) : List (List β) :=
  (uf.components (serialUnions uf similarity keys) min_size max_size).map (itemsAt data)

/-- `pairwise_connected_components(...)` with several processes (pairwise.py l. 268-368). `arrival` reorders the results
of the workers: `pool.imap_unordered`. -/
def pairwiseConnectedComponentsParallel {σ γ : Type _} (uf : UnionFind σ)
    (arrival : List (List (Nat × Nat)) → List (List (Nat × Nat))) (similarity : γ → γ → Bool) (data : List β)
    (keys : List γ) (min_size : Nat) (max_size : Option Nat) (chunk_size : Nat) : Py (List (List β)) := do
  let results ← workerResults similarity keys chunk_size
  .ok ((uf.components (parallelUnions uf data.length (arrival results)) min_size max_size).map (itemsAt data))

end Fog.Pairwise
