import Verif.Model.Pairwise

/-!
# Model of `fog/clustering/pairwise.py`: the calls of the similarity

The loops of `Verif.Model.Pairwise`, which also list the calls of `similarity` in the order in which they are made. A call is the pair of the
positions of the two items. Only the calls of the function returned by `make_similarity_function` are listed: it calls once the function of the user.
-/

namespace Fog.Pairwise

open Fog.ClusteringUtils

variable {β : Type _}

/-- The inner loop of `pairwise_leader` (pairwise.py l. 94-112), as `leaderLoop`: its calls of `similarity` (l. 100), and what it returns or raises. -/
def leaderLoopCalls (similarity : β → β → Bool) (data : List β) (max_size : Option Nat) (i : Nat) :
    List Nat → (cluster visited : List Nat) → List (Nat × Nat) × Py (List Nat × List Nat)
  | [], cluster, visited => ([], .ok (cluster, visited))
  | j :: js, cluster, visited =>
      if j ∈ visited then leaderLoopCalls similarity data max_size i js cluster visited
      else
        let rest :=
          if similarAt similarity data i j then
            let cluster := if cluster = [] then [i, j] else cluster ++ [j]
            match max_size with
            | none => leaderLoopCalls similarity data max_size i js cluster (j :: visited)
            | some m =>
                if cluster.length > m then ([], .error .attributeError)
                else leaderLoopCalls similarity data max_size i js cluster (j :: visited)
          else leaderLoopCalls similarity data max_size i js cluster visited
        ((i, j) :: rest.1, rest.2)

/-- The outer loop of `pairwise_leader` (pairwise.py l. 86-115), as `leaderOuter`: its calls of `similarity`, when it is run to its end, and what it
yields or raises. -/
def leaderOuterCalls (similarity : β → β → Bool) (data : List β) (min_size : Nat) (max_size : Option Nat) :
    List Nat → (visited : List Nat) → List (Nat × Nat) × Py (List (List Nat))
  | [], _ => ([], .ok [])
  | i :: is, visited =>
      if i ∈ visited then leaderOuterCalls similarity data min_size max_size is visited
      else
        match leaderLoopCalls similarity data max_size i (pyRange (i + 1) data.length) [] visited with
        | (calls, .error e) => (calls, .error e)
        | (calls, .ok (cluster, visited)) =>
            let rest := leaderOuterCalls similarity data min_size max_size is visited
            (calls ++ rest.1, do
              let clusters ← rest.2
              if cluster ≠ [] ∧ cluster.length ≥ min_size then .ok (cluster :: clusters) else .ok clusters)

/-- `pairwise_leader(data, similarity, min_size, max_size)` (pairwise.py l. 19-115), as positions, with its calls of `similarity`. -/
def leaderPositionsCalls (similarity : β → β → Bool) (data : List β) (min_size : Nat) (max_size : Option Nat) :
    List (Nat × Nat) × Py (List (List Nat)) :=
  leaderOuterCalls similarity data min_size max_size (List.range data.length) []

/-- The loops of the serial `pairwise_fuzzy_clusters` (pairwise.py l. 223-232): its calls of `similarity` (l. 230), and the similar pairs. -/
def serialPairsCalls (similarity : β → β → Bool) (keys : List β) : List (Nat × Nat) × List (Nat × Nat) :=
  (upperPairs keys.length).foldl (fun s p =>
    (s.1 ++ [p], if similarAt similarity keys p.1 p.2 then s.2 ++ [p] else s.2)) ([], [])

/-- `pairwise_worker(payload)` (pairwise.py l. 118-143): its calls of `similarity` (l. 140), each with its answer. -/
def pairwiseWorkerCalls (similarity : β → β → Bool) (chunk : Chunk β) : List ((Nat × Nat) × Bool) :=
  let diagonal_chunk := chunk.i_offset = chunk.j_offset
  let I := chunk.I
  let J := if diagonal_chunk then chunk.I else chunk.J
  (List.range I.length).flatMap fun i =>
    (pyRange (if diagonal_chunk then i + 1 else 0) J.length).filterMap fun j =>
      match I[i]?, J[j]? with
      | some A, some B => some ((chunk.i_offset + i, chunk.j_offset + j), similarity A B)
      | _, _ => none

/-- The calls of `similarity` of all the workers (pairwise.py l. 237-246, 353-362), each with its answer. -/
def workersCalls (similarity : β → β → Bool) (keys : List β) (chunk_size : Nat) : Py (List (List ((Nat × Nat) × Bool))) := do
  let chunks ← upperTriangularMatrixChunkIter keys chunk_size
  .ok (chunks.map (pairwiseWorkerCalls similarity))

/-- The serial loop of `pairwise_connected_components` (pairwise.py l. 336-349): its calls of `similarity` (l. 348), and the union-find structure. -/
def serialUnionsCalls {σ : Type _} (uf : UnionFind σ) (similarity : β → β → Bool) (keys : List β) : List (Nat × Nat) × σ :=
  (upperPairs keys.length).foldl (fun s p =>
    if uf.connected s.2 p.1 p.2 then s
    else (s.1 ++ [p], if similarAt similarity keys p.1 p.2 then uf.union s.2 p.1 p.2 else s.2)) ([], uf.init keys.length)

end Fog.Pairwise
