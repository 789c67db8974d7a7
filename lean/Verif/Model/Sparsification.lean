import Verif.Model.GraphUtils
import Mathlib.Algebra.Field.Defs
import Mathlib.Order.Defs.LinearOrder

/-!
# Model of `fog/graph/sparsification.py`

Weights and thresholds are in an ordered field instead of floats, and all edges have a weight.
-/

namespace Fog.Sparsification

open GraphUtils

variable {α K : Type _} [DecidableEq α] [Field K] [LinearOrder K]

/-- The `while` loop (sparsification.py l. 58-65), for at most `fuel` turns: `none` if it did not stop. -/
def loop (graph : Graph α K) (learning_rate : K) (max_drifter_size : Nat) : Nat → K → Py (Option K)
  | 0, _ => .ok none
  | fuel + 1, threshold =>
      let best_threshold := threshold
      let threshold := threshold + learning_rate
      match secondLargest graph (some fun _ _ w => decide (w ≥ threshold)) with
      | .error e => .error e
      | .ok none => loop graph learning_rate max_drifter_size fuel threshold
      | .ok (some c) =>
          if c ≥ max_drifter_size then .ok (some best_threshold)
          else loop graph learning_rate max_drifter_size fuel threshold

/-- `graph.edges(data=weight)` (sparsification.py l. 69): each edge once, from its first node. -/
def edgesFrom {ω : Type _} : List (α × Dict α ω) → List α → List (α × α × ω)
  | [], _ => []
  | (n, nbrs) :: rest, seen => (nbrs.filter fun e => e.1 ∉ seen).map (fun e => (n, e.1, e.2)) ++ edgesFrom rest (n :: seen)

/-- `del d[k]` on an existing key (sparsification.py l. 74). -/
def erase {κ ν : Type _} [DecidableEq κ] (d : Dict κ ν) (k : κ) : Dict κ ν := d.filter fun p => p.1 ≠ k

/-- `graph.remove_edge(u, v)` (sparsification.py l. 74). An edge which does not exist raises. -/
def removeEdge {ω : Type _} (graph : Graph α ω) (u v : α) : Py (Graph α ω) :=
  match graph.get? u with
  | none => .error .keyError
  | some nbrs =>
      if v ∉ Dict.keys nbrs then .error .keyError
      else
        let graph := Dict.set graph u (erase nbrs v)
        if u = v then .ok graph
        else match Dict.get? graph v with
          | none => .error .keyError
          | some nbrs => if u ∉ Dict.keys nbrs then .error .keyError else .ok (Dict.set graph v (erase nbrs u))

/-- `floatsam_sparsification(graph, starting_treshold, learning_rate, max_drifter_size, remove_edges)` (sparsification.py l. 11-76), for
at most `fuel` turns of the loop. Returns the threshold and the graph. `log n` is `int(math.log(n))`. -/
def floatsam (log : Nat → Nat) (fuel : Nat) (graph : Graph α K) (starting_treshold learning_rate : K)
    (max_drifter_size : Option Nat) (remove_edges : Bool) : Py (Option (K × Graph α K)) :=
  if graph.all fun p => p.2.isEmpty then .ok (some (starting_treshold, graph))
  else
    let max_drifter_size := max_drifter_size.getD (log graph.length)
    match loop graph learning_rate max_drifter_size fuel starting_treshold with
    | .error e => .error e
    | .ok none => .ok none
    | .ok (some best_threshold) =>
        if remove_edges then do
          let to_remove := ((edgesFrom graph []).filter fun e => decide (e.2.2 < best_threshold)).map fun e => (e.1, e.2.1)
          let graph ← to_remove.foldlM (fun g e => removeEdge g e.1 e.2) graph
          pure (some (best_threshold, graph))
        else pure (some (best_threshold, graph))

end Fog.Sparsification
