import Verif.Model.Sparsification
import Verif.Model.Metrics

/-!
# Model of `fog/graph/projection.py`

Weights are real numbers instead of floats. The data of an edge is its weight, if it has one. Of the attributes of nodes only the
part is modelled. Nodes can all be compared.
-/

namespace Fog.Projection

open GraphUtils

variable {α π : Type _} [LinearOrder α] [DecidableEq π]

/-- The metrics (projection.py l. 13), and `None`. -/
inductive Metric
  | cosine
  | jaccard
  | overlap
  | dice
  | binaryCosine
  | shared
  deriving DecidableEq

/-- The test of the metric (projection.py l. 88-89). -/
def Metric.ofName : Option String → Py Metric
  | none => .ok .shared
  | some "cosine" => .ok .cosine
  | some "jaccard" => .ok .jaccard
  | some "overlap" => .ok .overlap
  | some "dice" => .ok .dice
  | some "binary_cosine" => .ok .binaryCosine
  | some _ => .error .typeError

/-- Python's division (projection.py l. 23, 31, 34, 37, 40). -/
noncomputable def divide (x y : ℝ) : Py ℝ := if y = 0 then .error .zeroDivisionError else .ok (x / y)

/-- `compute_metric(metric, vector1, vector2, norm1, norm2)` (projection.py l. 16-42). Sets are the keys of the vectors; two vectors are
never the same object. -/
noncomputable def computeMetric (metric : Metric) (vector1 vector2 : Dict α ℝ) (norm1 norm2 : ℝ) : Py ℝ :=
  if metric = .cosine then
    let w := Metrics.sparseDotProduct vector1 vector2
    if w = 0 then .ok 0 else divide w (norm1 * norm2)
  else
    let w : ℝ := Metrics.intersectionSize false (Dict.keys vector1) (Dict.keys vector2)
    if w = 0 then .ok 0
    else match metric with
      | .jaccard => divide w (norm1 + norm2 - w)
      | .dice => divide (2 * w) (norm1 + norm2)
      | .overlap => divide w (min norm1 norm2)
      | .binaryCosine => divide w (Real.sqrt (norm1 * norm2))
      | _ => .ok w

/-- The check of the partition (projection.py l. 91-102). -/
def checkParts (part : α → Option π) : List (α × α) → List π → Py Unit
  | [], _ => .ok ()
  | (n1, n2) :: edges, parts =>
      match part n1, part n2 with
      | some p1, some p2 =>
          let parts := if p1 ∈ parts then parts else p1 :: parts
          let parts := if p2 ∈ parts then parts else p2 :: parts
          if p1 = p2 ∨ parts.length > 2 then .error .typeError else checkParts part edges parts
      | _, _ => .error .keyError

/-- The nodes of the projection (projection.py l. 107-111). -/
def projected (part : α → Option π) (project : π) : List α → Py (List α)
  | [] => .ok []
  | node :: nodes => do
      match part node with
      | none => .error .keyError
      | some p =>
          let rest ← projected part project nodes
          if p ≠ project then pure rest else pure (node :: rest)

/-- `neighbors` for a node (projection.py l. 121-129): the weight defaults to one. -/
def vectorOf (bipartite : Graph α (Option ℝ)) (node : α) : Dict α ℝ :=
  ((Dict.get? bipartite node).getD []).map fun e => (e.1, e.2.getD 1)

/-- `s` for a node (projection.py l. 120-129). -/
noncomputable def sizeOf (metric : Metric) (vector : Dict α ℝ) : ℝ :=
  if metric = .cosine then (vector.map fun e => e.2 * e.2).sum else vector.length

/-- `vectors` (projection.py l. 117-135): nodes are distinct, hence each is added at the end of the dict. -/
noncomputable def vectorsOf (metric : Metric) (bipartite : Graph α (Option ℝ)) (nodes : List α) : Dict α (ℝ × Dict α ℝ) :=
  nodes.filterMap fun node =>
    let neighbors := vectorOf bipartite node
    let s := sizeOf metric neighbors
    if s > 0 then
      if metric = .cosine then some (node, Real.sqrt s, neighbors) else some (node, s, neighbors)
    else none

/-- `graph.has_edge(u, v)` (projection.py l. 162). -/
def hasEdge {ω : Type _} (graph : Graph α ω) (u v : α) : Bool := (Dict.get? ((Dict.get? graph u).getD []) v).isSome

/-- `graph.add_edge(u, v, **{weight: w})`, for two nodes of the graph (projection.py l. 176, 195). -/
def addEdge {ω : Type _} (graph : Graph α ω) (u v : α) (w : ω) : Graph α ω :=
  let graph := Dict.set graph u (Dict.set ((Dict.get? graph u).getD []) v w)
  Dict.set graph v (Dict.set ((Dict.get? graph v).getD []) u w)

/-- The body of the loops of the first version (projection.py l. 149-176). -/
noncomputable def topologyStep (metric : Metric) (threshold : Option ℝ) (vectors : Dict α (ℝ × Dict α ℝ)) (n1 : α) (norm1 : ℝ)
    (vector1 : Dict α ℝ) (monopartite : Graph α ℝ) (n2 : α) : Py (Graph α ℝ) :=
  if n1 ≥ n2 then .ok monopartite
  else if hasEdge monopartite n1 n2 then .ok monopartite
  else match Dict.get? vectors n2 with
    | none => .error .keyError
    | some (norm2, vector2) => do
        let w ← computeMetric metric vector1 vector2 norm1 norm2
        if w = 0 then pure monopartite
        else if ∃ t, threshold = some t ∧ w < t then pure monopartite
        else pure (addEdge monopartite n1 n2 w)

/-- `bipartite.neighbors(n)` (projection.py l. 141-142). -/
def neighbors (bipartite : Graph α (Option ℝ)) (n : α) : List α := Dict.keys ((Dict.get? bipartite n).getD [])

/-- The first version (projection.py l. 138-178). -/
noncomputable def topology (metric : Metric) (threshold : Option ℝ) (bipartite : Graph α (Option ℝ))
    (vectors : Dict α (ℝ × Dict α ℝ)) (monopartite : Graph α ℝ) : Py (Graph α ℝ) :=
  vectors.foldlM (fun monopartite item =>
    (neighbors bipartite item.1).foldlM (fun monopartite np =>
      (neighbors bipartite np).foldlM (topologyStep metric threshold vectors item.1 item.2.1 item.2.2) monopartite)
      monopartite) monopartite

/-- The body of the loops of the second version (projection.py l. 186-195). -/
noncomputable def quadraticStep (metric : Metric) (threshold : Option ℝ) (n1 : α) (norm1 : ℝ) (vector1 : Dict α ℝ)
    (monopartite : Graph α ℝ) (item : α × ℝ × Dict α ℝ) : Py (Graph α ℝ) := do
  let w ← computeMetric metric vector1 item.2.2 norm1 item.2.1
  if w = 0 then pure monopartite
  else if ∀ t, threshold = some t → w ≥ t then pure (addEdge monopartite n1 item.1 w)
  else pure monopartite

/-- The second version (projection.py l. 181-197): each item with those after it. -/
noncomputable def quadratic (metric : Metric) (threshold : Option ℝ) : Dict α (ℝ × Dict α ℝ) → Graph α ℝ → Py (Graph α ℝ)
  | [], monopartite => .ok monopartite
  | (n1, norm1, vector1) :: rest, monopartite => do
      let monopartite ← rest.foldlM (quadraticStep metric threshold n1 norm1 vector1) monopartite
      quadratic metric threshold rest monopartite

/-- `monopartite_projection(bipartite, project, part, weight, metric, threshold, use_topology, bipartition_check)` (projection.py l.
46-201). -/
noncomputable def monopartiteProjection (bipartite : Graph α (Option ℝ)) (project : π) (part : α → Option π) (metric : Option String)
    (threshold : Option ℝ) (use_topology bipartition_check : Bool) : Py (Graph α ℝ) := do
  let metric ← Metric.ofName metric
  if bipartition_check then
    checkParts part ((Sparsification.edgesFrom bipartite []).map fun e => (e.1, e.2.1)) []
  let nodes ← projected part project (Dict.keys bipartite)
  let monopartite : Graph α ℝ := nodes.map fun node => (node, [])
  let vectors := vectorsOf metric bipartite nodes
  if use_topology then topology metric threshold bipartite vectors monopartite
  else quadratic metric threshold vectors monopartite

end Fog.Projection
