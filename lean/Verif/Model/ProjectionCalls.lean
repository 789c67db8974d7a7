import Verif.Model.Projection

/-!
# Model of `fog/graph/projection.py`: the metrics it computes

The function of `Verif.Model.Projection`, which also lists the pairs of nodes whose metric is computed, in order.
-/

namespace Fog.Projection

open GraphUtils

variable {α π : Type _} [LinearOrder α] [DecidableEq π]

/-- The body of the loops of the first version (projection.py l. 149-176), with the calls to `compute_metric`. -/
noncomputable def topologyStepCalls (metric : Metric) (threshold : Option ℝ) (vectors : Dict α (ℝ × Dict α ℝ)) (n1 : α) (norm1 : ℝ)
    (vector1 : Dict α ℝ) (s : Graph α ℝ × List (α × α)) (n2 : α) : Py (Graph α ℝ × List (α × α)) :=
  if n1 ≥ n2 then .ok s
  else if hasEdge s.1 n1 n2 then .ok s
  else match Dict.get? vectors n2 with
    | none => .error .keyError
    | some (norm2, vector2) => do
        let w ← computeMetric metric vector1 vector2 norm1 norm2
        let calls := s.2 ++ [(n1, n2)]
        if w = 0 then pure (s.1, calls)
        else if ∃ t, threshold = some t ∧ w < t then pure (s.1, calls)
        else pure (addEdge s.1 n1 n2 w, calls)

/-- The first version (projection.py l. 138-178), with the calls to `compute_metric`. -/
noncomputable def topologyCalls (metric : Metric) (threshold : Option ℝ) (bipartite : Graph α (Option ℝ))
    (vectors : Dict α (ℝ × Dict α ℝ)) (s : Graph α ℝ × List (α × α)) : Py (Graph α ℝ × List (α × α)) :=
  vectors.foldlM (fun s item =>
    (neighbors bipartite item.1).foldlM (fun s np =>
      (neighbors bipartite np).foldlM (topologyStepCalls metric threshold vectors item.1 item.2.1 item.2.2) s) s) s

/-- The body of the loops of the second version (projection.py l. 186-195), with the calls to `compute_metric`. -/
noncomputable def quadraticStepCalls (metric : Metric) (threshold : Option ℝ) (n1 : α) (norm1 : ℝ) (vector1 : Dict α ℝ)
    (s : Graph α ℝ × List (α × α)) (item : α × ℝ × Dict α ℝ) : Py (Graph α ℝ × List (α × α)) := do
  let w ← computeMetric metric vector1 item.2.2 norm1 item.2.1
  let calls := s.2 ++ [(n1, item.1)]
  if w = 0 then pure (s.1, calls)
  else if ∀ t, threshold = some t → w ≥ t then pure (addEdge s.1 n1 item.1 w, calls)
  else pure (s.1, calls)

/-- The second version (projection.py l. 181-197), with the calls to `compute_metric`. -/
noncomputable def quadraticCalls (metric : Metric) (threshold : Option ℝ) :
    Dict α (ℝ × Dict α ℝ) → Graph α ℝ × List (α × α) → Py (Graph α ℝ × List (α × α))
  | [], s => .ok s
  | (n1, norm1, vector1) :: rest, s => do
      let s ← rest.foldlM (quadraticStepCalls metric threshold n1 norm1 vector1) s
      quadraticCalls metric threshold rest s

/-- `monopartite_projection(...)` (projection.py l. 46-201), with the calls to `compute_metric`. -/
noncomputable def monopartiteProjectionCalls (bipartite : Graph α (Option ℝ)) (project : π) (part : α → Option π)
    (metric : Option String) (threshold : Option ℝ) (use_topology bipartition_check : Bool) : Py (Graph α ℝ × List (α × α)) := do
  let metric ← Metric.ofName metric
  if bipartition_check then
    checkParts part ((Sparsification.edgesFrom bipartite []).map fun e => (e.1, e.2.1)) []
  let nodes ← projected part project (Dict.keys bipartite)
  let monopartite : Graph α ℝ := nodes.map fun node => (node, [])
  let vectors := vectorsOf metric bipartite nodes
  if use_topology then topologyCalls metric threshold bipartite vectors (monopartite, [])
  else quadraticCalls metric threshold vectors (monopartite, [])

end Fog.Projection
