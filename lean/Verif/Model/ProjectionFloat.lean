import Verif.Model.Projection

/-!
# Model of `fog/graph/projection.py` in floating point numbers

The same functions as in `Verif.Model.Projection`, every operation on floats being followed by the rounding `fl`. Degrees and sizes of
intersections are integers, which Python adds and multiplies exactly and divides with a single rounding. Simplification: weights are
floats (Python adds and multiplies integers exactly before it takes the square root), and infinities are not modelled.
-/

namespace Fog.ProjectionFloat

open GraphUtils Projection

variable {α π : Type _} [LinearOrder α] [DecidableEq π]

/-- Python's division (projection.py l. 23, 31, 34, 37, 40). -/
noncomputable def divide (fl : ℝ → ℝ) (x y : ℝ) : Py ℝ := if y = 0 then .error .zeroDivisionError else .ok (fl (x / y))

/-- `sparse_dot_product(A, B)` (cosine.py l. 114-142). -/
noncomputable def sparseDotProduct (fl : ℝ → ℝ) (A B : Dict α ℝ) : ℝ :=
  let (A, B) := Metrics.swapped A B
  A.foldl (fun product item =>
    match Dict.get? B item.1 with | some w2 => fl (product + fl (item.2 * w2)) | none => product) 0

/-- `compute_metric(metric, vector1, vector2, norm1, norm2)` (projection.py l. 16-42). Sets are the keys of the vectors; two vectors are
never the same object. The product of two integers is rounded when `math.sqrt` takes it (l. 40). -/
noncomputable def computeMetric (fl : ℝ → ℝ) (metric : Metric) (vector1 vector2 : Dict α ℝ) (norm1 norm2 : ℝ) : Py ℝ :=
  if metric = .cosine then
    let w := sparseDotProduct fl vector1 vector2
    if w = 0 then .ok 0 else divide fl w (fl (norm1 * norm2))
  else
    let w : ℝ := Metrics.intersectionSize false (Dict.keys vector1) (Dict.keys vector2)
    if w = 0 then .ok 0
    else match metric with
      | .jaccard => divide fl w (norm1 + norm2 - w)
      | .dice => divide fl (2 * w) (norm1 + norm2)
      | .overlap => divide fl w (min norm1 norm2)
      | .binaryCosine => divide fl w (fl (Real.sqrt (fl (norm1 * norm2))))
      | _ => .ok w

/-- `s` for a node (projection.py l. 120-129). -/
noncomputable def sizeOf (fl : ℝ → ℝ) (metric : Metric) (vector : Dict α ℝ) : ℝ :=
  if metric = .cosine then vector.foldl (fun s e => fl (s + fl (e.2 * e.2))) 0 else vector.length

/-- `vectors` (projection.py l. 117-135): nodes are distinct, hence each is added at the end of the dict. -/
noncomputable def vectorsOf (fl : ℝ → ℝ) (metric : Metric) (bipartite : Graph α (Option ℝ)) (nodes : List α) : Dict α (ℝ × Dict α ℝ) :=
  nodes.filterMap fun node =>
    let neighbors := vectorOf bipartite node
    let s := sizeOf fl metric neighbors
    if s > 0 then
      if metric = .cosine then some (node, fl (Real.sqrt s), neighbors) else some (node, s, neighbors)
    else none

/-- The body of the loops of the first version (projection.py l. 149-176). -/
noncomputable def topologyStep (fl : ℝ → ℝ) (metric : Metric) (threshold : Option ℝ) (vectors : Dict α (ℝ × Dict α ℝ)) (n1 : α)
    (norm1 : ℝ) (vector1 : Dict α ℝ) (monopartite : Graph α ℝ) (n2 : α) : Py (Graph α ℝ) :=
  if n1 ≥ n2 then .ok monopartite
  else if hasEdge monopartite n1 n2 then .ok monopartite
  else match Dict.get? vectors n2 with
    | none => .error .keyError
    | some (norm2, vector2) => do
        let w ← computeMetric fl metric vector1 vector2 norm1 norm2
        if w = 0 then pure monopartite
        else if ∃ t, threshold = some t ∧ w < t then pure monopartite
        else pure (addEdge monopartite n1 n2 w)

/-- The first version (projection.py l. 138-178). -/
noncomputable def topology (fl : ℝ → ℝ) (metric : Metric) (threshold : Option ℝ) (bipartite : Graph α (Option ℝ))
    (vectors : Dict α (ℝ × Dict α ℝ)) (monopartite : Graph α ℝ) : Py (Graph α ℝ) :=
  vectors.foldlM (fun monopartite item =>
    (neighbors bipartite item.1).foldlM (fun monopartite np =>
      (neighbors bipartite np).foldlM (topologyStep fl metric threshold vectors item.1 item.2.1 item.2.2) monopartite)
      monopartite) monopartite

/-- The body of the loops of the second version (projection.py l. 186-195). -/
noncomputable def quadraticStep (fl : ℝ → ℝ) (metric : Metric) (threshold : Option ℝ) (n1 : α) (norm1 : ℝ) (vector1 : Dict α ℝ)
    (monopartite : Graph α ℝ) (item : α × ℝ × Dict α ℝ) : Py (Graph α ℝ) := do
  let w ← computeMetric fl metric vector1 item.2.2 norm1 item.2.1
  if w = 0 then pure monopartite
  else if ∀ t, threshold = some t → w ≥ t then pure (addEdge monopartite n1 item.1 w)
  else pure monopartite

/-- The second version (projection.py l. 181-197): each item with those after it. -/
noncomputable def quadratic (fl : ℝ → ℝ) (metric : Metric) (threshold : Option ℝ) :
    Dict α (ℝ × Dict α ℝ) → Graph α ℝ → Py (Graph α ℝ)
  | [], monopartite => .ok monopartite
  | (n1, norm1, vector1) :: rest, monopartite => do
      let monopartite ← rest.foldlM (quadraticStep fl metric threshold n1 norm1 vector1) monopartite
      quadratic fl metric threshold rest monopartite

/-- `monopartite_projection(bipartite, project, part, weight, metric, threshold, use_topology, bipartition_check)` (projection.py l.
46-201). -/
noncomputable def monopartiteProjection (fl : ℝ → ℝ) (bipartite : Graph α (Option ℝ)) (project : π) (part : α → Option π)
    (metric : Option String) (threshold : Option ℝ) (use_topology bipartition_check : Bool) : Py (Graph α ℝ) := do
  let metric ← Metric.ofName metric
  if bipartition_check then
    checkParts part ((Sparsification.edgesFrom bipartite []).map fun e => (e.1, e.2.1)) []
  let nodes ← projected part project (Dict.keys bipartite)
  let monopartite : Graph α ℝ := nodes.map fun node => (node, [])
  let vectors := vectorsOf fl metric bipartite nodes
  if use_topology then topology fl metric threshold bipartite vectors monopartite
  else quadratic fl metric threshold vectors monopartite

end Fog.ProjectionFloat
