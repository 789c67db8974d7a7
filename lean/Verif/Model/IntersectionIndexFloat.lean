import Verif.Model.IntersectionIndex
import Mathlib.Data.Real.Basic

/-!
# Model of `fog/clustering/intersection_index.py` in floating point numbers

The same loops as in `Verif.Model.IntersectionIndex`, from which the index is taken: only the quotients and the radius are floats. Python
divides two integers with a single rounding `fl`.
-/

namespace Fog.IntersectionIndexFloat

open Fog.ClusteringUtils Fog.IntersectionIndex

variable {τ : Type _} [DecidableEq τ]

/-- `I / U` (intersection_index.py l. 96, 102), rounded. -/
noncomputable def divide (fl : ℝ → ℝ) (I : Nat) (U : Int) : Py ℝ :=
  if U = 0 then .error .zeroDivisionError else .ok (fl ((I : ℝ) / (U : ℝ)))

open Classical in
/-- The loop over the neighbors of item `i` (intersection_index.py l. 91-103). -/
noncomputable def neighborLoop (fl : ℝ → ℝ) (metric : Metric) (sizes : List Nat) (radius : ℝ) (i : Nat) :
    Dict Nat Nat → Py (List (Nat × Nat))
  | [] => .ok []
  | (j, I) :: neighbors => do
      let si ← (sizes[i]?).elim (.error .indexError) .ok
      let sj ← (sizes[j]?).elim (.error .indexError) .ok
      let q ← divide fl I (denominator metric si sj I)
      let rest ← neighborLoop fl metric sizes radius i neighbors
      .ok (if q ≥ radius then (i, j) :: rest else rest)

/-- `clustering()` (intersection_index.py l. 88-103). -/
noncomputable def clusteringLoop (fl : ℝ → ℝ) (metric : Metric) (sizes : List Nat) (radius : ℝ) :
    Dict Nat (Dict Nat Nat) → Py (List (Nat × Nat))
  | [] => .ok []
  | (i, neighbors) :: intersections => do
      let pairs ← neighborLoop fl metric sizes radius i neighbors
      let rest ← clusteringLoop fl metric sizes radius intersections
      .ok (pairs ++ rest)

/-- The pairs of positions found by `intersection_index` (intersection_index.py l. 62-103). -/
noncomputable def intersectionPairs (fl : ℝ → ℝ) (ord : List τ → List τ) (items : List (List τ)) (metric : Metric) (radius : ℝ) :
    Py (List (Nat × Nat)) :=
  let sizes := items.map fun item => (dedup item).length
  clusteringLoop fl metric sizes radius (indexLoop ord 0 items ([], [])).2

/-- `intersection_index(data, metric, radius, key, min_size, max_size, mode)` (intersection_index.py l. 23-113). -/
noncomputable def intersectionIndex {α : Type _} (fl : ℝ → ℝ) (ord : List τ → List τ) (data : List α) (items : List (List τ))
    (metric : Metric) (radius : ℝ) (min_size : Nat) (max_size : Option Nat) (mode : Mode) : Py (List (List α)) :=
  if metric = .unknown then .error .typeError
  else do
    let pairs ← intersectionPairs fl ord items metric radius
    let clusters ← clustersFromPairs (fun _ l => l) pairs min_size max_size mode false
    .ok (clusters.map fun cluster => cluster.filterMap fun i => data[i]?)

end Fog.IntersectionIndexFloat
