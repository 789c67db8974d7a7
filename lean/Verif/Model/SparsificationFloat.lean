import Verif.Model.Sparsification
import Mathlib.Data.Real.Archimedean
import Mathlib.Algebra.Order.Floor.Ring

/-!
# Model of `fog/graph/sparsification.py` in double precision

`fl` is the rounding done after each operation on floats, as in `Verif/Model/MetricsFloat.lean`. Thresholds and the learning rate are
doubles; weights are numbers, since they are only compared. The rest is that of `Verif/Model/Sparsification.lean`.
-/

namespace Fog.SparsificationFloat

open GraphUtils Sparsification

variable {α : Type _} [DecidableEq α]

/-- The `while` loop (sparsification.py l. 58-65), for at most `fuel` turns: `none` if it did not stop. -/
noncomputable def loop (fl : ℝ → ℝ) (graph : Graph α ℝ) (learning_rate : ℝ) (max_drifter_size : Nat) : Nat → ℝ → Py (Option ℝ)
  | 0, _ => .ok none
  | fuel + 1, threshold =>
      let best_threshold := threshold
      let threshold := fl (threshold + learning_rate)
      match secondLargest graph (some fun _ _ w => decide (w ≥ threshold)) with
      | .error e => .error e
      | .ok none => loop fl graph learning_rate max_drifter_size fuel threshold
      | .ok (some c) =>
          if c ≥ max_drifter_size then .ok (some best_threshold)
          else loop fl graph learning_rate max_drifter_size fuel threshold

/-- `floatsam_sparsification(graph, starting_treshold, learning_rate, max_drifter_size, remove_edges)` (sparsification.py l. 11-76), for
at most `fuel` turns of the loop. Returns the threshold and the graph. `log n` is `int(math.log(n))`. -/
noncomputable def floatsam (fl : ℝ → ℝ) (log : Nat → Nat) (fuel : Nat) (graph : Graph α ℝ) (starting_treshold learning_rate : ℝ)
    (max_drifter_size : Option Nat) (remove_edges : Bool) : Py (Option (ℝ × Graph α ℝ)) :=
  if graph.all fun p => p.2.isEmpty then .ok (some (starting_treshold, graph))
  else
    let max_drifter_size := max_drifter_size.getD (log graph.length)
    match loop fl graph learning_rate max_drifter_size fuel starting_treshold with
    | .error e => .error e
    | .ok none => .ok none
    | .ok (some best_threshold) =>
        if remove_edges then do
          let to_remove := ((edgesFrom graph []).filter fun e => decide (e.2.2 < best_threshold)).map fun e => (e.1, e.2.1)
          let graph ← to_remove.foldlM (fun g e => removeEdge g e.1 e.2) graph
          pure (some (best_threshold, graph))
        else pure (some (best_threshold, graph))

/-- `int(math.log(len(graph)))` (sparsification.py l. 56), `math.log` being the function `ln`: the default size, for graphs with nodes. -/
noncomputable def defaultSize (fl ln : ℝ → ℝ) (n : Nat) : Nat := ⌊ln (fl n)⌋.toNat

end Fog.SparsificationFloat
