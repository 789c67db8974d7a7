import Verif.Model.VpTree

/-!
# Model of `fog/clustering/vp_tree.py`: the queries of the tree

The loop of `Verif.Model.VpTree`, listing the items for which the tree is queried.
-/

namespace Fog.VpTree

variable {α : Type _}

/-- The items given to `tree.neighbors_in_radius` (vp_tree.py l. 55) by the loop over the remaining items (l. 51-63). -/
def loopQueries [DecidableEq α] (ball : α → List α) (min_size : Nat) (max_size : Option Nat) : (visited : List α) → List α → List α
  | _, [] => []
  | visited, item :: data =>
      if item ∈ visited then loopQueries ball min_size max_size visited data
      else
        let cluster := ball item
        item :: (if cluster.length < min_size ∨ (∃ m ∈ max_size, m < cluster.length) then loopQueries ball min_size max_size visited data
          else loopQueries ball min_size max_size (visited ++ cluster) data)

end Fog.VpTree
