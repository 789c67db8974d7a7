import Verif.Model.ClusteringUtils

/-!
# Model of `fog/clustering/vp_tree.py`

`VPTree` comes from the `phylactery` library: what its `neighbors_in_radius` returns is a parameter.
-/

namespace Fog.VpTree

variable {α : Type _}

/-- The loop of `vp_tree(data, distance, radius, min_size, max_size)` (vp_tree.py l. 49-63) over the remaining items.
`ball item` are the items of `tree.neighbors_in_radius(item, radius)`; an infinite `max_size` is `none`. -/
def loop [DecidableEq α] (ball : α → List α) (min_size : Nat) (max_size : Option Nat) : (visited : List α) → List α → List (List α)
  | _, [] => []
  | visited, item :: data =>
      if item ∈ visited then loop ball min_size max_size visited data
      else
        let cluster := ball item
        if cluster.length < min_size ∨ (∃ m ∈ max_size, m < cluster.length) then loop ball min_size max_size visited data
        else cluster :: loop ball min_size max_size (visited ++ cluster) data

/-- `vp_tree(data, distance, radius, min_size, max_size)` (vp_tree.py l. 17-63). `neighbors S item` are the items of
`VPTree(S, distance).neighbors_in_radius(item, radius)`. -/
def vpTree [DecidableEq α] (neighbors : List α → α → List α) (data : List α) (min_size : Nat) (max_size : Option Nat) :
    List (List α) :=
  loop (neighbors data) min_size max_size [] data

end Fog.VpTree
