import Verif.Model.KeyCollision

/-!
# Model of `fog/clustering/key_collision.py`: the pairs which are merged

With `keys` and `merge`, the pairs of items which `clusters_from_buckets` makes from the buckets and reads one by one.
-/

namespace Fog.KeyCollision

open Fog.ClusteringUtils

variable {α κ : Type _} [DecidableEq κ]

/-- The pairs given one by one to `clusters_from_pairs` by `key_collision(data, keys=keys)` (key_collision.py l. 66-79, clustering/utils.py l. 131-145 and
172-177). -/
def mergedPairs (truthy : κ → Bool) (keys : α → Option (List κ)) (data : List α) : List (α × α) :=
  pairsFromBuckets ((bucketsOf (keysEntries truthy keys data)).map Prod.snd)

end Fog.KeyCollision
