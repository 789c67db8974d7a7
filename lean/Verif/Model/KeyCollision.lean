import Verif.Model.ClusteringUtils

/-!
# Model of `fog/clustering/key_collision.py`

`truthy` tells whether a key is true in a condition. A key function gives one key, or, for `keys`, the list of the keys
that are iterated upon; `none` stands for `None` and for any other false value.
-/

namespace Fog.KeyCollision

open Fog.ClusteringUtils

variable {α κ : Type _} [DecidableEq κ]

/-- `buckets[k].append(item)` for each key and item in turn, on a `defaultdict(list)` (key_collision.py l. 55-75,
blocking.py l. 106-115). -/
def bucketsOf (entries : List (κ × α)) : Dict κ (List α) :=
  entries.foldl (fun buckets e => buckets.update e.1 [] fun bucket => bucket ++ [e.2]) []

/-- What is appended to the buckets when `key` is given (key_collision.py l. 58-63). -/
def keyEntries (truthy : κ → Bool) (key : α → κ) (data : List α) : List (κ × α) :=
  data.flatMap fun item => if truthy (key item) then [(key item, item)] else []

/-- What is appended to the buckets when `keys` is given (key_collision.py l. 66-75). -/
def keysEntries (truthy : κ → Bool) (keys : α → Option (List κ)) (data : List α) : List (κ × α) :=
  data.flatMap fun item =>
    match keys item with
    | none => []
    | some ks => ks.flatMap fun k => if truthy k then [(k, item)] else []

/-- `key_collision(data, key, keys, min_size, max_size, merge)` (key_collision.py l. 15-86). When both functions are
given, `key` is used; when none is given, there are no buckets. -/
def keyCollision [DecidableEq α] (ord : α → List α → List α) (truthy : κ → Bool) (data : List α)
    (key : Option (α → κ)) (keys : Option (α → Option (List κ))) (min_size : Nat) (max_size : Option Nat)
    (merge : Bool) : Py (List (List α)) :=
  let buckets := bucketsOf (
    match key, keys with
    | some key, _ => keyEntries truthy key data
    | none, some keys => keysEntries truthy keys data
    | none, none => [])
  if merge && key.isNone then
    clustersFromBuckets ord (buckets.map Prod.snd) 2 none .connectedComponents none true
  else
    .ok ((buckets.map Prod.snd).filter fun cluster => sizeOk min_size max_size cluster.length)

end Fog.KeyCollision
