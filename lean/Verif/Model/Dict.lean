/-!
# Python dictionaries

A `dict` is the list of its items in insertion order, which is its order of iteration.
-/

namespace Fog

variable {κ ν : Type _} [DecidableEq κ]

/-- A Python `dict`, in insertion order (for instance clustering/utils.py l. 76). -/
abbrev Dict (κ ν : Type _) := List (κ × ν)

namespace Dict

/-- `d.get(k)` (for instance passjoin.py l. 247). -/
def get? : Dict κ ν → κ → Option ν
  | [], _ => none
  | (k', v) :: d, k => if k' = k then some v else get? d k

/-- `d[k] = v`: keeps the place of an existing key (for instance ppjoin.py l. 337). -/
def set : Dict κ ν → κ → ν → Dict κ ν
  | [], k, v => [(k, v)]
  | (k', v') :: d, k, v => if k' = k then (k', v) :: d else (k', v') :: set d k v

/-- `d.keys()` (for instance cluster.py l. 44). -/
def keys (d : Dict κ ν) : List κ := d.map Prod.fst

/-- `d[k] = f(d[k])` on a `defaultdict` whose default is `dflt` (for instance clustering/utils.py l. 76-80). -/
def update (d : Dict κ ν) (k : κ) (dflt : ν) (f : ν → ν) : Dict κ ν := d.set k (f ((d.get? k).getD dflt))

end Dict

end Fog
