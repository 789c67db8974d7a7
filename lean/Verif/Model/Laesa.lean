import Verif.Model.ClusteringUtils
import Mathlib.Algebra.Field.Defs
import Mathlib.Algebra.Order.Group.Abs
import Mathlib.Data.Nat.Log

/-!
# Model of `fog/clustering/laesa.py`

Distances are elements of an ordered field: simplified from floats. The random generator is the index it draws; the order in
which the set of pivots is listed is a parameter. The number which is printed is in `Verif.Model.LaesaCalls`.
-/

namespace Fog.Laesa

open Fog.ClusteringUtils

variable {α K : Type _} [Field K] [LinearOrder K]

/-- One turn over the items in `pivot_selection` (laesa.py l. 50-59). `j` is the index of the first of the items, `A` their
cells, `best` is `(b_prime, maximum)`. -/
def selTurn (distance : α → α → K) (p : List Nat) (pivot : α) : Nat → List α → List K → Nat × K → List K × (Nat × K)
  | j, item :: data, a :: A, best =>
      if j ∈ p then
        let (A, best) := selTurn distance p pivot (j + 1) data A best
        (a :: A, best)
      else
        let a := a + distance pivot item
        let (A, best) := selTurn distance p pivot (j + 1) data A (if best.2 < a then (j, a) else best)
        (a :: A, best)
  | _, _, A, best => (A, best)

/-- `p.add(b)` (laesa.py l. 61). -/
def setAdd (p : List Nat) (b : Nat) : List Nat := if b ∈ p then p else p ++ [b]

/-- "Finding pivots" in `pivot_selection` (laesa.py l. 43-61), `turns` turns remaining. -/
def findPivots (distance : α → α → K) (data : List α) : (turns : Nat) → (p : List Nat) → (A : List K) → (b_prime : Nat) →
    Py (List Nat)
  | 0, p, _, _ => .ok p
  | turns + 1, p, A, b_prime =>
      match data[b_prime]? with
      | none => .error .indexError
      | some pivot =>
          let (A, best) := selTurn distance p pivot 0 data A (b_prime, 0)
          findPivots distance data turns (setAdd p best.1) A best.1

/-- `pivot_selection(rng, data, pivots, distance)` (laesa.py l. 32-72). `start` is what `rng.randint` draws, `ord` the order
of `list(p)`. -/
def pivotSelection (start : Nat) (ord : List Nat → List Nat) (data : List α) (pivots : Nat) (distance : α → α → K) :
    Py (List Nat × List (List K)) :=
  if data.length = 0 then .error .valueError
  else do
    let p ← findPivots distance data pivots [] (List.replicate data.length 0) start
    let p := ord p
    let D ← (List.range pivots).mapM fun i =>
      match p[i]? with
      | none => .error .indexError
      | some b =>
          match data[b]? with
          | none => .error .indexError
          | some pivot => .ok (data.map (distance pivot))
    pure (p, D)

/-- `d_star` for the item `x` (laesa.py l. 120-127): `none` is infinity. `pivot_selection` has read `data[p[j]]` for all `j`:
none is out of range. -/
def dStar (distance : α → α → K) (data : List α) (p : List Nat) (pivots : Nat) (x : α) : Option K :=
  ((p.take pivots).filterMap fun b => data[b]?).foldl
    (fun d_star pivot =>
      let d := distance pivot x
      match d_star with
      | none => some d
      | some s => if d < s then some d else some s)
    none

/-- `compute` (laesa.py l. 131-138): whether the distance between the items `i` and `k` has to be computed. -/
def compute (D : List (List K)) (d_star : Option K) (i k : Nat) : Bool :=
  D.all fun row =>
    let delta := |row.getD i 0 - row.getD k 0|
    match d_star with
    | none => true
    | some s => decide (¬ s < delta)

/-- `clustering()` in `laesa` (laesa.py l. 116-145). -/
def clustering (distance : α → α → K) (radius : K) (data : List α) (pivots : Nat) (p : List Nat) (D : List (List K)) :
    List (α × α) :=
  data.zipIdx.flatMap fun (x, i) =>
    let d_star := dStar distance data p pivots x
    (data.zipIdx.drop (i + 1)).filterMap fun (y, k) =>
      if compute D d_star i k then (if distance x y ≤ radius then some (x, y) else none) else none

/-- `laesa(data, distance, radius, pivots, min_size, max_size, seed, mode)` (laesa.py l. 76-154). `pivots` is `none` for
`None`; `math.log2` is exact (simplified), and raises when there are no items. -/
def laesa [DecidableEq α] (start : Nat) (ord : List Nat → List Nat) (gord : α → List α → List α) (data : List α)
    (distance : α → α → K) (radius : K) (pivots : Option Nat) (min_size : Nat) (max_size : Option Nat) (mode : Mode) :
    Py (List (List α)) := do
  let pivots ← match pivots with
    | some pivots => pure pivots
    | none => if data.length = 0 then .error .valueError else pure (Nat.clog 2 data.length)
  let (p, D) ← pivotSelection start ord data pivots distance
  clustersFromPairs gord (clustering distance radius data pivots p D) min_size max_size mode false

end Fog.Laesa
