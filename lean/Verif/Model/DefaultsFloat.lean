import Verif.Model.NnDescent
import Verif.Model.Laesa
import Verif.Model.Fagin
import Mathlib.Analysis.Real.Sqrt
import Mathlib.Algebra.Order.Floor.Ring

/-!
# Models of the numbers computed from the number of items, in double precision

As in `Verif.Model.NnDescent`, `Verif.Model.Laesa` and `Verif.Model.Fagin`, but `math.log2` is the function `lg` and `math.sqrt` is rounded by `fl`.
A number of items is converted to the nearest double.
-/

namespace Fog.NnDescentFloat

open NnDescent ClusteringUtils

variable {α K : Type} [LinearOrder K] (fl lg : ℝ → ℝ)

/-- `k` when it is not given (nn_descent.py l. 112-114, 277-279): `int(math.log2(N))`, which is not negative. -/
noncomputable def chooseK (N : Nat) : Option Nat → Py Nat
  | some k => .ok k
  | none => if N = 0 then .error .valueError else .ok ⌊lg (fl N)⌋.toNat

/-- `nn_descent(data, radius, similarity, k=k, ...)` (nn_descent.py l. 60-168). -/
noncomputable def nnDescent (heapq : Heapq (Neighbor K Unit)) (setOrd : List Nat → List Nat) (ord : Nat → List Nat → List Nat) (draws : Nat → Nat)
    (V : List α) (radius : K) (similarity : α → α → K) (k : Option Nat) (min_size : Nat) (max_size : Option Nat) (mode : Mode)
    (fuel : Nat) : Py (Option (List (List α))) := do
  let k ← chooseK fl lg V.length k
  match ← initial heapq setOrd draws V similarity () k fuel (List.range V.length) 0 with
  | none => pure none
  | some (B, _) =>
      match ← descend heapq setOrd V similarity fuel B with
      | none => pure none
      | some B => do
          let clusters ← finish ord V radius min_size max_size mode B
          pure (some clusters)

/-- `rhoK = int(rho * k)` (nn_descent.py l. 282), for `rho` not negative. -/
noncomputable def rhoK (rho : ℝ) (k : Nat) : Nat := ⌊fl (rho * fl k)⌋.toNat

open Classical in
/-- `c >= delta * NK` (nn_descent.py l. 292): an integer is compared with a float without being rounded. -/
noncomputable def goesOn (delta : ℝ) (NK c : Nat) : Bool := decide ((c : ℝ) ≥ fl (delta * fl NK))

/-- `nn_descent_full(data, radius, similarity, k=k, ..., rho, delta)` (nn_descent.py l. 218-374), where `rho` is not negative. -/
noncomputable def nnDescentFull (heapq : Heapq (Neighbor K Bool)) (setOrd : List Nat → List Nat) (ord : Nat → List Nat → List Nat)
    (draws : Nat → Nat) (V : List α) (radius : K) (similarity : α → α → K) (k : Option Nat) (min_size : Nat) (max_size : Option Nat)
    (mode : Mode) (rho delta : ℝ) (fuel : Nat) : Py (Option (List (List α))) := do
  let k ← chooseK fl lg V.length k
  let NK := V.length * k
  match ← initial heapq setOrd draws V similarity true k fuel (List.range V.length) 0 with
  | none => pure none
  | some (B, t) =>
      match ← descendFull heapq setOrd draws V similarity (rhoK fl rho k) (goesOn fl delta NK) fuel NK B t with
      | none => pure none
      | some B => do
          let clusters ← finish ord V radius min_size max_size mode B
          pure (some clusters)

end Fog.NnDescentFloat

namespace Fog.LaesaFloat

open Laesa ClusteringUtils

variable {α K : Type _} [Field K] [LinearOrder K] (fl lg : ℝ → ℝ)

/-- The number of pivots (laesa.py l. 109-110): `math.ceil(math.log2(len(data)))`, which is not negative, when it is not given. -/
noncomputable def choosePivots (n : Nat) : Option Nat → Py Nat
  | some pivots => .ok pivots
  | none => if n = 0 then .error .valueError else .ok ⌈lg (fl n)⌉.toNat

/-- `laesa(data, distance, radius, pivots, min_size, max_size, seed, mode)` (laesa.py l. 76-154). The distances are those of `Verif.Model.Laesa`. -/
noncomputable def laesa [DecidableEq α] (start : Nat) (ord : List Nat → List Nat) (gord : α → List α → List α) (data : List α)
    (distance : α → α → K) (radius : K) (pivots : Option Nat) (min_size : Nat) (max_size : Option Nat) (mode : Mode) :
    Py (List (List α)) := do
  let pivots ← choosePivots fl lg data.length pivots
  let (p, D) ← pivotSelection start ord data pivots distance
  clustersFromPairs gord (clustering distance radius data pivots p D) min_size max_size mode false

end Fog.LaesaFloat

namespace Fog.FaginFloat

open Fagin

variable {κ F : Type} [DecidableEq κ] [LinearOrder F] [Sub F] [One F] (fl : ℝ → ℝ) (similarity : Nat → Nat → Py F)

/-- `leaders_count` (fagin.py l. 158): `int(math.sqrt(len(vectors)))`. -/
noncomputable def leadersCount (n : Nat) : Nat := ⌊fl (Real.sqrt (fl n))⌋.toNat

/-- `sqrt_indexation_pairs(vectors)` (fagin.py l. 154-174). -/
noncomputable def sqrtIndexationPairs (indices : List Nat) (vectors : List (Dict κ F)) : Py (List (Nat × Nat)) :=
  leaderLoop similarity (indices.take (leadersCount fl vectors.length)) (List.range vectors.length) []

end Fog.FaginFloat
