import Verif.Model.DefaultsFloat

/-!
# Model of `fog/clustering/laesa.py` in double precision

As in `Verif.Model.Laesa`, but each operation on floats is rounded by `fl`, and `math.log2` is the function `lg`. The distances and the radius
are reals, which the theorems ask to be doubles. What does no arithmetic is that of `Verif.Model.Laesa`.
-/

namespace Fog.LaesaRounded

open Laesa ClusteringUtils

variable {α : Type} (fl lg : ℝ → ℝ)

/-- One turn over the items in `pivot_selection` (laesa.py l. 50-59): `A[j] += d` is rounded. -/
noncomputable def selTurn (distance : α → α → ℝ) (p : List Nat) (pivot : α) :
    Nat → List α → List ℝ → Nat × ℝ → List ℝ × (Nat × ℝ)
  | j, item :: data, a :: A, best =>
      if j ∈ p then
        let (A, best) := selTurn distance p pivot (j + 1) data A best
        (a :: A, best)
      else
        let a := fl (a + distance pivot item)
        let (A, best) := selTurn distance p pivot (j + 1) data A (if best.2 < a then (j, a) else best)
        (a :: A, best)
  | _, _, A, best => (A, best)

/-- "Finding pivots" in `pivot_selection` (laesa.py l. 43-61), `turns` turns remaining. -/
noncomputable def findPivots (distance : α → α → ℝ) (data : List α) :
    (turns : Nat) → (p : List Nat) → (A : List ℝ) → (b_prime : Nat) → Py (List Nat)
  | 0, p, _, _ => .ok p
  | turns + 1, p, A, b_prime =>
      match data[b_prime]? with
      | none => .error .indexError
      | some pivot =>
          let (A, best) := selTurn fl distance p pivot 0 data A (b_prime, 0)
          findPivots distance data turns (setAdd p best.1) A best.1

/-- `D`, the distances from each pivot to each item (laesa.py l. 66-70). -/
noncomputable def rows (distance : α → α → ℝ) (data : List α) (p : List Nat) (pivots : Nat) : Py (List (List ℝ)) :=
  (List.range pivots).mapM fun i =>
    match p[i]? with
    | none => .error .indexError
    | some b =>
        match data[b]? with
        | none => .error .indexError
        | some pivot => .ok (data.map (distance pivot))

/-- `pivot_selection(rng, data, pivots, distance)` (laesa.py l. 32-72). `start` is what `rng.randint` draws, `ord` the order
of `list(p)`. -/
noncomputable def pivotSelection (start : Nat) (ord : List Nat → List Nat) (data : List α) (pivots : Nat)
    (distance : α → α → ℝ) : Py (List Nat × List (List ℝ)) :=
  if data.length = 0 then .error .valueError
  else do
    let p ← findPivots fl distance data pivots [] (List.replicate data.length 0) start
    let D ← rows distance data (ord p) pivots
    pure (ord p, D)

/-- `compute` (laesa.py l. 131-138): the difference of two distances is rounded. -/
noncomputable def compute (D : List (List ℝ)) (d_star : Option ℝ) (i k : Nat) : Bool :=
  D.all fun row =>
    let delta := |fl (row.getD i 0 - row.getD k 0)|
    match d_star with
    | none => true
    | some s => decide (¬ s < delta)

/-- `clustering()` in `laesa` (laesa.py l. 116-145). -/
noncomputable def clustering (distance : α → α → ℝ) (radius : ℝ) (data : List α) (pivots : Nat) (p : List Nat)
    (D : List (List ℝ)) : List (α × α) :=
  data.zipIdx.flatMap fun (x, i) =>
    let d_star := dStar distance data p pivots x
    (data.zipIdx.drop (i + 1)).filterMap fun (y, k) =>
      if compute fl D d_star i k then (if distance x y ≤ radius then some (x, y) else none) else none

/-- `laesa(data, distance, radius, pivots, min_size, max_size, seed, mode)` (laesa.py l. 76-154). -/
noncomputable def laesa [DecidableEq α] (start : Nat) (ord : List Nat → List Nat) (gord : α → List α → List α) (data : List α)
    (distance : α → α → ℝ) (radius : ℝ) (pivots : Option Nat) (min_size : Nat) (max_size : Option Nat) (mode : Mode) :
    Py (List (List α)) := do
  let pivots ← LaesaFloat.choosePivots fl lg data.length pivots
  let (p, D) ← pivotSelection fl start ord data pivots distance
  clustersFromPairs gord (clustering fl distance radius data pivots p D) min_size max_size mode false

end Fog.LaesaRounded
