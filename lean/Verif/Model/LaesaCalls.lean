import Verif.Model.Laesa

/-!
# Model of `fog/clustering/laesa.py`: the calls of the distance, and the number which is printed

The loops of `Verif.Model.Laesa`, which also list the calls of `distance`, in the order in which they are made.
-/

namespace Fog.Laesa

open Fog.ClusteringUtils

variable {α K : Type _} [Field K] [LinearOrder K]

/-- One turn over the items in `pivot_selection` (laesa.py l. 50-59), as `selTurn`, with its calls of `distance` (l. 54). -/
def selTurnCalls (distance : α → α → K) (p : List Nat) (pivot : α) :
    Nat → List α → List K → Nat × K → List (α × α) × (List K × (Nat × K))
  | j, item :: data, a :: A, best =>
      if j ∈ p then
        let (calls, A, best) := selTurnCalls distance p pivot (j + 1) data A best
        (calls, a :: A, best)
      else
        let a := a + distance pivot item
        let (calls, A, best) := selTurnCalls distance p pivot (j + 1) data A (if best.2 < a then (j, a) else best)
        ((pivot, item) :: calls, a :: A, best)
  | _, _, A, best => ([], A, best)

/-- "Finding pivots" (laesa.py l. 43-61), as `findPivots`, with its calls of `distance`. -/
def findPivotsCalls (distance : α → α → K) (data : List α) : (turns : Nat) → (p : List Nat) → (A : List K) → (b_prime : Nat) →
    List (α × α) × Py (List Nat)
  | 0, p, _, _ => ([], .ok p)
  | turns + 1, p, A, b_prime =>
      match data[b_prime]? with
      | none => ([], .error .indexError)
      | some pivot =>
          let (calls, A, best) := selTurnCalls distance p pivot 0 data A (b_prime, 0)
          let rest := findPivotsCalls distance data turns (setAdd p best.1) A best.1
          (calls ++ rest.1, rest.2)

/-- "Pre-computing distances" (laesa.py l. 66-70), over the indices left, with the calls of `distance` (l. 70). -/
def tableCalls (distance : α → α → K) (data : List α) (p : List Nat) : List Nat → List (α × α) × Py (List (List K))
  | [] => ([], .ok [])
  | i :: is =>
      match p[i]? with
      | none => ([], .error .indexError)
      | some b =>
          match data[b]? with
          | none => ([], .error .indexError)
          | some pivot =>
              let rest := tableCalls distance data p is
              (data.map (fun item => (pivot, item)) ++ rest.1, do
                let D ← rest.2
                pure (data.map (distance pivot) :: D))

/-- `pivot_selection(rng, data, pivots, distance)` (laesa.py l. 32-72), as `pivotSelection`, with its calls of `distance`. -/
def pivotSelectionCalls (start : Nat) (ord : List Nat → List Nat) (data : List α) (pivots : Nat) (distance : α → α → K) :
    List (α × α) × Py (List Nat × List (List K)) :=
  if data.length = 0 then ([], .error .valueError)
  else
    match findPivotsCalls distance data pivots [] (List.replicate data.length 0) start with
    | (calls, .error e) => (calls, .error e)
    | (calls, .ok p) =>
        let rest := tableCalls distance data (ord p) (List.range pivots)
        (calls ++ rest.1, do
          let D ← rest.2
          pure (ord p, D))

/-- A call of `distance` in `clustering()` (laesa.py l. 124, 141): the items, whether `DD` is increased (l. 142), and whether the pair is yielded. -/
structure Call (α : Type _) where
  items : α × α
  counted : Bool
  yielded : Bool

/-- `clustering()` (laesa.py l. 116-145): the calls of `distance`. -/
def clusteringCalls (distance : α → α → K) (radius : K) (data : List α) (pivots : Nat) (p : List Nat) (D : List (List K)) : List (Call α) :=
  data.zipIdx.flatMap fun (x, i) =>
    let d_star := dStar distance data p pivots x
    (((p.take pivots).filterMap fun b => data[b]?).map fun pivot => ⟨(pivot, x), false, false⟩) ++
      (data.zipIdx.drop (i + 1)).filterMap fun (y, k) =>
        if compute D d_star i k then some ⟨(x, y), true, decide (distance x y ≤ radius)⟩ else none

/-- The number `DD` printed at the end of `clustering()` (laesa.py l. 117, 142, 147). -/
def printed (distance : α → α → K) (radius : K) (data : List α) (pivots : Nat) (p : List Nat) (D : List (List K)) : Nat :=
  (clusteringCalls distance radius data pivots p D).countP Call.counted

end Fog.Laesa
