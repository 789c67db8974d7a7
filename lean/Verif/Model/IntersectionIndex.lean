import Verif.Model.ClusteringUtils

/-!
# Model of `fog/clustering/intersection_index.py`

`items` are the sequences of tokens of the items: the items themselves or what the key function gives.
-/

namespace Fog.IntersectionIndex

open Fog.ClusteringUtils

variable {τ : Type _} [DecidableEq τ]

/-- The two metrics (intersection_index.py l. 20); another name raises a `TypeError`. -/
inductive Metric
  | jaccard
  | overlap
  | unknown
deriving DecidableEq

/-- `intersections[i][j] += 1` on a `defaultdict(Counter)` (intersection_index.py l. 84). -/
def increment (i : Nat) (intersections : Dict Nat (Dict Nat Nat)) (j : Nat) : Dict Nat (Dict Nat Nat) :=
  intersections.update i [] fun counter => counter.update j 0 fun c => c + 1

/-- The buckets and the intersections (intersection_index.py l. 65-66). -/
abbrev State (τ : Type _) := Dict τ (List Nat) × Dict Nat (Dict Nat Nat)

/-- The body of the loop over the shingles of item `i` (intersection_index.py l. 80-86). -/
def shingleStep (i : Nat) (s : State τ) (shingle : τ) : State τ :=
  let bucket := (s.1.get? shingle).getD []
  (s.1.set shingle (bucket ++ [i]), bucket.foldl (increment i) s.2)

/-- The loop over the items (intersection_index.py l. 73-86) from item `i` on. `ord` is the order of iteration of the set
of shingles. -/
def indexLoop (ord : List τ → List τ) : Nat → List (List τ) → State τ → State τ
  | _, [], s => s
  | i, item :: items, s => indexLoop ord (i + 1) items ((ord (dedup item)).foldl (shingleStep i) s)

/-- `I / U` (intersection_index.py l. 96, 102). -/
def divide (I : Nat) (U : Int) : Py Rat :=
  if U = 0 then .error .zeroDivisionError else .ok ((I : Rat) / (U : Rat))

/-- What `I` is divided by (intersection_index.py l. 94, 100): `sizes[i] + sizes[j] - I` or `min(sizes[i], sizes[j])`. -/
def denominator (metric : Metric) (si sj I : Nat) : Int :=
  match metric with
  | .jaccard => (si : Int) + sj - I
  | _ => min (si : Int) sj

/-- The loop over the neighbors of item `i` (intersection_index.py l. 91-103). -/
def neighborLoop (metric : Metric) (sizes : List Nat) (radius : Rat) (i : Nat) : Dict Nat Nat → Py (List (Nat × Nat))
  | [] => .ok []
  | (j, I) :: neighbors => do
      let si ← (sizes[i]?).elim (.error .indexError) .ok
      let sj ← (sizes[j]?).elim (.error .indexError) .ok
      let q ← divide I (denominator metric si sj I)
      let rest ← neighborLoop metric sizes radius i neighbors
      .ok (if q ≥ radius then (i, j) :: rest else rest)

/-- `clustering()` (intersection_index.py l. 88-103). -/
def clusteringLoop (metric : Metric) (sizes : List Nat) (radius : Rat) :
    Dict Nat (Dict Nat Nat) → Py (List (Nat × Nat))
  | [] => .ok []
  | (i, neighbors) :: intersections => do
      let pairs ← neighborLoop metric sizes radius i neighbors
      let rest ← clusteringLoop metric sizes radius intersections
      .ok (pairs ++ rest)

/-- The pairs of positions found by `intersection_index` (intersection_index.py l. 62-103). Simplified: the radius is
rational and quotients are not rounded. -/
def intersectionPairs (ord : List τ → List τ) (items : List (List τ)) (metric : Metric) (radius : Rat) :
    Py (List (Nat × Nat)) :=
  let sizes := items.map fun item => (dedup item).length
  clusteringLoop metric sizes radius (indexLoop ord 0 items ([], [])).2

/-- `intersection_index(data, metric, radius, key, min_size, max_size, mode)` (intersection_index.py l. 23-113). -/
def intersectionIndex {α : Type _} (ord : List τ → List τ) (data : List α) (items : List (List τ)) (metric : Metric)
    (radius : Rat) (min_size : Nat) (max_size : Option Nat) (mode : Mode) : Py (List (List α)) :=
  if metric = .unknown then .error .typeError
  else do
    let pairs ← intersectionPairs ord items metric radius
    let clusters ← clustersFromPairs (fun _ l => l) pairs min_size max_size mode false
    .ok (clusters.map fun cluster => cluster.filterMap fun i => data[i]?)

end Fog.IntersectionIndex
