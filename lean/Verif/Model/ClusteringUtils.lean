import Verif.Model.Py
import Verif.Model.Dict

/-!
# Model of `fog/clustering/utils.py`

Items are values of any type with decidable equality (they are hashable in the code).
-/

namespace Fog.ClusteringUtils

variable {α : Type _} [DecidableEq α]

/-- `len(cluster) >= min_size and len(cluster) <= max_size` (clustering/utils.py l. 124); `none` is `float('inf')`.
Simplified: bounds are natural numbers. -/
def sizeOk (min_size : Nat) (max_size : Option Nat) (n : Nat) : Bool :=
  decide (n ≥ min_size) && (match max_size with | none => true | some m => decide (n ≤ m))

/-- `add(c, x)` (clustering/utils.py l. 65-72): a set when `fuzzy`, a list otherwise. A set is kept as the list of its
members in order of insertion. -/
def add (fuzzy : Bool) (c : List α) (x : α) : List α :=
  if fuzzy && decide (x ∈ c) then c else c ++ [x]

/-- The graph (clustering/utils.py l. 76-80): `defaultdict(container)`. -/
def addPair (fuzzy : Bool) (graph : Dict α (List α)) (p : α × α) : Dict α (List α) :=
  (graph.update p.1 [] (fun c => add fuzzy c p.2)).update p.2 [] (fun c => add fuzzy c p.1)

/-- The whole loop (clustering/utils.py l. 78-80). -/
def makeGraph (fuzzy : Bool) (pairs : List (α × α)) : Dict α (List α) := pairs.foldl (addPair fuzzy) []

/-- The order in which the neighbours of `item` are iterated upon: of a list, its order; of a set, the order `ord`
chosen by the interpreter (clustering/utils.py l. 65, 96, 111, 122). -/
def iterate (fuzzy : Bool) (ord : α → List α → List α) (item : α) (neighbors : List α) : List α :=
  if fuzzy then ord item neighbors else neighbors

/-- The loop of the fuzzy mode: `len(neighbors) + 1 < min_size` or `> max_size` lead to `continue` (clustering/utils.py l. 85-97). -/
def fuzzyClusters (fuzzy : Bool) (ord : α → List α → List α) (min_size : Nat) (max_size : Option Nat) :
    List (α × List α) → List α → List (List α)
  | [], _ => []
  | (item, neighbors) :: items, visited =>
      if item ∈ visited then fuzzyClusters fuzzy ord min_size max_size items visited
      else if sizeOk min_size max_size (neighbors.length + 1) then
        (item :: iterate fuzzy ord item neighbors) ::
          fuzzyClusters fuzzy ord min_size max_size items (neighbors ++ visited)
      else fuzzyClusters fuzzy ord min_size max_size items visited

/-- How many keys of the graph are not visited (clustering/utils.py l. 113-122, a measure which is not in the code). -/
def unvisited (graph : Dict α (List α)) (visited : List α) : Nat :=
  (graph.keys.filter (fun k => k ∉ visited)).length

theorem unvisited_lt {graph : Dict α (List α)} {visited : List α} {x : α} {l : List α} (h : graph.get? x = some l)
    (hx : x ∉ visited) : unvisited graph (x :: visited) < unvisited graph visited := by
  have key : ∀ ks : List α, x ∈ ks →
      (ks.filter (fun k => k ∉ x :: visited)).length < (ks.filter (fun k => k ∉ visited)).length := by
    intro ks hks
    have le : ∀ ks : List α,
        (ks.filter (fun k => k ∉ x :: visited)).length ≤ (ks.filter (fun k => k ∉ visited)).length := by
      intro ks
      induction ks with
      | nil => simp
      | cons k ks ih =>
          simp only [List.filter_cons]
          by_cases h1 : k ∉ visited
          · by_cases h2 : k = x
            · subst h2; simp [h1]; simp at ih; omega
            · simp [h1, h2]; simpa using ih
          · simp only [Decidable.not_not] at h1
            simp [h1]; simpa using ih
    induction ks with
    | nil => simp at hks
    | cons k ks ih =>
        simp only [List.filter_cons]
        by_cases h2 : k = x
        · subst h2
          have := le ks
          simp [hx]; simp at this; omega
        · have := ih (by simpa [Ne.symm h2] using hks)
          by_cases h1 : k ∉ visited
          · simp [h1, h2]; simpa using this
          · simp only [Decidable.not_not] at h1
            simp [h1]; simpa using this
  apply key
  have mem : ∀ d : Dict α (List α), d.get? x = some l → x ∈ d.keys := by
    intro d
    induction d with
    | nil => simp [Dict.get?]
    | cons y d ih =>
        obtain ⟨a, b⟩ := y
        by_cases h2 : a = x
        · subst h2; simp [Dict.keys]
        · simp only [Dict.get?, h2, if_false]
          intro h
          have := ih h
          simp only [Dict.keys] at this
          simp only [Dict.keys, List.map_cons, List.mem_cons]
          exact Or.inr this
  exact mem graph h

/-- The `while` loop (clustering/utils.py l. 113-122). The top of the stack is the head of the list. Returns the
cluster and what is visited. `graph[neighbor]` on a missing key would add the key to the dictionary which is being
iterated upon, and Python would raise a `RuntimeError` on the next item; the model raises at once. -/
def search (fuzzy : Bool) (ord : α → List α → List α) (graph : Dict α (List α)) :
    (stack visited cluster : List α) → Py (List α × List α)
  | [], visited, cluster => .ok (cluster, visited)
  | neighbor :: stack, visited, cluster =>
      if hv : neighbor ∈ visited then search fuzzy ord graph stack visited cluster
      else
        match hg : graph.get? neighbor with
        | none => .error .runtimeError
        | some ns =>
            search fuzzy ord graph ((iterate fuzzy ord neighbor ns).reverse ++ stack) (neighbor :: visited)
              (cluster ++ [neighbor])
termination_by stack visited => (unvisited graph visited, stack.length)
decreasing_by
  · exact Prod.Lex.right _ (by simp)
  · exact Prod.Lex.left _ _ (unvisited_lt hg hv)

/-- The `for` loop of the connected components mode (clustering/utils.py l. 103-125). -/
def components (fuzzy : Bool) (ord : α → List α → List α) (min_size : Nat) (max_size : Option Nat)
    (graph : Dict α (List α)) : List (α × List α) → List α → Py (List (List α))
  | [], _ => .ok []
  | (item, neighbors) :: items, visited =>
      if item ∈ visited then components fuzzy ord min_size max_size graph items visited
      else do
        let (cluster, visited) ←
          search fuzzy ord graph (iterate fuzzy ord item neighbors).reverse (item :: visited) [item]
        let rest ← components fuzzy ord min_size max_size graph items visited
        if sizeOk min_size max_size cluster.length then .ok (cluster :: rest) else .ok rest

/-- The `mode` argument (clustering/utils.py l. 82, 99, 127). -/
inductive Mode
  | fuzzyClusters
  | connectedComponents
  | unknown
deriving DecidableEq

/-- `clusters_from_pairs(pairs, min_size, max_size, mode, fuzzy)` (clustering/utils.py l. 44-128). Simplified: when it
raises, the clusters yielded before are not kept. -/
def clustersFromPairs (ord : α → List α → List α) (pairs : List (α × α)) (min_size : Nat) (max_size : Option Nat)
    (mode : Mode) (fuzzy : Bool) : Py (List (List α)) :=
  let graph := makeGraph fuzzy pairs
  match mode with
  | .fuzzyClusters => .ok (fuzzyClusters fuzzy ord min_size max_size graph [])
  | .connectedComponents => components fuzzy ord min_size max_size graph graph []
  | .unknown => .error .typeError

/-- The pairs of one bucket in the order of the two loops (clustering/utils.py l. 136-145). -/
def bucketPairs {β : Type _} : List β → List (β × β)
  | [] => []
  | a :: bucket => bucket.map (fun b => (a, b)) ++ bucketPairs bucket

/-- `pairs_from_buckets(buckets)` (clustering/utils.py l. 131-145). -/
def pairsFromBuckets {β : Type _} (buckets : List (List β)) : List (β × β) := buckets.flatMap bucketPairs

/-- `clusters_from_buckets(...)` (clustering/utils.py l. 148-185). -/
def clustersFromBuckets (ord : α → List α → List α) (buckets : List (List α)) (min_size : Nat)
    (max_size : Option Nat) (mode : Mode) (similarity : Option (α → α → Bool)) (fuzzy : Bool) : Py (List (List α)) :=
  let pairs := (pairsFromBuckets buckets).filter (fun p =>
    match similarity with | none => true | some similarity => similarity p.1 p.2)
  clustersFromPairs ord pairs min_size max_size mode fuzzy

/-- What is sent to a worker: two slices of the data and their offsets (clustering/utils.py l. 213-218). -/
structure Chunk (β : Type _) where
  I : List β
  J : List β
  i_offset : Nat
  j_offset : Nat
deriving DecidableEq

/-- `upper_triangular_matrix_chunk_iter(data, chunk_size)` (clustering/utils.py l. 188-218). `math.ceil(n / chunk_size)`
is the rounded up quotient; simplified: the float division is taken as exact, as `chunk_count_float` says it may be. -/
def upperTriangularMatrixChunkIter {β : Type _} (data : List β) (chunk_size : Nat) : Py (List (Chunk β)) :=
  if chunk_size = 0 then .error .zeroDivisionError
  else
    let n := data.length
    let c := (n + chunk_size - 1) / chunk_size
    .ok ((List.range c).flatMap fun j =>
      let j_offset := j * chunk_size
      let j_limit := j_offset + chunk_size
      (List.range (min (j + 1) c)).map fun i =>
        let i_offset := i * chunk_size
        let i_limit := i_offset + chunk_size
        { I := slice data i_offset i_limit
          J := if i_offset ≠ j_offset then slice data j_offset j_limit else []
          i_offset := i_offset
          j_offset := j_offset })

end Fog.ClusteringUtils
