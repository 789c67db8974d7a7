import Verif.Model.ClusteringUtils

/-!
# Model of `fog/clustering/sorted_neighborhood.py`

A sorting key is the comparison it induces on the items: `le a b` when `key(a) <= key(b)`. Python's `sorted` is stable,
and so is `List.mergeSort`; simplified: comparisons are total preorders. The similarity is the Boolean function returned
by `make_similarity_function`.
-/

namespace Fog.SortedNeighborhood

open Fog.ClusteringUtils

variable {α : Type _}

/-- `sorted(data, key=k)` (sorted_neighborhood.py l. 89, 205). -/
def pySorted (data : List α) (le : α → α → Bool) : List α := data.mergeSort le

/-- The data seen by each pass of the loop over the keys: an iterator gives its items to the first pass only (sorted_neighborhood.py l. 88-89, 204-205). -/
def passes {κ : Type _} (oneShot : Bool) (data : List α) : List κ → List (κ × List α)
  | [] => []
  | k :: keys => (k, data) :: keys.map fun k => (k, if oneShot then [] else data)

/-- The pairs of one pass (sorted_neighborhood.py l. 89-99): `S` is the sorted data. -/
def windowPairs (similarity : α → α → Bool) (window : Nat) (S : List α) : List (α × α) :=
  (List.range S.length).flatMap fun i =>
    (pyRange (i + 1) (min S.length (i + window))).filterMap fun j =>
      match S[i]?, S[j]? with
      | some A, some B => if similarity A B then some (A, B) else none
      | _, _ => none

/-- The `key` and `keys` arguments (sorted_neighborhood.py l. 30, 152). -/
inductive Keys (α : Type _)
  | key (le : α → α → Bool)
  | keys (les : List (α → α → Bool))

/-- `multipass_keys` (sorted_neighborhood.py l. 86, 202). -/
def Keys.multipass : Keys α → List (α → α → Bool)
  | .key le => [le]
  | .keys les => les

/-- `keys is not None` (sorted_neighborhood.py l. 107, 235). -/
def Keys.several : Keys α → Bool
  | .key _ => false
  | .keys _ => true

/-- `clustering()` in `sorted_neighborhood` (sorted_neighborhood.py l. 85-99). `oneShot` tells that the data is an
iterator. -/
def snmPairs (oneShot : Bool) (data : List α) (keys : Keys α) (similarity : α → α → Bool) (window : Nat) :
    List (α × α) :=
  (passes oneShot data keys.multipass).flatMap fun p => windowPairs similarity window (pySorted p.2 p.1)

/-- `sorted_neighborhood(...)` (sorted_neighborhood.py l. 30-108). -/
def sortedNeighborhood [DecidableEq α] (ord : α → List α → List α) (oneShot : Bool) (data : List α) (keys : Keys α)
    (similarity : α → α → Bool) (window min_size : Nat) (max_size : Option Nat) (mode : Mode) : Py (List (List α)) :=
  clustersFromPairs ord (snmPairs oneShot data keys similarity window) min_size max_size mode keys.several

/-! ### The adaptive variant

`none` stands for running out of fuel; a window of at least one is assumed: `window` is a natural number and `window - 1`
is `step`. -/

/-- `similarity(S[i], S[j])`, which raises when a position is out of range (sorted_neighborhood.py l. 122, 133). -/
def compareAt (similarity : α → α → Bool) (S : List α) (i j : Nat) : Py Bool :=
  match S[i]?, S[j]? with
  | some A, some B => .ok (similarity A B)
  | _, _ => .error .indexError

/-- The enlargement loop (sorted_neighborhood.py l. 122-125): returns `last`. `f` is fixed; the code sets
`w = last - f + 1`, `first = last` and `last = first + w - 1`. -/
def enlarge (similarity : α → α → Bool) (S : List α) (f : Nat) : (fuel first last : Nat) → Option (Py Nat)
  | 0, _, _ => none
  | fuel + 1, first, last =>
      match compareAt similarity S first last with
      | .error e => some (.error e)
      | .ok false => some (.ok last)
      | .ok true =>
          let w := last - f + 1
          enlarge similarity S f fuel last (last + w - 1)

/-- The retrenchment loop (sorted_neighborhood.py l. 128-139): returns `last`. It stops because `w` decreases. -/
def retrench (similarity : α → α → Bool) (S : List α) (window : Nat) : (w last : Nat) → Py Nat
  | 0, last => .ok last
  | w + 1, last =>
      if w + 1 > window then
        match compareAt similarity S (last - 1) last with
        | .error e => .error e
        | .ok true => .ok last
        | .ok false => retrench similarity S window w (last - 1)
      else .ok last

/-- The `while last < n` loop of `full_AA_SNM` (sorted_neighborhood.py l. 118-149), from `first`; `last` is
`first + window - 1`. The fuel bounds both this loop and the enlargement loop. -/
def snmLoop (similarity : α → α → Bool) (S : List α) (window : Nat) : (fuel first : Nat) → Option (Py (List (Nat × Nat)))
  | 0, _ => none
  | fuel + 1, first =>
      let last := first + (window - 1)
      if last < S.length then
        match enlarge similarity S first (fuel + 1) first last with
        | none => none
        | some (.error e) => some (.error e)
        | some (.ok last) =>
            match retrench similarity S window (last - first + 1) last with
            | .error e => some (.error e)
            | .ok last =>
                match snmLoop similarity S window fuel (last + 1) with
                | none => none
                | some (.error e) => some (.error e)
                | some (.ok blocks) => some (.ok ((first, last) :: blocks))
      else if first < S.length then some (.ok [(first, S.length - 1)])
      else some (.ok [])

/-- `full_AA_SNM(sorted_records, similarity, window)` (sorted_neighborhood.py l. 111-149). -/
def fullAASNM (similarity : α → α → Bool) (S : List α) (window fuel : Nat) : Option (Py (List (Nat × Nat))) :=
  snmLoop similarity S window fuel 0

/-- The pairs of a block (sorted_neighborhood.py l. 207-227). A block of one item has none. -/
def blockPairs (similarity : α → α → Bool) (S : List α) (start stop : Nat) : List (α × α) :=
  (pyRange start (stop + 1)).flatMap fun i =>
    (pyRange (i + 1) (stop + 1)).filterMap fun j =>
      match S[i]?, S[j]? with
      | some A, some B => if similarity A B then some (A, B) else none
      | _, _ => none

/-- `clustering()` in `adaptive_sorted_neighborhood` (sorted_neighborhood.py l. 201-227) over the passes. -/
def adaptivePairs (similarity : α → α → Bool) (window fuel : Nat) :
    List ((α → α → Bool) × List α) → Option (Py (List (α × α)))
  | [] => some (.ok [])
  | (le, data) :: ps =>
      let S := pySorted data le
      match fullAASNM similarity S window fuel with
      | none => none
      | some (.error e) => some (.error e)
      | some (.ok blocks) =>
          match adaptivePairs similarity window fuel ps with
          | none => none
          | some (.error e) => some (.error e)
          | some (.ok rest) => some (.ok ((blocks.flatMap fun b => blockPairs similarity S b.1 b.2) ++ rest))

/-- `adaptive_sorted_neighborhood(...)` (sorted_neighborhood.py l. 152-236). -/
def adaptiveSortedNeighborhood [DecidableEq α] (ord : α → List α → List α) (oneShot : Bool) (data : List α)
    (keys : Keys α) (similarity : α → α → Bool) (window min_size : Nat) (max_size : Option Nat) (mode : Mode)
    (fuel : Nat) : Option (Py (List (List α))) :=
  match adaptivePairs similarity window fuel (passes oneShot data keys.multipass) with
  | none => none
  | some (.error e) => some (.error e)
  | some (.ok pairs) => some (clustersFromPairs ord pairs min_size max_size mode keys.several)

end Fog.SortedNeighborhood
