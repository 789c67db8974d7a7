import Verif.Model.Quickjoin

/-!
# Model of `quickjoin_join_pivots` of `fog/clustering/quickjoin.py`, with its tables

`Verif.Model.Quickjoin` reads `P[l * N2 + j]` and `D[l]` as distances. Here the lists `P` and `D` are written and read as the code does, and what the loops
do is listed: the calls of `distance` and the pairs which are yielded. Distances are elements of an ordered field: simplified from floats.
-/

namespace Fog.JoinPivots

variable {α K : Type _} [Field K] [LinearOrder K]

/-- A step of the loops: a call of `distance` (quickjoin.py l. 144, 156, 167), or a pair which is yielded (l. 148, 168). -/
inductive Step (α : Type _)
  | call (p : α × α)
  | pair (p : α × α)

/-- The two items given to `distance`. -/
def Step.call? : Step α → Option (α × α)
  | .call p => some p
  | .pair _ => none

/-- The pair which is yielded. -/
def Step.pair? : Step α → Option (α × α)
  | .call _ => none
  | .pair p => some p

/-- The inner loop over `S2` for the pivot `A = S1[i]` (quickjoin.py l. 142-148), from position `j` on. -/
def fillRow (distance : α → α → K) (radius : K) (N2 i : Nat) (A : α) : Nat → List α → List K → List (Step α) × List K
  | _, [], P => ([], P)
  | j, B :: S2, P =>
      let d := distance A B
      let rest := fillRow distance radius N2 i A (j + 1) S2 (P.set (i * N2 + j) d)
      (.call (A, B) :: ((if d ≤ radius then [.pair (A, B)] else []) ++ rest.1), rest.2)

/-- The loop over the pivots (quickjoin.py l. 139-148), from position `i` on. -/
def fillTable (distance : α → α → K) (radius : K) (S2 : List α) : Nat → List α → List K → List (Step α) × List K
  | _, [], P => ([], P)
  | i, A :: pivots, P =>
      let row := fillRow distance radius S2.length i A 0 S2 P
      let rest := fillTable distance radius S2 (i + 1) pivots row.2
      (row.1 ++ rest.1, rest.2)

/-- The loop which writes `D` (quickjoin.py l. 155-156), from position `l` on. -/
def fillDistances (distance : α → α → K) (A : α) : Nat → List α → List K → List (Step α) × List K
  | _, [], D => ([], D)
  | l, pivot :: pivots, D =>
      let rest := fillDistances distance A (l + 1) pivots (D.set l (distance pivot A))
      (.call (pivot, A) :: rest.1, rest.2)

/-- `f` after the loop over `l` (quickjoin.py l. 160-165), which breaks at the first `l` for which the difference exceeds the radius. -/
def excluded (P D : List K) (radius : K) (N2 j : Nat) : List Nat → Bool
  | [] => false
  | l :: ls => if max (P.getD (l * N2 + j) 0 - D.getD l 0) (-(P.getD (l * N2 + j) 0 - D.getD l 0)) > radius then true else excluded P D radius N2 j ls

/-- The loop over `S2` for another item `A` (quickjoin.py l. 158-168), from position `j` on. -/
def scanRow (distance : α → α → K) (radius : K) (N2 k : Nat) (P D : List K) (A : α) : Nat → List α → List (Step α)
  | _, [] => []
  | j, B :: S2 =>
      let rest := scanRow distance radius N2 k P D A (j + 1) S2
      if excluded P D radius N2 j (List.range k) then rest
      else .call (A, B) :: ((if distance A B ≤ radius then [.pair (A, B)] else []) ++ rest)

/-- The loop over the other items (quickjoin.py l. 152-168). `D` keeps its values from an item to the next. -/
def scan (distance : α → α → K) (radius : K) (S2 pivots : List α) (P : List K) : List α → List K → List (Step α)
  | [], _ => []
  | A :: S1, D =>
      let row := fillDistances distance A 0 pivots D
      row.1 ++ scanRow distance radius S2.length pivots.length P row.2 A 0 S2 ++ scan distance radius S2 pivots P S1 row.2

/-- `quickjoin_join_pivots(S1, S2, distance, radius)` (quickjoin.py l. 126-168): what it does. `S1[i]` raises an `IndexError` when `S1` is empty. -/
def steps (S1 S2 : List α) (distance : α → α → K) (radius : K) : Py (List (Step α)) :=
  let N1 := S1.length
  let N2 := S2.length
  let k := max 1 (min 16 (N1 / 8))
  if N1 < k then .error .indexError
  else
    let table := fillTable distance radius S2 0 (S1.take k) (List.replicate (N2 * k) 0)
    .ok (table.1 ++ scan distance radius S2 (S1.take k) table.2 (S1.drop k) (List.replicate k 0))

end Fog.JoinPivots
