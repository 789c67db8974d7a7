import Verif.Model.ClusteringUtils
import Mathlib.Algebra.Field.Defs
import Mathlib.Order.Defs.LinearOrder

/-!
# Model of `fog/clustering/quickjoin.py`

Distances are elements of an ordered field: simplified from floats. Serialising the distance for the workers changes
nothing.
-/

namespace Fog.Quickjoin

open Fog.ClusteringUtils

variable {α K : Type _} [Field K] [LinearOrder K]

/-- The four lists of `partition` (quickjoin.py l. 63). -/
structure Parts (α : Type _) where
  L : List α
  G : List α
  Lw : List α
  Gw : List α

/-- `partition(S, distance, p, radius, rho)` (quickjoin.py l. 40-63). -/
def partition (distance : α → α → K) (p : α) (radius rho : K) : List α → Parts α
  | [] => ⟨[], [], [], []⟩
  | item :: S =>
      let l := rho - radius
      let g := rho + radius
      let parts := partition distance p radius rho S
      let d := distance p item
      if d < rho then
        { parts with L := item :: parts.L, Lw := if l ≤ d then item :: parts.Lw else parts.Lw }
      else
        { parts with G := item :: parts.G, Gw := if d ≤ g then item :: parts.Gw else parts.Gw }

/-- `quickjoin_bruteforce(S1, S2, distance, radius)` (quickjoin.py l. 66-74). -/
def bruteforce (S1 S2 : List α) (distance : α → α → K) (radius : K) : List (α × α) :=
  S1.flatMap fun A => S2.filterMap fun B => if distance A B ≤ radius then some (A, B) else none

/-- `quickjoin_self_bruteforce(S, distance, radius)` (quickjoin.py l. 77-87). -/
def selfBruteforce : List α → (distance : α → α → K) → (radius : K) → List (α × α)
  | [], _, _ => []
  | A :: S, distance, radius =>
      (S.filterMap fun B => if distance A B ≤ radius then some (A, B) else none) ++ selfBruteforce S distance radius

/-- A vantage point tree of the `phylactery` library: `neighbors S A radius` are the items of
`VPTree(S, distance).neighbors_in_radius(A, radius)` (quickjoin.py l. 103-107, 115-123). -/
abbrev Neighbors (α K : Type _) := List α → α → K → List α

/-- `quickjoin_vptree(S1, S2, distance, radius)` (quickjoin.py l. 90-107). -/
def vptree (neighbors : Neighbors α K) (S1 S2 : List α) (distance : α → α → K) (radius : K) : List (α × α) :=
  let (S1, S2) := if S1.length > S2.length then (S2, S1) else (S1, S2)
  match S1 with
  | [B] => S2.filterMap fun A => if distance A B ≤ radius then some (A, B) else none
  | S1 => S2.flatMap fun A => (neighbors S1 A radius).map fun B => (A, B)

/-- `quickjoin_self_vptree(S, distance, radius)` (quickjoin.py l. 110-123). `ident` is `id`; simplified: equal items have the
same identity. -/
def selfVptree [DecidableEq α] (neighbors : Neighbors α K) (ident : α → Nat) (S : List α) (radius : K) : List (α × α) :=
  if S.length = 1 then []
  else S.flatMap fun A => (neighbors S A radius).filterMap fun B =>
    if A = B then none else if ident A < ident B then some (A, B) else none

/-- A block: one list to be joined with itself, or two lists (`S2` is `None` or a list) (quickjoin.py l. 255, 288). -/
abbrev Block (α : Type _) := List α × Option (List α)

/-- How blocks are solved: the `vp_tree` argument and what it relies on (quickjoin.py l. 171-175). -/
structure Solver (α K : Type _) where
  vp_tree : Bool
  neighbors : Neighbors α K
  ident : α → Nat

/-- The pairs of a block (quickjoin.py l. 171-188 and 316-320). -/
def blockPairs [DecidableEq α] (solver : Solver α K) (distance : α → α → K) (radius : K) : Block α → List (α × α)
  | (S1, none) =>
      if solver.vp_tree then selfVptree solver.neighbors solver.ident S1 radius else selfBruteforce S1 distance radius
  | (S1, some S2) =>
      if solver.vp_tree then vptree solver.neighbors S1 S2 distance radius else bruteforce S1 S2 distance radius

/-- The random choice of the positions of the two pivots (quickjoin.py l. 259-263 and 292-296) at a given step for a given
block. -/
abbrev Pivots (α : Type _) := Nat → Block α → Nat × Nat

/-- `blocks()` (quickjoin.py l. 241-309). The top of the stack is the head of the list. `none` when there is not enough fuel,
or when there are less than two items to choose two different pivots from: the loop choosing them does not stop. -/
def blocks (distance : α → α → K) (radius beta : K) (block_size : Nat) (pivots : Pivots α) :
    (fuel step : Nat) → (stack : List (Block α)) → Option (List (Block α))
  | 0, _, _ => none
  | _ + 1, _, [] => some []
  | fuel + 1, step, (S, none) :: stack =>
      let N := S.length
      if N ≤ block_size then (blocks distance radius beta block_size pivots fuel (step + 1) stack).map ((S, none) :: ·)
      else if N < 2 then none
      else
        let (p1, p2) := pivots step (S, none)
        match S[p1]?, S[p2]? with
        | some p1, some p2 =>
            let rho := beta * distance p1 p2
            let P := partition distance p1 radius rho S
            blocks distance radius beta block_size pivots fuel (step + 1)
              ((P.Lw, some P.Gw) :: (P.L, none) :: (P.G, none) :: stack)
        | _, _ => none
  | fuel + 1, step, (S1, some S2) :: stack =>
      let N1 := S1.length
      let N2 := S2.length
      let N := N1 + N2
      if N ≤ block_size then
        if N1 = 0 ∨ N2 = 0 then blocks distance radius beta block_size pivots fuel (step + 1) stack
        else (blocks distance radius beta block_size pivots fuel (step + 1) stack).map ((S1, some S2) :: ·)
      else if N < 2 then none
      else
        let (p1, p2) := pivots step (S1, some S2)
        match (if p1 < N1 then S1[p1]? else S2[p1 - N1]?), (if p2 < N1 then S1[p2]? else S2[p2 - N1]?) with
        | some p1, some p2 =>
            let rho := beta * distance p1 p2
            let P1 := partition distance p1 radius rho S1
            let P2 := partition distance p1 radius rho S2
            blocks distance radius beta block_size pivots fuel (step + 1)
              ((P1.Gw, some P2.Lw) :: (P1.Lw, some P2.Gw) :: (P1.G, some P2.G) :: (P1.L, some P2.L) :: stack)
        | _, _ => none

/-- `quickjoin(...)` (quickjoin.py l. 191-340). `arrival` reorders the results of the workers (`pool.imap_unordered`); it is
the identity for one process. `none` when `blocks()` is not over. -/
def quickjoin [DecidableEq α] (ord : α → List α → List α) (arrival : List (List (α × α)) → List (List (α × α)))
    (data : List α) (radius : K) (distance : α → α → K) (block_size min_size : Nat) (max_size : Option Nat) (mode : Mode)
    (pivots : Pivots α) (beta : K) (solver : Solver α K) (fuel : Nat) : Option (Py (List (List α))) :=
  (blocks distance radius beta block_size pivots fuel 0 [(data, none)]).map fun bs =>
    clustersFromPairs ord (arrival (bs.map (blockPairs solver distance radius))).flatten min_size max_size mode true

/-- `quickjoin(..., similarity=similarity)`: the distance and the radius are negated (quickjoin.py l. 236-238). -/
def quickjoinSimilarity [DecidableEq α] (ord : α → List α → List α)
    (arrival : List (List (α × α)) → List (List (α × α))) (data : List α) (radius : K) (similarity : α → α → K)
    (block_size min_size : Nat) (max_size : Option Nat) (mode : Mode) (pivots : Pivots α) (beta : K)
    (solver : Solver α K) (fuel : Nat) : Option (Py (List (List α))) :=
  quickjoin ord arrival data (-radius) (fun x y => -similarity x y) block_size min_size max_size mode pivots beta solver
    fuel

/-- The filter of `quickjoin_join_pivots` (quickjoin.py l. 160-165): `f` is left false. -/
def keeps (pivots : List α) (distance : α → α → K) (radius : K) (A B : α) : Bool :=
  pivots.all fun p => !decide (max (distance p B - distance p A) (-(distance p B - distance p A)) > radius)

/-- `quickjoin_join_pivots(S1, S2, distance, radius)` (quickjoin.py l. 126-168). `P[l * N2 + j]` and `D[l]` are
`distance(S1[l], S2[j])` and `distance(S1[l], A)`. -/
def joinPivots (S1 S2 : List α) (distance : α → α → K) (radius : K) : Py (List (α × α)) :=
  let N1 := S1.length
  let k := max 1 (min 16 (N1 / 8))
  if N1 < k then .error .indexError
  else
    let pivots := S1.take k
    .ok ((pivots.flatMap fun A => S2.filterMap fun B => if distance A B ≤ radius then some (A, B) else none) ++
      (S1.drop k).flatMap fun A => S2.filterMap fun B =>
        if keeps pivots distance radius A B && decide (distance A B ≤ radius) then some (A, B) else none)

end Fog.Quickjoin
