import Verif.Model.Quickjoin

/-!
# Model of `quickjoin` of `fog/clustering/quickjoin.py`: the distances it computes

The functions of `Verif.Model.Quickjoin`, which also count the calls to `distance`, for one process and without vantage point trees.
-/

namespace Fog.Quickjoin

open Fog.ClusteringUtils

variable {α K : Type _} [Field K] [LinearOrder K]

/-- `partition(S, distance, p, radius, rho)` (quickjoin.py l. 40-63), with its calls. -/
def partitionCalls (distance : α → α → K) (p : α) (radius rho : K) : List α → Parts α × Nat
  | [] => (⟨[], [], [], []⟩, 0)
  | item :: S =>
      let l := rho - radius
      let g := rho + radius
      let (parts, n) := partitionCalls distance p radius rho S
      let d := distance p item
      if d < rho then
        ({ parts with L := item :: parts.L, Lw := if l ≤ d then item :: parts.Lw else parts.Lw }, n + 1)
      else
        ({ parts with G := item :: parts.G, Gw := if d ≤ g then item :: parts.Gw else parts.Gw }, n + 1)

/-- The loop over `B` of both joins (quickjoin.py l. 70-74, 83-87), with its calls. -/
def compareCalls (A : α) (distance : α → α → K) (radius : K) : List α → List (α × α) × Nat
  | [] => ([], 0)
  | B :: S =>
      let r := compareCalls A distance radius S
      (if distance A B ≤ radius then (A, B) :: r.1 else r.1, r.2 + 1)

/-- `quickjoin_bruteforce(S1, S2, distance, radius)` (quickjoin.py l. 66-74), with its calls. -/
def bruteforceCalls : List α → List α → (distance : α → α → K) → (radius : K) → List (α × α) × Nat
  | [], _, _, _ => ([], 0)
  | A :: S1, S2, distance, radius =>
      let r := compareCalls A distance radius S2
      let s := bruteforceCalls S1 S2 distance radius
      (r.1 ++ s.1, r.2 + s.2)

/-- `quickjoin_self_bruteforce(S, distance, radius)` (quickjoin.py l. 77-87), with its calls. -/
def selfBruteforceCalls : List α → (distance : α → α → K) → (radius : K) → List (α × α) × Nat
  | [], _, _ => ([], 0)
  | A :: S, distance, radius =>
      let r := compareCalls A distance radius S
      let s := selfBruteforceCalls S distance radius
      (r.1 ++ s.1, r.2 + s.2)

/-- The pairs of a block (quickjoin.py l. 316-320), with the calls. -/
def blockCalls (distance : α → α → K) (radius : K) : Block α → List (α × α) × Nat
  | (S1, none) => selfBruteforceCalls S1 distance radius
  | (S1, some S2) => bruteforceCalls S1 S2 distance radius

/-- `blocks()` (quickjoin.py l. 241-309), with the calls made to choose `rho` and to partition. -/
def blocksCalls (distance : α → α → K) (radius beta : K) (block_size : Nat) (pivots : Pivots α) :
    (fuel step : Nat) → (stack : List (Block α)) → Option (List (Block α) × Nat)
  | 0, _, _ => none
  | _ + 1, _, [] => some ([], 0)
  | fuel + 1, step, (S, none) :: stack =>
      let N := S.length
      if N ≤ block_size then
        (blocksCalls distance radius beta block_size pivots fuel (step + 1) stack).map fun r => ((S, none) :: r.1, r.2)
      else if N < 2 then none
      else
        let (p1, p2) := pivots step (S, none)
        match S[p1]?, S[p2]? with
        | some p1, some p2 =>
            let rho := beta * distance p1 p2
            let (P, n) := partitionCalls distance p1 radius rho S
            (blocksCalls distance radius beta block_size pivots fuel (step + 1)
              ((P.Lw, some P.Gw) :: (P.L, none) :: (P.G, none) :: stack)).map fun r => (r.1, 1 + n + r.2)
        | _, _ => none
  | fuel + 1, step, (S1, some S2) :: stack =>
      let N1 := S1.length
      let N2 := S2.length
      let N := N1 + N2
      if N ≤ block_size then
        if N1 = 0 ∨ N2 = 0 then blocksCalls distance radius beta block_size pivots fuel (step + 1) stack
        else (blocksCalls distance radius beta block_size pivots fuel (step + 1) stack).map fun r => ((S1, some S2) :: r.1, r.2)
      else if N < 2 then none
      else
        let (p1, p2) := pivots step (S1, some S2)
        match (if p1 < N1 then S1[p1]? else S2[p1 - N1]?), (if p2 < N1 then S1[p2]? else S2[p2 - N1]?) with
        | some p1, some p2 =>
            let rho := beta * distance p1 p2
            let (P1, n1) := partitionCalls distance p1 radius rho S1
            let (P2, n2) := partitionCalls distance p1 radius rho S2
            (blocksCalls distance radius beta block_size pivots fuel (step + 1)
              ((P1.Gw, some P2.Lw) :: (P1.Lw, some P2.Gw) :: (P1.G, some P2.G) :: (P1.L, some P2.L) :: stack)).map
                fun r => (r.1, 1 + n1 + n2 + r.2)
        | _, _ => none

/-- `quickjoin(...)` for one process and without vantage point trees (quickjoin.py l. 191-340): the clusters, the calls made by
`blocks()`, and the calls made to solve the blocks. -/
def quickjoinCalls [DecidableEq α] (ord : α → List α → List α) (data : List α) (radius : K) (distance : α → α → K)
    (block_size min_size : Nat) (max_size : Option Nat) (mode : Mode) (pivots : Pivots α) (beta : K) (fuel : Nat) :
    Option (Py (List (List α)) × Nat × Nat) :=
  (blocksCalls distance radius beta block_size pivots fuel 0 [(data, none)]).map fun bs =>
    let rs := bs.1.map (blockCalls distance radius)
    (clustersFromPairs ord (rs.map Prod.fst).flatten min_size max_size mode true, bs.2, (rs.map Prod.snd).sum)

end Fog.Quickjoin
