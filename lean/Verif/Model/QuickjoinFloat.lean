import Verif.Model.Quickjoin
import Mathlib.Data.Real.Basic

/-!
# Model of `fog/clustering/quickjoin.py` in double precision

`fl` is the rounding done after each operation on floats. The distances, the radius and `beta` are reals, which the theorems ask
to be doubles. What does no arithmetic is that of `Verif/Model/Quickjoin.lean`.
-/

namespace Fog.QuickjoinFloat

open Fog.ClusteringUtils Fog.Quickjoin

variable {α : Type _}

/-- `partition(S, distance, p, radius, rho)` (quickjoin.py l. 40-63): `rho - radius` and `rho + radius` are rounded. -/
noncomputable def partition (fl : ℝ → ℝ) (distance : α → α → ℝ) (p : α) (radius rho : ℝ) : List α → Parts α
  | [] => ⟨[], [], [], []⟩
  | item :: S =>
      let l := fl (rho - radius)
      let g := fl (rho + radius)
      let parts := partition fl distance p radius rho S
      let d := distance p item
      if d < rho then
        { parts with L := item :: parts.L, Lw := if l ≤ d then item :: parts.Lw else parts.Lw }
      else
        { parts with G := item :: parts.G, Gw := if d ≤ g then item :: parts.Gw else parts.Gw }

/-- `blocks()` (quickjoin.py l. 241-309): `beta * distance(p1, p2)` is rounded. The top of the stack is the head of the list. `none` when there is not enough fuel,
or when there are less than two items to choose two different pivots from: the loop choosing them does not stop. -/
noncomputable def blocks (fl : ℝ → ℝ) (distance : α → α → ℝ) (radius beta : ℝ) (block_size : Nat) (pivots : Pivots α) :
    (fuel step : Nat) → (stack : List (Block α)) → Option (List (Block α))
  | 0, _, _ => none
  | _ + 1, _, [] => some []
  | fuel + 1, step, (S, none) :: stack =>
      let N := S.length
      if N ≤ block_size then (blocks fl distance radius beta block_size pivots fuel (step + 1) stack).map ((S, none) :: ·)
      else if N < 2 then none
      else
        let (p1, p2) := pivots step (S, none)
        match S[p1]?, S[p2]? with
        | some p1, some p2 =>
            let rho := fl (beta * distance p1 p2)
            let P := partition fl distance p1 radius rho S
            blocks fl distance radius beta block_size pivots fuel (step + 1)
              ((P.Lw, some P.Gw) :: (P.L, none) :: (P.G, none) :: stack)
        | _, _ => none
  | fuel + 1, step, (S1, some S2) :: stack =>
      let N1 := S1.length
      let N2 := S2.length
      let N := N1 + N2
      if N ≤ block_size then
        if N1 = 0 ∨ N2 = 0 then blocks fl distance radius beta block_size pivots fuel (step + 1) stack
        else (blocks fl distance radius beta block_size pivots fuel (step + 1) stack).map ((S1, some S2) :: ·)
      else if N < 2 then none
      else
        let (p1, p2) := pivots step (S1, some S2)
        match (if p1 < N1 then S1[p1]? else S2[p1 - N1]?), (if p2 < N1 then S1[p2]? else S2[p2 - N1]?) with
        | some p1, some p2 =>
            let rho := fl (beta * distance p1 p2)
            let P1 := partition fl distance p1 radius rho S1
            let P2 := partition fl distance p1 radius rho S2
            blocks fl distance radius beta block_size pivots fuel (step + 1)
              ((P1.Gw, some P2.Lw) :: (P1.Lw, some P2.Gw) :: (P1.G, some P2.G) :: (P1.L, some P2.L) :: stack)
        | _, _ => none

/-- `quickjoin(...)` (quickjoin.py l. 191-340), with floats. `arrival` reorders the results of the workers (`pool.imap_unordered`); it is
the identity for one process. `none` when `blocks()` is not over. -/
noncomputable def quickjoin [DecidableEq α] (fl : ℝ → ℝ) (ord : α → List α → List α) (arrival : List (List (α × α)) → List (List (α × α)))
    (data : List α) (radius : ℝ) (distance : α → α → ℝ) (block_size min_size : Nat) (max_size : Option Nat) (mode : Mode)
    (pivots : Pivots α) (beta : ℝ) (solver : Solver α ℝ) (fuel : Nat) : Option (Py (List (List α))) :=
  (blocks fl distance radius beta block_size pivots fuel 0 [(data, none)]).map fun bs =>
    clustersFromPairs ord (arrival (bs.map (blockPairs solver distance radius))).flatten min_size max_size mode true

/-- The filter of `quickjoin_join_pivots` (quickjoin.py l. 160-165): the difference of the two distances is rounded, `f` is left
false. -/
noncomputable def keeps (fl : ℝ → ℝ) (pivots : List α) (distance : α → α → ℝ) (radius : ℝ) (A B : α) : Bool :=
  pivots.all fun p => !decide (max (fl (distance p B - distance p A)) (-fl (distance p B - distance p A)) > radius)

/-- `quickjoin_join_pivots(S1, S2, distance, radius)` (quickjoin.py l. 126-168), with floats. `P[l * N2 + j]` and `D[l]` are
`distance(S1[l], S2[j])` and `distance(S1[l], A)`. -/
noncomputable def joinPivots (fl : ℝ → ℝ) (S1 S2 : List α) (distance : α → α → ℝ) (radius : ℝ) : Py (List (α × α)) :=
  let N1 := S1.length
  let k := max 1 (min 16 (N1 / 8))
  if N1 < k then .error .indexError
  else
    let pivots := S1.take k
    .ok ((pivots.flatMap fun A => S2.filterMap fun B => if distance A B ≤ radius then some (A, B) else none) ++
      (S1.drop k).flatMap fun A => S2.filterMap fun B =>
        if keeps fl pivots distance radius A B && decide (distance A B ≤ radius) then some (A, B) else none)

end Fog.QuickjoinFloat
