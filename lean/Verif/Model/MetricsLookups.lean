import Verif.Model.Metrics

/-!
# Model of the set metrics of `fog/metrics`: the lookups

The functions of `Verif.Model.Metrics`, which also list the elements they look up in the other set (`v in B`), in order.
-/

namespace Fog.Metrics

variable {α κ : Type _} [DecidableEq α] [DecidableEq κ]

/-- The loop counting the intersection, with its lookups (jaccard.py l. 59-63, dice.py l. 59-63, overlap.py l. 45-49, utils.py l. 26-32). -/
def countInLookups (A B : List α) : Nat × List α := A.foldl (fun s v => (if v ∈ B then s.1 + 1 else s.1, s.2 ++ [v])) (0, [])

/-- `intersection_size(A, B)` (utils.py l. 10-32). -/
def intersectionSizeLookups (same : Bool) (A B : List α) : Nat × List α :=
  if same then (A.length, [])
  else
    let (A, B) := swapped (dedup A) (dedup B)
    if A.length = 0 then (0, []) else countInLookups A B

/-- `jaccard_similarity(A, B)` (jaccard.py l. 20-68). -/
def jaccardLookups (same : Bool) (A B : List α) : ℚ × List α :=
  if same then (1, [])
  else
    let A := dedup A
    let B := dedup B
    if A.length = 0 ∨ B.length = 0 then (0, [])
    else
      let (A, B) := swapped A B
      let I := countInLookups A B
      let U := A.length + B.length - I.1
      ((I.1 : ℚ) / (U : ℚ), I.2)

/-- `dice_coefficient(A, B)` (dice.py l. 17-65). -/
def diceLookups (same : Bool) (A B : List α) : ℚ × List α :=
  if same then (1, [])
  else
    let (A, B) := swapped (dedup A) (dedup B)
    let la := A.length
    let lb := B.length
    if la = 0 then (if lb = 0 then 1 else 0, [])
    else
      let I := countInLookups A B
      ((2 * I.1 : ℚ) / ((la + lb : Nat) : ℚ), I.2)

/-- `overlap_coefficient(A, B)` (overlap.py l. 13-51). -/
def overlapLookups (same : Bool) (A B : List α) : ℚ × List α :=
  if same then (1, [])
  else
    let A := dedup A
    let B := dedup B
    if A.length = 0 ∨ B.length = 0 then (0, [])
    else
      let (A, B) := swapped A B
      let I := countInLookups A B
      ((I.1 : ℚ) / ((min A.length B.length : Nat) : ℚ), I.2)

end Fog.Metrics
