import Verif.Model.Levenshtein

/-!
# Model of `limited_levenshtein_distance` of `cfog/metrics/levenshtein.pyx`: the cells

The function of `Verif.Model.Levenshtein`, which also counts the turns of its inner loop: each of them computes one cell of the matrix.
-/

namespace Fog.Levenshtein

/-- The inner loop `while j < j_end` (levenshtein.pyx l. 234-254), with its turns. -/
def bandCells (charA : Nat) (codes : List Nat) : Nat → Nat → List Nat → Nat → Nat → (List Nat × Nat) × Nat
  | 0, _, vector, _, current => ((vector, current), 0)
  | fuel + 1, j, vector, left, current =>
      let up := vector.getD j 0
      let c := cell charA (codes.getD j 0) left up current
      let r := bandCells charA codes fuel (j + 1) (vector.set j c) up c
      (r.1, r.2 + 1)

/-- The outer loop `while i < LA` (levenshtein.pyx l. 224-264) and the final return, with the turns of the inner loop. -/
def limitedLoopCells (codes : List Nat) (LB max_distance upper_bound diff offset : Nat) (have_max : Bool) :
    List Nat → Nat → Nat → Nat → List Nat → Nat → Nat × Nat
  | [], _, _, _, _, current => (if current ≤ max_distance then current else upper_bound, 0)
  | a :: as, i, j_start, j_end, vector, _ =>
      let j_start := j_start + if i > offset then 1 else 0
      let j_end := j_end + if j_end < LB then 1 else 0
      let r := bandCells a codes (j_end - j_start) j_start vector i (i + 1)
      if have_max && decide (r.1.1.getD (i + diff) 0 > max_distance) then (upper_bound, r.2)
      else
        let s := limitedLoopCells codes LB max_distance upper_bound diff offset have_max as (i + 1) j_start j_end r.1.1 r.1.2
        (s.1, r.2 + s.2)

/-- `limited_levenshtein_distance` after the lengths have been ordered (levenshtein.pyx l. 165-264), with its cells. -/
def limitedOrderedCells (max_distance : Nat) (A B : List Nat) : Nat × Nat :=
  let upper_bound := (max_distance + 1) % 2 ^ 32
  if A.length = 0 then (if B.length > max_distance then upper_bound else B.length, 0)
  else
    let (LA, LB) := suffixLoop A B A.length B.length
    if LA = 0 then (if LB > max_distance then upper_bound else LB, 0)
    else
      let start := prefixLoop A B LA 0
      let LA := LA - start
      let LB := LB - start
      if LA = 0 then (if LB > max_distance then upper_bound else LB, 0)
      else
        let diff := LB - LA
        if max_distance ≤ LB ∧ diff > max_distance then (upper_bound, 0)
        else
          let max_distance := if max_distance > LB then LB else max_distance
          let a := (A.drop start).take LA
          let b := (B.drop start).take LB
          let vector := (List.range LB).map fun i => if i < max_distance then i + 1 else upper_bound
          limitedLoopCells (b.map ushort) LB max_distance upper_bound diff (max_distance - diff)
            (decide (max_distance < LB)) a 0 0 max_distance vector 0

/-- `limited_levenshtein_distance(max_distance, A, B)` (levenshtein.pyx l. 133-264), with its cells. -/
def limitedCells (max_distance : Nat) (A B : List Nat) : Nat × Nat :=
  if A = B then (0, 0)
  else if A.length > B.length then limitedOrderedCells max_distance B A
  else limitedOrderedCells max_distance A B

end Fog.Levenshtein
