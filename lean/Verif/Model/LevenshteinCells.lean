import Verif.Model.Levenshtein

/-!
# Model of `levenshtein_distance` of `cfog/metrics/levenshtein.pyx`: the cells

The function of `Verif.Model.Levenshtein`, which also counts the turns of its inner loop: each of them computes one cell of the matrix.
-/

namespace Fog.Levenshtein

/-- The inner loop `while j < LB` (levenshtein.pyx l. 102-122), with its turns. -/
def rowCells (charA : Nat) : List Nat → List Nat → Nat → Nat → (List Nat × Nat) × Nat
  | code :: codes, v :: vector, left, current =>
      let c := cell charA code left v current
      let r := rowCells charA codes vector v c
      ((c :: r.1.1, r.1.2), r.2 + 1)
  | _, _, _, current => (([], current), 0)

/-- The outer loop `while i < LA` (levenshtein.pyx l. 95-124), with the turns of the inner loop. -/
def outerCells (codes : List Nat) : List Nat → Nat → List Nat → Nat → Nat × Nat
  | [], _, _, current => (current, 0)
  | a :: as, i, vector, _ =>
      let r := rowCells (ushort a) codes vector i (i + 1)
      let s := outerCells codes as (i + 1) r.1.1 r.1.2
      (s.1, r.2 + s.2)

/-- `levenshtein_distance` after the lengths have been ordered (levenshtein.pyx l. 54-129), with its cells. -/
def levenshteinOrderedCells (A B : List Nat) : Nat × Nat :=
  let (LA, LB) := suffixLoop A B A.length B.length
  let start := prefixLoop A B LA 0
  let LA := LA - start
  let LB := LB - start
  if LA = 0 then (LB, 0)
  else if LA = 1 then
    (if A[start]?.any (fun c => B.contains c) then LB - 1 else LB, 0)
  else
    let a := (A.drop start).take LA
    let b := (B.drop start).take LB
    outerCells (b.map ushort) a 0 ((List.range LB).map (· + 1)) 0

/-- `levenshtein_distance(A, B)` (levenshtein.pyx l. 28-129), with its cells. -/
def levenshteinCells (A B : List Nat) : Nat × Nat :=
  if A = B then (0, 0)
  else if A.length > B.length then levenshteinOrderedCells B A
  else levenshteinOrderedCells A B

end Fog.Levenshtein
