/-!
# Model of `cfog/metrics/levenshtein.pyx`

A Python string is the list of its code points (`List Nat`).  `len`, `==` and indexing on strings are those of lists.
The C `unsigned int` counters are natural numbers: simplification, no wrap around at 2^32 except for `upper_bound`
(l. 156), so the model is meant for strings shorter than 2^32.  Storing a code point into an `unsigned short`
(l. 78-83, 90-98, 195) is reduction modulo 2^16.  `malloc`/`free` are not modelled.
-/

namespace Fog.Levenshtein

/-- Conversion of a code point to `unsigned short` (levenshtein.pyx l. 83, 98, 201, 206). -/
def ushort (c : Nat) : Nat := c % 65536

/-- `while LA > 0 and A[LA - 1] == B[LB - 1]: LA -= 1; LB -= 1`
(levenshtein.pyx l. 55-57 and l. 169-171). Called with `LA ≤ LB`. -/
def suffixLoop (A B : List Nat) : Nat → Nat → Nat × Nat
  | 0, LB => (0, LB)
  | LA + 1, LB => if A[LA]? = B[LB - 1]? then suffixLoop A B LA (LB - 1) else (LA + 1, LB)

/-- `while start < LA and A[start] == B[start]: start += 1`
(levenshtein.pyx l. 62-63 and l. 179-180). -/
def prefixLoop (A B : List Nat) (LA start : Nat) : Nat :=
  if h : start < LA then
    if A[start]? = B[start]? then prefixLoop A B LA (start + 1) else start
  else start
termination_by LA - start

/-- The new value of `current` in one turn of the inner loop (levenshtein.pyx l. 103-118 and l. 235-250):
`diag` is the old `left`, `up` the value read from the vector, `above` the old `current`. -/
def cell (charA code diag up above : Nat) : Nat :=
  if charA ≠ code then
    let current := diag
    let current := if up < current then up else current
    let current := if above < current then above else current
    current + 1
  else diag

/-- The inner loop `while j < LB` (levenshtein.pyx l. 102-122), over the codes and the vector from `j` on.
Returns the updated vector and the last `current`. -/
def rowLoop (charA : Nat) : List Nat → List Nat → Nat → Nat → List Nat × Nat
  | code :: codes, v :: vector, left, current =>
      let c := cell charA code left v current
      let r := rowLoop charA codes vector v c
      (c :: r.1, r.2)
  | _, _, _, current => ([], current)

/-- The outer loop `while i < LA` (levenshtein.pyx l. 95-124), over the characters of `A` from `i` on. -/
def outerLoop (codes : List Nat) : List Nat → Nat → List Nat → Nat → Nat
  | [], _, _, current => current
  | a :: as, i, vector, _ =>
      let r := rowLoop (ushort a) codes vector i (i + 1)
      outerLoop codes as (i + 1) r.1 r.2

/-- `levenshtein_distance` after the lengths have been ordered (levenshtein.pyx l. 54-129), with `LA ≤ LB`. -/
def levenshteinOrdered (A B : List Nat) : Nat :=
  let (LA, LB) := suffixLoop A B A.length B.length
  let start := prefixLoop A B LA 0
  let LA := LA - start
  let LB := LB - start
  if LA = 0 then LB
  else if LA = 1 then
    -- `if A[start] in B` (l. 72): the whole of `B` is searched
    if A[start]?.any (fun c => B.contains c) then LB - 1 else LB
  else
    let a := (A.drop start).take LA
    let b := (B.drop start).take LB
    outerLoop (b.map ushort) a 0 ((List.range LB).map (· + 1)) 0

/-- `levenshtein_distance(A, B)` (levenshtein.pyx l. 28-129).  `A is B` implies `A == B`, so the identity test adds
nothing. -/
def levenshteinDistance (A B : List Nat) : Nat :=
  if A = B then 0
  else if A.length > B.length then levenshteinOrdered B A
  else levenshteinOrdered A B

/-! ### Limited variant -/

/-- The inner loop `while j < j_end` (levenshtein.pyx l. 234-254) with in-place updates of the vector.
`fuel` is `j_end - j`. Returns the vector and the last `current`. `charA` is an `unsigned int`, hence not truncated,
whereas `codes` are. -/
def bandLoop (charA : Nat) (codes : List Nat) : Nat → Nat → List Nat → Nat → Nat → List Nat × Nat
  | 0, _, vector, _, current => (vector, current)
  | fuel + 1, j, vector, left, current =>
      let up := vector.getD j 0
      let c := cell charA (codes.getD j 0) left up current
      bandLoop charA codes fuel (j + 1) (vector.set j c) up c

/-- The outer loop `while i < LA` (levenshtein.pyx l. 224-264) and the final return. -/
def limitedLoop (codes : List Nat) (LB max_distance upper_bound diff offset : Nat) (have_max : Bool) :
    List Nat → Nat → Nat → Nat → List Nat → Nat → Nat
  | [], _, _, _, _, current => if current ≤ max_distance then current else upper_bound
  | a :: as, i, j_start, j_end, vector, _ =>
      let j_start := j_start + if i > offset then 1 else 0
      let j_end := j_end + if j_end < LB then 1 else 0
      let r := bandLoop a codes (j_end - j_start) j_start vector i (i + 1)
      if have_max && decide (r.1.getD (i + diff) 0 > max_distance) then upper_bound
      else limitedLoop codes LB max_distance upper_bound diff offset have_max as (i + 1) j_start j_end r.1 r.2

/-- `limited_levenshtein_distance` after the lengths have been ordered (levenshtein.pyx l. 165-264). -/
def limitedOrdered (max_distance : Nat) (A B : List Nat) : Nat :=
  let upper_bound := (max_distance + 1) % 2 ^ 32
  if A.length = 0 then (if B.length > max_distance then upper_bound else B.length)
  else
    let (LA, LB) := suffixLoop A B A.length B.length
    if LA = 0 then (if LB > max_distance then upper_bound else LB)
    else
      let start := prefixLoop A B LA 0
      let LA := LA - start
      let LB := LB - start
      if LA = 0 then (if LB > max_distance then upper_bound else LB)
      else
        let diff := LB - LA
        if max_distance ≤ LB ∧ diff > max_distance then upper_bound
        else
          let max_distance := if max_distance > LB then LB else max_distance
          let a := (A.drop start).take LA
          let b := (B.drop start).take LB
          let vector := (List.range LB).map fun i => if i < max_distance then i + 1 else upper_bound
          limitedLoop (b.map ushort) LB max_distance upper_bound diff (max_distance - diff)
            (decide (max_distance < LB)) a 0 0 max_distance vector 0

/-- `limited_levenshtein_distance(max_distance, A, B)` (levenshtein.pyx l. 133-264). -/
def limitedLevenshteinDistance (max_distance : Nat) (A B : List Nat) : Nat :=
  if A = B then 0
  else if A.length > B.length then limitedOrdered max_distance B A
  else limitedOrdered max_distance A B

/-! ### Distance at most one -/

/-- Loop searching for an addition (levenshtein.pyx l. 309-322 and 386-399), over the rest of `A` (from `i`) and of `B`
(from `j`). `cost1` is `cost == 1`. In the code `B[j]` is always in range; the model returns `false` otherwise. -/
def additionLoop {α : Type _} [DecidableEq α] : List α → List α → Bool → Bool
  | [], _, _ => true
  | _ :: _, [], _ => false
  | a :: as, b :: bs, cost1 =>
      if a = b then additionLoop as bs cost1
      else if cost1 then false
      else additionLoop (a :: as) bs true
termination_by _ bs => bs.length

/-- Loop searching for a substitution (levenshtein.pyx l. 327-339). -/
def substitutionLoop {α : Type _} [DecidableEq α] : List α → List α → Bool → Bool
  | a :: as, b :: bs, cost1 =>
      if a ≠ b then (if cost1 then false else substitutionLoop as bs true)
      else substitutionLoop as bs cost1
  | _, _, _ => true

/-- Loop searching for a substitution or a transposition (levenshtein.pyx l. 404-422). -/
def transpositionLoop {α : Type _} [DecidableEq α] : List α → List α → Bool → Bool
  | a :: a' :: as, b :: b' :: bs, cost1 =>
      if a ≠ b then
        if cost1 then false
        else if a' = b ∧ b' = a then transpositionLoop as bs true
        else transpositionLoop (a' :: as) (b' :: bs) true
      else transpositionLoop (a' :: as) (b' :: bs) cost1
  | [a], b :: _, cost1 => if a ≠ b then !cost1 else true
  | _, _, _ => true
termination_by as => as.length

/-- Common shape of both predicates once lengths are ordered (levenshtein.pyx l. 293-341 and 370-424). -/
def lte1Ordered {α : Type _} [DecidableEq α] (same_length : List α → List α → Bool → Bool) (A B : List α) : Bool :=
  if A.length = 0 then decide (B.length = 1)
  else if B.length - A.length > 1 then false
  else if B.length - A.length = 1 then additionLoop A B false
  else same_length A B false

/-- `levenshtein_distance_lte1(A, B)` (levenshtein.pyx l. 267-341).  `identical` is `A is B`. -/
def levenshteinDistanceLte1 {α : Type _} [DecidableEq α] (identical : Bool) (A B : List α) : Bool :=
  if identical then true
  else if A.length > B.length then lte1Ordered substitutionLoop B A
  else lte1Ordered substitutionLoop A B

/-- `damerau_levenshtein_distance_lte1(A, B)` (levenshtein.pyx l. 344-424). -/
def damerauLevenshteinDistanceLte1 {α : Type _} [DecidableEq α] (identical : Bool) (A B : List α) : Bool :=
  if identical then true
  else if A.length > B.length then lte1Ordered transpositionLoop B A
  else lte1Ordered transpositionLoop A B

end Fog.Levenshtein
