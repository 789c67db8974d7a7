import Verif.Model.Levenshtein

/-!
# Model of the memory used by `cfog/metrics/levenshtein.pyx`

`Verif.Model.Levenshtein` says what the functions compute on natural numbers and lists.  This file follows the same code with the numbers
and the arrays of C: `unsigned int` is `UInt32`, whose operations wrap around, `len` is converted to it without a check, strings are read
without a check of bounds (`boundscheck(False)`), and arrays come from `malloc` and are given back by `free`.

A read or a write outside an array or a string, a read of a cell which was never written and any use of an array which was given back are
faults.  Simplified: `malloc` never fails, and the size of the array in bytes does not overflow (it is a 64 bits number).
-/

namespace Fog.LevenshteinMemory

open Fog.Levenshtein (ushort)

/-- What would be undefined behaviour in C (levenshtein.pyx l. 27, 132). -/
inductive Fault
  | outOfBounds | uninitialised | notAllocated
  deriving DecidableEq, Repr

/-- The arrays given by `malloc` so far: `none` once freed (levenshtein.pyx l. 77-78, 126-127). A cell is `none` until it is written. -/
abbrev Heap := List (Option (List (Option UInt32)))

/-- `malloc(n * sizeof(...))` (levenshtein.pyx l. 77-78, 195-196): the heap and the address of the array. -/
def malloc (h : Heap) (n : UInt32) : Heap × Nat := (h ++ [some (List.replicate n.toNat none)], h.length)

/-- `free(p)` (levenshtein.pyx l. 126-127, 261-262). -/
def free (h : Heap) (p : Nat) : Except Fault Heap :=
  match h[p]? with
  | some (some _) => .ok (h.set p none)
  | _ => .error .notAllocated

/-- `p[i]` (levenshtein.pyx l. 106, 108, 238, 240, 256). -/
def load (h : Heap) (p : Nat) (i : UInt32) : Except Fault UInt32 :=
  match h[p]? with
  | some (some cells) =>
      match cells[i.toNat]? with
      | some (some v) => .ok v
      | some none => .error .uninitialised
      | none => .error .outOfBounds
  | _ => .error .notAllocated

/-- `p[i] = v` (levenshtein.pyx l. 83-84, 120, 201-202, 206-207, 252). -/
def store (h : Heap) (p : Nat) (i v : UInt32) : Except Fault Heap :=
  match h[p]? with
  | some (some cells) => if i.toNat < cells.length then .ok (h.set p (some (cells.set i.toNat (some v)))) else .error .outOfBounds
  | _ => .error .notAllocated

/-- `s[i]` on a string, without a check (levenshtein.pyx l. 55, 62, 83, 98, 169, 179, 201, 206, 228). -/
def charAt (s : List Nat) (i : UInt32) : Except Fault Nat :=
  match s[i.toNat]? with
  | some c => .ok c
  | none => .error .outOfBounds

/-- `cdef unsigned int L = len(s)` (levenshtein.pyx l. 47-48, 158-159, 285-286, 362-363). -/
def len (s : List Nat) : UInt32 := UInt32.ofNat s.length

theorem sub_one_lt {n : UInt32} (h : 0 < n) : (n - 1).toNat < n.toNat := by
  have := UInt32.lt_iff_toNat_lt.mp h
  rw [UInt32.toNat_sub_of_le _ _ (by rw [UInt32.le_iff_toNat_le]; simp at *; omega)]
  simp at *
  omega

theorem add_one_toNat {i n : UInt32} (h : i < n) : (i + 1).toNat = i.toNat + 1 := by
  have := UInt32.lt_iff_toNat_lt.mp h
  have := n.toNat_lt
  rw [UInt32.toNat_add]
  simp
  omega

theorem step_lt {i n : UInt32} (h : i < n) : n.toNat - (i + 1).toNat < n.toNat - i.toNat := by
  have := UInt32.lt_iff_toNat_lt.mp h
  rw [add_one_toNat h]
  omega

/-- `while LA > 0 and A[LA - 1] == B[LB - 1]` (levenshtein.pyx l. 55-57 and 169-171). -/
def suffixLoop (A B : List Nat) (LA LB : UInt32) : Except Fault (UInt32 × UInt32) :=
  if _h : 0 < LA then
    match charAt A (LA - 1), charAt B (LB - 1) with
    | .ok a, .ok b => if a = b then suffixLoop A B (LA - 1) (LB - 1) else .ok (LA, LB)
    | .error e, _ => .error e
    | _, .error e => .error e
  else .ok (LA, LB)
termination_by LA.toNat
decreasing_by exact sub_one_lt _h

/-- `while start < LA and A[start] == B[start]` (levenshtein.pyx l. 62-63 and 179-180). -/
def prefixLoop (A B : List Nat) (LA start : UInt32) : Except Fault UInt32 :=
  if _h : start < LA then
    match charAt A start, charAt B start with
    | .ok a, .ok b => if a = b then prefixLoop A B LA (start + 1) else .ok start
    | .error e, _ => .error e
    | _, .error e => .error e
  else .ok start
termination_by LA.toNat - start.toNat
decreasing_by exact step_lt _h

/-- `while i < limit: codes[i] = ord(B[start + i]); vector[i] = ...; i += 1` (levenshtein.pyx l. 82-85, 200-203 and 205-208), where `value i`
is what is written in the vector. -/
def fillLoop (B : List Nat) (start : UInt32) (codes vector : Nat) (limit : UInt32) (value : UInt32 → UInt32) (i : UInt32) (h : Heap) :
    Except Fault Heap :=
  if _h : i < limit then
    match charAt B (start + i) with
    | .error e => .error e
    | .ok c =>
        match store h codes i (UInt32.ofNat (ushort c)) with
        | .error e => .error e
        | .ok h =>
            match store h vector i (value i) with
            | .error e => .error e
            | .ok h => fillLoop B start codes vector limit value (i + 1) h
  else .ok h
termination_by limit.toNat - i.toNat
decreasing_by exact step_lt _h

/-- The new value of `current` (levenshtein.pyx l. 103-118 and 235-250): `diag` is the old `left`, `up` the value read from the vector,
`above` the old `current`. -/
def cell (charA code diag up above : UInt32) : UInt32 :=
  if charA ≠ code then
    let current := diag
    let current := if up < current then up else current
    let current := if above < current then above else current
    current + 1
  else diag

/-- `while j < limit` (levenshtein.pyx l. 102-122 and 234-254): the heap and the last `current`. -/
def rowLoop (charA : UInt32) (codes vector : Nat) (limit j left current : UInt32) (h : Heap) : Except Fault (Heap × UInt32) :=
  if _h : j < limit then
    match load h vector j, load h codes j with
    | .ok up, .ok code =>
        match store h vector j (cell charA code left up current) with
        | .error e => .error e
        | .ok h => rowLoop charA codes vector limit (j + 1) up (cell charA code left up current) h
    | .error e, _ => .error e
    | _, .error e => .error e
  else .ok (h, current)
termination_by limit.toNat - j.toNat
decreasing_by exact step_lt _h

/-- `while i < LA` in `levenshtein_distance` (levenshtein.pyx l. 95-124). -/
def outerLoop (A : List Nat) (start : UInt32) (codes vector : Nat) (LA LB i current : UInt32) (h : Heap) : Except Fault (Heap × UInt32) :=
  if _h : i < LA then
    match charAt A (start + i) with
    | .error e => .error e
    | .ok c =>
        match rowLoop (UInt32.ofNat (ushort c)) codes vector LB 0 i (i + 1) h with
        | .error e => .error e
        | .ok (h, current) => outerLoop A start codes vector LA LB (i + 1) current h
  else .ok (h, current)
termination_by LA.toNat - i.toNat
decreasing_by exact step_lt _h

/-- `levenshtein_distance` after the lengths have been ordered (levenshtein.pyx l. 54-129). -/
def levenshteinOrdered (A B : List Nat) (LA LB : UInt32) (h : Heap) : Except Fault (Heap × UInt32) := do
  let (LA, LB) ← suffixLoop A B LA LB
  let start ← prefixLoop A B LA 0
  let LA := LA - start
  let LB := LB - start
  if LA = 0 then return (h, LB)
  if LA = 1 then
    let c ← charAt A start
    return (h, if B.contains c then LB - 1 else LB)
  let (h, codes) := malloc h LB
  let (h, vector) := malloc h LB
  let h ← fillLoop B start codes vector LB (fun i => i + 1) 0 h
  let (h, current) ← outerLoop A start codes vector LA LB 0 0 h
  let h ← free h codes
  let h ← free h vector
  return (h, current)

/-- `levenshtein_distance(A, B)` (levenshtein.pyx l. 28-129): the heap afterwards and the value. -/
def levenshteinDistance (A B : List Nat) (h : Heap) : Except Fault (Heap × UInt32) :=
  if A = B then .ok (h, 0)
  else if len A > len B then levenshteinOrdered B A (len B) (len A) h
  else levenshteinOrdered A B (len A) (len B) h

/-- `while i < LA` in `limited_levenshtein_distance` and the end of the function (levenshtein.pyx l. 224-264): the return of l. 257 gives
nothing back. -/
def limitedLoop (A : List Nat) (start : UInt32) (codes vector : Nat) (LA LB max_distance upper_bound diff offset : UInt32) (have_max : Bool)
    (i j_start j_end current : UInt32) (h : Heap) : Except Fault (Heap × UInt32) :=
  if _h : i < LA then
    match charAt A (start + i) with
    | .error e => .error e
    | .ok c =>
        let j_start := j_start + if i > offset then 1 else 0
        let j_end := j_end + if j_end < LB then 1 else 0
        match rowLoop (UInt32.ofNat c) codes vector j_end j_start i (i + 1) h with
        | .error e => .error e
        | .ok (h, current) =>
            match (if have_max then load h vector (i + diff) else .ok 0) with
            | .error e => .error e
            | .ok v =>
                if have_max ∧ v > max_distance then .ok (h, upper_bound)
                else limitedLoop A start codes vector LA LB max_distance upper_bound diff offset have_max (i + 1) j_start j_end current h
  else
    match free h codes with
    | .error e => .error e
    | .ok h =>
        match free h vector with
        | .error e => .error e
        | .ok h => .ok (h, if current ≤ max_distance then current else upper_bound)
termination_by LA.toNat - i.toNat
decreasing_by exact step_lt _h

/-- `limited_levenshtein_distance` after the lengths have been ordered (levenshtein.pyx l. 165-264). -/
def limitedOrdered (max_distance : UInt32) (A B : List Nat) (LA LB : UInt32) (h : Heap) : Except Fault (Heap × UInt32) := do
  let upper_bound := max_distance + 1
  if LA = 0 then return (h, if LB > max_distance then upper_bound else LB)
  let (LA, LB) ← suffixLoop A B LA LB
  if LA = 0 then return (h, if LB > max_distance then upper_bound else LB)
  let start ← prefixLoop A B LA 0
  let LA := LA - start
  let LB := LB - start
  if LA = 0 then return (h, if LB > max_distance then upper_bound else LB)
  let diff := LB - LA
  if ¬ max_distance > LB ∧ diff > max_distance then return (h, upper_bound)
  let max_distance := if max_distance > LB then LB else max_distance
  let (h, codes) := malloc h LB
  let (h, vector) := malloc h LB
  let h ← fillLoop B start codes vector max_distance (fun i => i + 1) 0 h
  let h ← fillLoop B start codes vector LB (fun _ => upper_bound) max_distance h
  limitedLoop A start codes vector LA LB max_distance upper_bound diff (max_distance - diff) (decide (max_distance < LB)) 0 0 max_distance 0 h

/-- `limited_levenshtein_distance(max_distance, A, B)` (levenshtein.pyx l. 133-264): the heap afterwards and the value. -/
def limitedLevenshteinDistance (max_distance : UInt32) (A B : List Nat) (h : Heap) : Except Fault (Heap × UInt32) :=
  if A = B then .ok (h, 0)
  else if len A > len B then limitedOrdered max_distance B A (len B) (len A) h
  else limitedOrdered max_distance A B (len A) (len B) h

/-! ### Distance at most one -/

/-- `while i < LA` when the lengths differ by one (levenshtein.pyx l. 309-322 and 386-399); `cost1` is `cost == 1`. -/
def additionLoop (A B : List Nat) (LA i j : UInt32) (cost1 : Bool) : Except Fault Bool :=
  if _h : i < LA then
    match charAt A i, charAt B j with
    | .ok a, .ok b =>
        if a = b then additionLoop A B LA (i + 1) (j + 1) cost1
        else match cost1 with
          | true => .ok false
          | false => additionLoop A B LA i (j + 1) true
    | .error e, _ => .error e
    | _, .error e => .error e
  else .ok true
termination_by (LA.toNat - i.toNat, if cost1 then 0 else 1)
decreasing_by
  · exact Prod.Lex.left _ _ (step_lt _h)
  · exact Prod.Lex.right _ (by decide)

/-- `while i < LA` when the lengths are equal (levenshtein.pyx l. 327-339). -/
def substitutionLoop (A B : List Nat) (LA i : UInt32) (cost1 : Bool) : Except Fault Bool :=
  if _h : i < LA then
    match charAt A i, charAt B i with
    | .ok a, .ok b =>
        if a ≠ b then (if cost1 then .ok false else substitutionLoop A B LA (i + 1) true)
        else substitutionLoop A B LA (i + 1) cost1
    | .error e, _ => .error e
    | _, .error e => .error e
  else .ok true
termination_by LA.toNat - i.toNat
decreasing_by all_goals exact step_lt _h

theorem two_steps_lt {i n : UInt32} (h : i + 1 < n) (h' : i < n) : n.toNat - (i + 2).toNat < n.toNat - i.toNat := by
  have e : i + 2 = i + 1 + 1 := by rw [UInt32.add_assoc]; rfl
  rw [e]
  exact Nat.lt_trans (step_lt h) (step_lt h')

/-- `while i < LA` when the lengths are equal, with transpositions (levenshtein.pyx l. 404-422). -/
def transpositionLoop (A B : List Nat) (LA i : UInt32) (cost1 : Bool) : Except Fault Bool :=
  if _h : i < LA then
    match charAt A i, charAt B i with
    | .ok a, .ok b =>
        if a ≠ b then
          if cost1 then .ok false
          else if _h2 : i + 1 < LA then
            match charAt A (i + 1) with
            | .error e => .error e
            | .ok a' =>
                if a' = b then
                  match charAt B (i + 1) with
                  | .error e => .error e
                  | .ok b' => if b' = a then transpositionLoop A B LA (i + 2) true else transpositionLoop A B LA (i + 1) true
                else transpositionLoop A B LA (i + 1) true
          else transpositionLoop A B LA (i + 1) true
        else transpositionLoop A B LA (i + 1) cost1
    | .error e, _ => .error e
    | _, .error e => .error e
  else .ok true
termination_by LA.toNat - i.toNat
decreasing_by all_goals first | exact step_lt _h | exact two_steps_lt _h2 _h

/-- Both predicates once the lengths are ordered (levenshtein.pyx l. 293-341 and 370-424). -/
def lte1Ordered (same_length : List Nat → List Nat → UInt32 → UInt32 → Bool → Except Fault Bool) (A B : List Nat) (LA LB : UInt32) :
    Except Fault Bool :=
  if LA = 0 then .ok (decide (LB = 1))
  else if LB - LA > 1 then .ok false
  else if LB - LA = 1 then additionLoop A B LA 0 0 false
  else same_length A B LA 0 false

/-- `levenshtein_distance_lte1(A, B)` (levenshtein.pyx l. 267-341): a fault is an `IndexError`. `identical` is `A is B`. -/
def levenshteinDistanceLte1 (identical : Bool) (A B : List Nat) : Except Fault Bool :=
  if identical then .ok true
  else if len A > len B then lte1Ordered substitutionLoop B A (len B) (len A)
  else lte1Ordered substitutionLoop A B (len A) (len B)

/-- `damerau_levenshtein_distance_lte1(A, B)` (levenshtein.pyx l. 344-424). -/
def damerauLevenshteinDistanceLte1 (identical : Bool) (A B : List Nat) : Except Fault Bool :=
  if identical then .ok true
  else if len A > len B then lte1Ordered transpositionLoop B A (len B) (len A)
  else lte1Ordered transpositionLoop A B (len A) (len B)

end Fog.LevenshteinMemory
