import Verif.Model.ClusteringUtils

/-!
# Model of `fog/clustering/passjoin.py`

Strings are lists of characters. The threshold `k` is a natural number.
-/

namespace Fog.Passjoin

open Fog.ClusteringUtils

variable {α : Type _} [DecidableEq α]

/-- `count_substrings_l(k, s, l)` (passjoin.py l. 26-41). `//` rounds towards minus infinity, as `/` on `Int` does for a
positive divisor. -/
def countSubstringsL (k s l : Int) : Int := (k ^ 2 - ((s - l).natAbs : Int) ^ 2) / 2 + k + 1

/-- `range(a, b)` for integers (passjoin.py l. 63, 98, 103, 180, 246). -/
def intRange (a b : Int) : List Int := (List.range (b - a).toNat).map fun n : Nat => a + (n : Int)

/-- `count_keys(k, s)` (passjoin.py l. 44-66). -/
def countKeys (k s : Int) : Int := (intRange (s - k) (s + 1)).foldl (fun c l => c + countSubstringsL k s l) 0

/-- `partition(k, l)` (passjoin.py l. 78-104): index, start and length of each segment. After the first loop
`i = small_segments - 1`; the loop runs at least once, so that `i` is bound. -/
def partition (k l : Nat) : List (Nat × Nat × Nat) :=
  let m := k + 1
  let a := l / m
  let b := a + 1
  let large_segments := l - a * m
  let small_segments := m - large_segments
  let i := small_segments - 1
  let offset := i * a + a
  (List.range small_segments).map (fun i => (i, i * a, a)) ++
    (List.range large_segments).map fun j => (i + 1 + j, offset + j * b, b)

/-- `segments(k, string)` (passjoin.py l. 107-120). -/
def segments (k : Nat) (string : List α) : List (Nat × List α) :=
  (partition k string.length).map fun (i, start, length) => (i, slice string start (start + length))

/-- `multi_match_aware_interval(k, delta, i, s, pi, li)` (passjoin.py l. 123-150). -/
def multiMatchAwareInterval (k delta i s pi li : Int) : Int × Int :=
  let start1 := pi - i
  let end1 := pi + i
  let o := k - i
  let start2 := pi + delta - o
  let end2 := pi + delta + o
  let end3 := s - li
  (max (max 0 start1) start2, min (min end1 end2) end3)

/-- The loop of `multi_match_aware_substrings` over the substrings (passjoin.py l. 178-190): drops a substring equal to
the last one yielded. -/
def skipRepeats (current : Option (List α)) : List (List α) → List (List α)
  | [] => []
  | substring :: l =>
      if some substring = current then skipRepeats current l else substring :: skipRepeats (some substring) l

/-- `multi_match_aware_substrings(k, string, l, i, pi, li)` (passjoin.py l. 153-190). The start of the interval is not
negative, and `string[j:j + li]` is only taken for `j` from it on. -/
def multiMatchAwareSubstrings (k : Nat) (string : List α) (l i pi li : Nat) : List (List α) :=
  let s := string.length
  let delta : Int := (s : Int) - l
  let (start, stop) := multiMatchAwareInterval k delta i s pi li
  skipRepeats none ((intRange start (stop + 1)).map fun j => slice string j.toNat (j.toNat + li))

/-- The index `L`: a `defaultdict` by length of `defaultdict`s by segment (passjoin.py l. 239). -/
abbrev Index (α : Type _) [DecidableEq α] := Dict Nat (Dict (Nat × List α) (List (List α)))

/-- The pairs yielded for one string (passjoin.py l. 243-269). `sort` is the `sort` argument. -/
def matchString (k : Nat) (distance : List α → List α → Nat) (sort : Bool) (L : Index α) (A : List α) :
    List (List α × List α) :=
  let s := A.length
  (pyRange (if sort then s else s - k) (s + k + 1)).flatMap fun l =>
    match L.get? l with
    | none => []
    | some Ll =>
        (partition k l).flatMap fun (i, start, length) =>
          (multiMatchAwareSubstrings k A l i start length).flatMap fun substring =>
            match Ll.get? (i, substring) with
            | none => []
            | some candidates =>
                candidates.filterMap fun B =>
                  if (s ≤ k ∧ l ≤ k) ∨ distance A B ≤ k then some (A, B) else none

/-- Indexing a string (passjoin.py l. 273-276). -/
def indexString (k : Nat) (L : Index α) (A : List α) : Index α :=
  L.update A.length [] fun Ll =>
    (segments k A).foldl (fun Ll key => Ll.update key [] fun bucket => bucket ++ [A]) Ll

/-- `clustering()` (passjoin.py l. 238-276), from an index. -/
def clustering (k : Nat) (distance : List α → List α → Nat) (sort : Bool) :
    (L : Index α) → List (List α) → List (List α × List α)
  | _, [] => []
  | L, A :: data => matchString k distance sort L A ++ clustering k distance sort (indexString k L A) data

/-- Comparison of the values of `sort_key` (passjoin.py l. 69-75): `(-len(a), a) <= (-len(b), b)`; `lexLe` compares
strings. -/
def sortKeyLe (lexLe : List α → List α → Bool) (a b : List α) : Bool :=
  decide (b.length < a.length) || (decide (b.length = a.length) && lexLe a b)

/-- `passjoin(data, k, distance, sort, min_size, max_size, mode)` (passjoin.py l. 193-283). -/
def passjoin (ord : List α → List (List α) → List (List α)) (lexLe : List α → List α → Bool) (data : List (List α))
    (k : Nat) (distance : List α → List α → Nat) (sort : Bool) (min_size : Nat) (max_size : Option Nat) (mode : Mode) :
    Py (List (List (List α))) :=
  let data := if sort then data.mergeSort (sortKeyLe lexLe) else data
  clustersFromPairs ord (clustering k distance sort [] data) min_size max_size mode false

end Fog.Passjoin
