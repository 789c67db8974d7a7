import Mathlib.Data.List.Forall2

/-!
# Specification: variant spellings of transliterated names

Independent of the code.
-/

namespace Fog.Spec

/-- Lower case letters of the Latin alphabet. -/
def IsLetter (c : Char) : Prop := 'a' ≤ c ∧ c ≤ 'z'

/-- The same letter, or two among `f`, `v` and `w`. -/
def SameF (c d : Char) : Prop := c = d ∨ (c ∈ ['f', 'v', 'w'] ∧ d ∈ ['f', 'v', 'w'])

/-- The same letter, or two among `f`, `v` and `w`, or two among `a` and `e`. -/
def SameAE (c d : Char) : Prop := SameF c d ∨ (c ∈ ['a', 'e'] ∧ d ∈ ['a', 'e'])

/-- Spellings of one sound. -/
def shSpellings : List (List Char) :=
  [['c', 'h'], ['s', 'h'], ['t', 'c', 'h'], ['d', 'c', 'h'], ['t', 's', 'h'], ['d', 's', 'h'], ['t', 'z']]

/-- Spellings of one sound. -/
def zhSpellings : List (List Char) := [['z', 'h'], ['j'], ['d', 'z', 'h'], ['d', 'j'], ['t', 'j']]

/-- Spellings of one sound. -/
def kSpellings : List (List Char) := [['k'], ['g'], ['c'], ['k', 'h'], ['g', 'h']]

/-- One step from a spelling to another. -/
inductive Respelling : List Char → List Char → Prop
  /-- `f`, `v` and `w` are interchanged anywhere, `a` and `e` from the third letter on. -/
  | letters {a b a' b' : Char} {s s' : List Char} (ha : SameF a a') (hb : SameF b b') (hs : List.Forall₂ SameAE s s') :
      Respelling (a :: b :: s) (a' :: b' :: s')
  /-- `ph` for `f`, in a word of two letters at least. -/
  | ph (u v : List Char) (h : u ++ v ≠ []) : Respelling (u ++ 'p' :: 'h' :: v) (u ++ 'f' :: v)
  /-- `cz` for `ts`. -/
  | cz (u v : List Char) : Respelling (u ++ 'c' :: 'z' :: v) (u ++ 't' :: 's' :: v)
  /-- `ch`, `sh`, `tch`... for each other, except after `d` or `t`. -/
  | sh {x y : List Char} (hx : x ∈ shSpellings) (hy : y ∈ shSpellings) (u v : List Char)
      (hu : u.getLast? ≠ some 'd' ∧ u.getLast? ≠ some 't') : Respelling (u ++ x ++ v) (u ++ y ++ v)
  /-- `zh`, `j`, `dj`... for each other inside a word, except after `c`, `d` or `t`. -/
  | zh {x y : List Char} (hx : x ∈ zhSpellings) (hy : y ∈ zhSpellings) (u v : List Char) (hu0 : u ≠ []) (hv0 : v ≠ [])
      (hu : u.getLast? ≠ some 'c' ∧ u.getLast? ≠ some 'd' ∧ u.getLast? ≠ some 't') : Respelling (u ++ x ++ v) (u ++ y ++ v)
  /-- `x` for `ks`, except before `h`. -/
  | ks (u v : List Char) (h : u ++ v ≠ []) (hv : v.head? ≠ some 'h') : Respelling (u ++ ['k', 's'] ++ v) (u ++ ['x'] ++ v)
  /-- `k`, `g`, `c`, `kh`... for each other, except before `h`, `s` or `z`. -/
  | k {x y : List Char} (hx : x ∈ kSpellings) (hy : y ∈ kSpellings) (u v : List Char) (h : u ++ v ≠ [])
      (hv : v.head? ≠ some 'h' ∧ v.head? ≠ some 's' ∧ v.head? ≠ some 'z') : Respelling (u ++ x ++ v) (u ++ y ++ v)
  /-- A last `iy` or `ij` is dropped, once. -/
  | iy {e : Char} (he : e ∈ ['j', 'y']) (u : List Char) (h : 2 ≤ u.length)
      (hu : u.getLast? ≠ some 'j' ∧ u.getLast? ≠ some 'y') : Respelling (u ++ ['i', e]) u

end Fog.Spec
