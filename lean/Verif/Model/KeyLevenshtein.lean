import Verif.Model.Py

/-!
# Model of `fog/key/levenshtein.py`

A string is a list over any alphabet with decidable equality; flags are single characters, as the defaults are.
A generator is the list of what it yields.
-/

namespace Fog.KeyLevenshtein

variable {α : Type _} [DecidableEq α]

/-- One turn of the loop of `levenshtein_1d_keys` (key/levenshtein.py l. 76-100): what is yielded for the index `i`. -/
def keysAt (transpositions : Bool) (flag : α) (s : List α) (i : Nat) : List (List α) :=
  -- l. 79
  let substitution := s.take i ++ flag :: s.drop (i + 1)
  -- l. 97-100
  let addition := if i > 0 ∧ s[i - 1]? = s[i]? then [] else [s.take i ++ flag :: s.drop i]
  -- l. 82-86
  if i > 0 ∧ transpositions = true then
    if s[i - 1]? = s[i]? then [substitution]
    else substitution :: (s.take (i - 1) ++ s[i]?.toList ++ s[i - 1]?.toList ++ s.drop (i + 1)) :: addition
  else substitution :: addition

/-- `levenshtein_1d_keys(string, transpositions, flag)` (key/levenshtein.py l. 37-103). -/
def levenshtein1dKeys (transpositions : Bool) (flag : α) (s : List α) : List (List α) :=
  s :: (List.range s.length).flatMap (keysAt transpositions flag s) ++ [s ++ [flag]]

/-- `levenshtein_1d_blocks(string, transpositions, flag)` (key/levenshtein.py l. 114-180). `second_half[0]` and
`first_half[-1]` are always in range because both contain the flag. -/
def levenshtein1dBlocks (transpositions : Bool) (flag : α) (s : List α) : List (List α) :=
  let n := s.length
  if n = 1 then [flag :: s, s ++ [flag], [flag]]
  else
    let h := n / 2
    let first_half := flag :: s.take h
    let second_half := s.drop h ++ [flag]
    if n % 2 = 0 then
      if transpositions then
        [first_half, second_half,
          flag :: s.take (h - 1) ++ second_half.head?.toList,
          first_half.getLast?.toList ++ s.drop (h + 1) ++ [flag]]
      else [first_half, second_half]
    else
      let h1 := h + 1
      [first_half, second_half, flag :: s.take h1, s.drop h1 ++ [flag]]

/-- `levenshtein_2d_blocks(string, transpositions, flag1, flag2, flag3)` (key/levenshtein.py l. 187-257).
With `transpositions` and an empty string, `string[h]` (l. 220) raises an `IndexError`. -/
def levenshtein2dBlocks (transpositions : Bool) (flag1 flag2 flag3 : α) (s : List α) : Py (List (List α)) :=
  let n := s.length
  let q := n % 3
  if q = 0 then
    let h := n / 3
    let basic := [flag1 :: s.take h, flag2 :: slice s h (h * 2), flag3 :: s.drop (h * 2)]
    if transpositions then
      -- `h1 = h - 1`; for a non-empty string `h ≥ 1` and all three indices are in range
      match s[h]?, s[h - 1]?, s[h * 2 - 1]? with
      | some x, some y, some z =>
          .ok (basic ++ [flag1 :: (s.take (h - 1) ++ [x]), flag2 :: y :: slice s (h + 1) (h * 2),
            flag3 :: z :: s.drop (h * 2 + 1)])
      | _, _, _ => .error .indexError
    else .ok basic
  else if q = 2 then
    let h1 := n / 3
    let h := h1 + 1
    .ok [flag1 :: s.take h, flag2 :: slice s h (h * 2), flag3 :: s.drop (h * 2),
      flag1 :: s.take h1, flag2 :: slice s h1 (h + h1), flag3 :: s.drop (h + h1),
      flag2 :: slice s h (h + h1)]
  else
    let h1 := n / 3
    let h := h1 + 1
    .ok [flag1 :: s.take h, flag2 :: slice s h (h + h1), flag3 :: s.drop (h + h1),
      flag1 :: s.take h1, flag2 :: slice s h1 (h1 + h),
      flag2 :: slice s h1 (h1 * 2), flag3 :: s.drop (h1 * 2)]

end Fog.KeyLevenshtein
