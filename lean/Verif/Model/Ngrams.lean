import Verif.Model.Py

/-!
# Model of `fog/tokenizers/ngrams.py`

A sequence of tokens is a list; a string is the list of its characters. In `ngrams`, `n` is not negative; `ngramsInt` is for all integers.
-/

namespace Fog.Ngrams

variable {α : Type _}

/-- `ngrams(n, tokens)` (ngrams.py l. 11-32). `range(limit)` is empty when `limit = lt - n + 1` is not positive. -/
def ngrams (n : Nat) (tokens : List α) : List (List α) :=
  let lt := tokens.length
  let limit := lt + 1 - n
  (if lt < n then [tokens] else []) ++ (List.range limit).map fun i => slice tokens i (i + n)

/-- `tokens[i:e]` where `e` may be negative (ngrams.py l. 32). -/
def sliceTo (tokens : List α) (i : Nat) (e : Int) : List α := slice tokens i (if e < 0 then tokens.length + e else e).toNat

/-- `ngrams(n, tokens)` (ngrams.py l. 11-32) for any integer. -/
def ngramsInt (n : Int) (tokens : List α) : List (List α) :=
  let lt := tokens.length
  let limit := (lt : Int) - n + 1
  (if (lt : Int) < n then [tokens] else []) ++ (List.range limit.toNat).map fun i => sliceTo tokens i (i + n)

/-- The loop of `join_grams_iter` (ngrams.py l. 43-44): `g[-1]` raises on an empty gram. -/
def lastTokens : List (List α) → Py (List α)
  | [] => .ok []
  | g :: grams =>
      match g.getLast? with
      | none => .error .indexError
      | some x => do
          let rest ← lastTokens grams
          .ok (x :: rest)

/-- `join_ngrams(grams)` (ngrams.py l. 40-48) on an iterator over strings. `next` on an empty iterator raises
`StopIteration` inside a generator, which is a `RuntimeError`. -/
def joinNgrams : List (List α) → Py (List α)
  | [] => .error .runtimeError
  | g :: grams => do
      let rest ← lastTokens grams
      .ok (g ++ rest)

end Fog.Ngrams
