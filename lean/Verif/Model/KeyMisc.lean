import Verif.Model.Ngrams

/-!
# Model of `fog/key/misc.py`
-/

namespace Fog.KeyMisc

open Fog.Ngrams

variable {α : Type _}

/-- `itertools.combinations(l, r)`, in its order (misc.py l. 59). -/
def combinations : List α → Nat → List (List α)
  | _, 0 => [[]]
  | [], _ + 1 => []
  | a :: l, r + 1 => (combinations l r).map (a :: ·) ++ combinations l (r + 1)

/-- The `while s > l` loop (misc.py l. 53-59), `fuel` being `s - l` since `s` decreases by one: `s` is never negative in
the body because `l` is at least one. -/
def combinationsDown (grams : List (List α)) (s : Int) : Nat → List (List (List α))
  | 0 => []
  | fuel + 1 => combinations grams (s - 1).toNat ++ combinationsDown grams (s - 1) fuel

/-- `ngram_keys(n, string, threshold)` (misc.py l. 28-62). Simplified: `threshold` is rational and `k * threshold` is not
rounded. -/
def ngramKeys (n : Nat) (string : List α) (threshold : Rat) : List (List α) :=
  let k : Int := string.length - (n - 1)
  let l : Int := max 1 (k * threshold).floor
  let grams := ngrams n string
  grams.flatten :: (combinationsDown grams k (k - l).toNat).map List.flatten

end Fog.KeyMisc
