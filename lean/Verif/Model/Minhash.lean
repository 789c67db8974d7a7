import Verif.Model.LshUtils
import Mathlib.Data.Rat.Defs

/-!
# Model of `fog/lsh/minhash.py`

`hash` gives the integer of a token: `ord` for the characters of a string and `crc32` for the items of other sequences (l. 94-97).
The random coefficients are what a stream of draws makes of them (`drawParams`), and `params` is a parameter of the rest: any list of
pairs of integers. `ord` gives the order in which a set is iterated upon. The use of numpy is in `MinhashNumpy`.
-/

namespace Fog.Minhash

open LshUtils

variable {τ : Type _}

/-- `MAX_UINT32` (minhash.py l. 29). -/
def maxUint32 : Nat := 2 ^ 32 - 1

/-- `NEXT_PRIME` (minhash.py l. 30). -/
def nextPrime : Nat := 4294967311

/-- `minhash_similarity(A, B)` (minhash.py l. 33-41). Simplified: the division is exact. -/
def minhashSimilarity {β : Type _} [DecidableEq β] (A B : List β) : Py ℚ :=
  let rec loop : Nat → List β → List β → Py Nat
    | hamming, [], _ => .ok hamming
    | _, _ :: _, [] => .error .indexError
    | hamming, a :: A, b :: B => loop (if a ≠ b then hamming + 1 else hamming) A B
  match loop 0 A B with
  | .error e => .error e
  | .ok hamming => if A.length = 0 then .error .zeroDivisionError else .ok (1 - (hamming : ℚ) / A.length)

/-- `lsb_minhash_similarity(A, B)` (minhash.py l. 44-52). Simplified: the division is exact. -/
def lsbMinhashSimilarity (A B : List Nat) : Py ℚ :=
  let rec loop : Nat → List Nat → List Nat → Py Nat
    | hamming, [], _ => .ok hamming
    | _, _ :: _, [] => .error .indexError
    | hamming, a :: A, b :: B => loop (hamming + popcount64 (a ^^^ b)) A B
  match loop 0 A B with
  | .error e => .error e
  | .ok hamming => if A.length = 0 then .error .zeroDivisionError else .ok (1 - 2 * (hamming : ℚ) / (A.length * 64 : ℕ))

/-- The set of the integers of the tokens (minhash.py l. 94-97 and l. 221-224). -/
def tokenSet (ord : List Nat → List Nat) (hash : τ → Nat) (sequence : List τ) : List Nat := ord (dedup (sequence.map hash))

/-- The loop over tokens (minhash.py l. 126-130 and l. 240-244). -/
def minHash (a b : Nat) (tokens : List Nat) : Nat :=
  tokens.foldl (fun min_hash token =>
    let h := (a * token + b) % nextPrime
    if h < min_hash then h else min_hash) maxUint32

/-- `MinHash.create_signature(sequence)` without numpy (minhash.py l. 92-134), `h` being the number of `params`. -/
def createSignature (ord : List Nat → List Nat) (hash : τ → Nat) (params : List (Nat × Nat)) (sequence : List τ) : List Nat :=
  let tokens := tokenSet ord hash sequence
  if tokens.length = 0 then List.replicate params.length 0
  else params.map fun p => minHash p.1 p.2 tokens

/-- The loop of the constructors (minhash.py l. 79-85 and l. 207-213), where `draws i` is the pair drawn at the turn `i`. -/
def drawLoop (draws : Nat → Nat × Nat) (h : Nat) : (fuel : Nat) → (i : Nat) → (params : List (Nat × Nat)) → Option (List (Nat × Nat))
  | 0, _, _ => none
  | fuel + 1, i, params =>
      if params.length < h then drawLoop draws h fuel (i + 1) (if draws i ∈ params then params else params ++ [draws i])
      else some params

/-- `list(params)` at the end of the constructors (minhash.py l. 77-87 and l. 203-215): `h` coefficients, in the order `ord` of the set.
Its fuel is the number of turns it may take. -/
def drawParams (ord : List (Nat × Nat) → List (Nat × Nat)) (draws : Nat → Nat × Nat) (h fuel : Nat) : Option (List (Nat × Nat)) :=
  (drawLoop draws h fuel 0 []).map ord

/-- One integer of the signature (minhash.py l. 233-246), from 64 coefficients. -/
def lsbInteger (tokens : List Nat) (params : List (Nat × Nat)) : Nat :=
  (params.zipIdx).foldl (fun integer p => integer ||| ((minHash p.1.1 p.1.2 tokens &&& 1) <<< p.2)) 0

/-- `LSBMinHash.create_signature(sequence)` (minhash.py l. 218-250), `params` being of length `precision * 64`. -/
def lsbCreateSignature (ord : List Nat → List Nat) (hash : τ → Nat) (precision : Nat) (params : List (Nat × Nat))
    (sequence : List τ) : List Nat :=
  let tokens := tokenSet ord hash sequence
  if tokens.length = 0 then List.replicate precision 0
  else (List.range precision).map fun s => lsbInteger tokens (slice params (s * 64) (s * 64 + 64))

end Fog.Minhash
