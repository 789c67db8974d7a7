import Verif.Model.Minhash

/-!
# Model of the use of numpy in `fog/lsh/minhash.py`

The version of numpy is the one of `requirements.txt` (1.14): the operations of an array of `uint32` with another wrap around, and
`signature %= NEXT_PRIME` is done with 64 bits then stored back in 32, since `NEXT_PRIME` does not fit in 32 bits. The coefficients `A` and
`B`, drawn by `np.random.randint` (l. 69-72), are parameters of `createSignatureNumpy`, and come from `drawNumpy`.
-/

namespace Fog.Minhash

variable {τ : Type _}

/-- `np.random.randint(1, MAX_UINT32, size=h, dtype='uint32')` and `np.random.randint(0, MAX_UINT32, size=h, dtype='uint32')` in the
constructor (minhash.py l. 71-72), which give integers less than `MAX_UINT32`. `draws i` says which ones at the position `i`, counted from
the least. -/
def drawNumpy {h : Nat} (draws : Fin h → Fin (maxUint32 - 1) × Fin maxUint32) : List Nat × List Nat :=
  (List.ofFn fun i => 1 + (draws i).1.val, List.ofFn fun i => (draws i).2.val)

/-- Storing an integer in an array of `uint32` (minhash.py l. 71-72, 105). -/
def uint32 (n : Nat) : Nat := n % 2 ^ 32

/-- One row of the array, for one token: the integer repeated as many times as there are coefficients, then `signature *= self.A`,
`signature += self.B` and `signature %= NEXT_PRIME` (minhash.py l. 105-111). -/
def numpyRow (A B : List Nat) (token : Nat) : List Nat :=
  let signature := List.replicate A.length (uint32 token)
  let signature := List.zipWith (fun x a => uint32 (x * a)) signature A
  let signature := List.zipWith (fun x b => uint32 (x + b)) signature B
  signature.map fun x => uint32 (x % nextPrime)

/-- `signature.min(axis=0)` (minhash.py l. 113). -/
def columnMin : List (List Nat) → List Nat
  | [] => []
  | row :: rows => rows.foldl (fun m row => List.zipWith (fun x y => if y < x then y else x) m row) row

/-- `MinHash.create_signature(sequence)` with numpy (minhash.py l. 92-113), `A` and `B` having `h` coefficients. -/
def createSignatureNumpy (ord : List Nat → List Nat) (hash : τ → Nat) (A B : List Nat) (sequence : List τ) : List Nat :=
  let tokens := tokenSet ord hash sequence
  if tokens.length = 0 then List.replicate A.length 0
  else columnMin (tokens.map (numpyRow A B))

end Fog.Minhash
