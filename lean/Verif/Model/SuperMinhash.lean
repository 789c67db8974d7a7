import Verif.Model.Minhash
import Mathlib.Data.Rat.Floor

/-!
# Model of `SuperMinHash` in `fog/lsh/minhash.py`

`rand token j` is the number given by the call `j` of `rng.random()` after `rng.seed(token)`. Floats are rational numbers.
-/

namespace Fog.SuperMinhash

/-- `l[i]` (minhash.py l. 170-188). -/
def item {β : Type} (l : List β) (i : Nat) : Py β :=
  match l[i]? with
  | none => .error .indexError
  | some x => .ok x

/-- The lists `h`, `p`, `q`, `b` and the number `a` (minhash.py l. 153-160). -/
structure State where
  h : List ℚ
  p : List Nat
  q : List Int
  b : List Int
  a : Nat

/-- `if q[j] != i: q[j] = i; p[j] = j` (minhash.py l. 170-176). -/
def refresh (i j : Nat) (s : State) : Py State := do
  let x ← item s.q j
  if x ≠ i then pure { s with q := s.q.set j i, p := s.p.set j j } else pure s

/-- `while b[a] == 0: a -= 1` (minhash.py l. 190-191). Simplified: Python would go on with `b[-1]` below zero, which never happens (see
`settle_spec`). -/
def settle (b : List Int) : Nat → Py Nat
  | 0 => do
      let x ← item b 0
      if x = 0 then .error .indexError else pure 0
  | a + 1 => do
      let x ← item b (a + 1)
      if x = 0 then settle b a else pure (a + 1)

/-- The update of `h`, `b` and `a` (minhash.py l. 182-191), `pos` being `p[j]`. -/
def improve (m j pos : Nat) (r : ℚ) (s : State) : Py State := do
  let v ← item s.h pos
  if r + j < v then
    let j2 := min ⌊v⌋.toNat (m - 1)
    let s := { s with h := s.h.set pos (r + j) }
    if j < j2 then
      let x ← item s.b j2
      let b := s.b.set j2 (x - 1)
      let y ← item b j
      let b := b.set j (y + 1)
      let a ← settle b s.a
      pure { s with b := b, a := a }
    else pure s
  else pure s

/-- The body of the inner loop (minhash.py l. 167-193). -/
def turn (m i j : Nat) (r : ℚ) (s : State) : Py State := do
  let k := j + ⌊r * ((m : ℚ) - j)⌋.toNat
  let s ← refresh i j s
  let s ← refresh i k s
  let tmp ← item s.p j
  let x ← item s.p k
  let s := { s with p := (s.p.set j x).set k tmp }
  let pos ← item s.p j
  improve m j pos r s

/-- The inner loop (minhash.py l. 166-193) from `j`, with the random numbers `r`: `q[j]` raises out of range. -/
def inner (m i : Nat) (r : Nat → ℚ) (j : Nat) (s : State) : Py State :=
  if j ≤ s.a then
    if j < m then
      match turn m i j (r j) s with
      | .error e => .error e
      | .ok s => inner m i r (j + 1) s
    else .error .indexError
  else .ok s
termination_by m - j

/-- The outer loop (minhash.py l. 162-193). -/
def outer (rand : Nat → Nat → ℚ) (m : Nat) : List (Nat × Nat) → State → Py State
  | [], s => .ok s
  | (token, i) :: tokens, s =>
      match inner m i (rand token) 0 s with
      | .error e => .error e
      | .ok s => outer rand m tokens s

/-- The state before the loops (minhash.py l. 153-160). -/
def start (m : Nat) : State :=
  { h := List.replicate m ((m : ℚ) + 1), p := List.replicate m 0, q := List.replicate m (-1),
    b := (List.replicate m 0).set (m - 1) (m : Int), a := m - 1 }

/-- `SuperMinHash(h=m).create_signature(sequence)` (minhash.py l. 137-195). `b[-1] = m` raises when `m` is zero. -/
def createSignature {τ : Type} (ord : List Nat → List Nat) (hash : τ → Nat) (rand : Nat → Nat → ℚ) (m : Nat) (sequence : List τ) :
    Py (List Int) := do
  let tokens := Minhash.tokenSet ord hash sequence
  if m = 0 then .error .indexError
  else
    let s ← outer rand m tokens.zipIdx (start m)
    pure (s.h.map fun v => ⌊v⌋)

end Fog.SuperMinhash
