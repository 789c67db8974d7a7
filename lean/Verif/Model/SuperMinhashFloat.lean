import Verif.Model.SuperMinhash
import Mathlib.Data.Real.Archimedean
import Mathlib.Algebra.Order.Floor.Ring

/-!
# Model of `SuperMinHash` in `fog/lsh/minhash.py`, in double precision

As in `Verif.Model.SuperMinhash`, but each operation on floats is rounded by `fl`, and `b[a]` is read as Python does when `a` is negative.
The integers are below `2 ** 53`, which are doubles.
-/

namespace Fog.SuperMinhashFloat

open SuperMinhash (item)

/-- The lists `h`, `p`, `q`, `b` and the number `a` (minhash.py l. 153-160). -/
structure State where
  h : List ℝ
  p : List Nat
  q : List Int
  b : List Int
  a : Int

/-- `if q[j] != i: q[j] = i; p[j] = j` (minhash.py l. 170-176). -/
def refresh (i j : Nat) (s : State) : Py State :=
  match item s.q j with
  | .error e => .error e
  | .ok x => if x ≠ i then .ok { s with q := s.q.set j i, p := s.p.set j j } else .ok s

/-- `b[a]` (minhash.py l. 190), from the end of the list when `a` is negative. -/
def itemAt (b : List Int) (a : Int) : Py Int :=
  if 0 ≤ a then item b a.toNat else if 0 ≤ a + b.length then item b (a + b.length).toNat else .error .indexError

/-- `while b[a] == 0: a -= 1` (minhash.py l. 190-191). -/
def settle (b : List Int) (a : Int) : Py Int :=
  if a + b.length < 0 then .error .indexError
  else
    match itemAt b a with
    | .error e => .error e
    | .ok x => if x = 0 then settle b (a - 1) else .ok a
termination_by (a + b.length + 1).toNat
decreasing_by omega

/-- The update of `h`, `b` and `a` (minhash.py l. 182-191), `pos` being `p[j]`. -/
noncomputable def improve (fl : ℝ → ℝ) (m j pos : Nat) (r : ℝ) (s : State) : Py State :=
  match item s.h pos with
  | .error e => .error e
  | .ok v =>
      if fl (r + j) < v then
        let j2 := min ⌊v⌋.toNat (m - 1)
        if j < j2 then
          match item s.b j2 with
          | .error e => .error e
          | .ok x =>
              match item (s.b.set j2 (x - 1)) j with
              | .error e => .error e
              | .ok y =>
                  match settle ((s.b.set j2 (x - 1)).set j (y + 1)) s.a with
                  | .error e => .error e
                  | .ok a => .ok { s with h := s.h.set pos (fl (r + j)), b := (s.b.set j2 (x - 1)).set j (y + 1), a := a }
        else .ok { s with h := s.h.set pos (fl (r + j)) }
      else .ok s

/-- The body of the inner loop (minhash.py l. 167-193). -/
noncomputable def turn (fl : ℝ → ℝ) (m i j : Nat) (r : ℝ) (s : State) : Py State :=
  let k := j + ⌊fl (r * ((m : ℝ) - j))⌋.toNat
  match refresh i j s with
  | .error e => .error e
  | .ok s =>
      match refresh i k s with
      | .error e => .error e
      | .ok s =>
          match item s.p j with
          | .error e => .error e
          | .ok tmp =>
              match item s.p k with
              | .error e => .error e
              | .ok x =>
                  match item ((s.p.set j x).set k tmp) j with
                  | .error e => .error e
                  | .ok pos => improve fl m j pos r { s with p := (s.p.set j x).set k tmp }

/-- The inner loop (minhash.py l. 166-193) from `j`, with the random numbers `r`: `q[j]` raises out of range. -/
noncomputable def inner (fl : ℝ → ℝ) (m i : Nat) (r : Nat → ℝ) (j : Nat) (s : State) : Py State :=
  if (j : Int) ≤ s.a then
    if j < m then
      match turn fl m i j (r j) s with
      | .error e => .error e
      | .ok s => inner fl m i r (j + 1) s
    else .error .indexError
  else .ok s
termination_by m - j

/-- The outer loop (minhash.py l. 162-193). -/
noncomputable def outer (fl : ℝ → ℝ) (rand : Nat → Nat → ℝ) (m : Nat) : List (Nat × Nat) → State → Py State
  | [], s => .ok s
  | (token, i) :: tokens, s =>
      match inner fl m i (rand token) 0 s with
      | .error e => .error e
      | .ok s => outer fl rand m tokens s

/-- The state before the loops (minhash.py l. 153-160). -/
noncomputable def start (m : Nat) : State :=
  { h := List.replicate m ((m : ℝ) + 1), p := List.replicate m 0, q := List.replicate m (-1),
    b := (List.replicate m 0).set (m - 1) (m : Int), a := (m : Int) - 1 }

/-- `SuperMinHash(h=m).create_signature(sequence)` (minhash.py l. 137-195). `b[-1] = m` raises when `m` is zero. -/
noncomputable def createSignature {τ : Type} (fl : ℝ → ℝ) (ord : List Nat → List Nat) (hash : τ → Nat) (rand : Nat → Nat → ℝ) (m : Nat)
    (sequence : List τ) : Py (List Int) :=
  if m = 0 then .error .indexError
  else
    match outer fl rand m (Minhash.tokenSet ord hash sequence).zipIdx (start m) with
    | .error e => .error e
    | .ok s => .ok (s.h.map fun v => ⌊v⌋)

end Fog.SuperMinhashFloat
