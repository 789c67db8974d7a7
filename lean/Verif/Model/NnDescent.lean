import Verif.Model.ClusteringUtils
import Mathlib.Order.Defs.LinearOrder
import Mathlib.Data.Rat.Floor

/-!
# Model of `fog/clustering/nn_descent.py`

The random generator is a stream `draws` of natural numbers, read from position `t`, of which `randint` takes a remainder: any sequence of
results is given by some stream. `setOrd` is the order in which a set of integers is iterated upon. A loop which may not end takes some fuel;
`none` means that it is still running when the fuel is spent.

Similarities are values of a linear order `K` (floats without NaN). A neighbor is `(s, j, flag)`; the flag is only used by
`nn_descent_full`, and is `()` for `nn_descent`. `heapify(l)` and `heapreplace(l, x)` are functions given as parameters.
-/

namespace Fog.NnDescent

open Fog.ClusteringUtils

variable {α K F : Type} [LinearOrder K]

/-- A neighbor: similarity, index, flag (nn_descent.py l. 118, 286). -/
abbrev Neighbor (K F : Type) := K × Nat × F

/-- `heapq.heapify` and `heapq.heapreplace`, as functions (nn_descent.py l. 119, 151). -/
structure Heapq (E : Type) where
  heapify : List E → List E
  heapreplace : List E → E → List E

/-- `l[i]` (nn_descent.py l. 131-132, 137, 140). -/
def item {β : Type} (l : List β) (i : Nat) : Py β :=
  match l[i]? with
  | none => .error .indexError
  | some x => .ok x

/-- `similarity(V[i], V[j])` (nn_descent.py l. 147, 334, 349). -/
def sim (V : List α) (similarity : α → α → K) (i j : Nat) : Py K := do
  let x ← item V i
  let y ← item V j
  pure (similarity x y)

/-- `rng.randint(a, b)` where `a ≤ b` (nn_descent.py l. 178). -/
def randint (draws : Nat → Nat) (t a b : Nat) : Nat := a + draws t % (b + 1 - a)

/-- `sample(rng, N, k, i)` (nn_descent.py l. 27-43), with the set `S` as a list, and where the generator is. -/
def sample (draws : Nat → Nat) (N k i : Nat) : Nat → Nat → List Nat → Option (List Nat × Nat)
  | 0, _, _ => none
  | fuel + 1, t, S =>
      if S.length < k then
        let random_index := randint draws t 0 (N - 1)
        if random_index = i then sample draws N k i fuel (t + 1) S
        else sample draws N k i fuel (t + 1) (if random_index ∈ S then S else S ++ [random_index])
      else some (S, t)

/-- The initial samples (nn_descent.py l. 116-120, 284-288), for the indices in turn. -/
def initial (heapq : Heapq (Neighbor K F)) (setOrd : List Nat → List Nat) (draws : Nat → Nat) (V : List α) (similarity : α → α → K)
    (flag : F) (k fuel : Nat) : List Nat → Nat → Py (Option (List (List (Neighbor K F)) × Nat))
  | [], t => .ok (some ([], t))
  | i :: is, t =>
      match sample draws V.length k i fuel t [] with
      | none => .ok none
      | some (S, t) => do
          let neighbors ← (setOrd S).mapM fun j => do
            let s ← sim V similarity i j
            pure (s, j, flag)
          match ← initial heapq setOrd draws V similarity flag k fuel is t with
          | none => pure none
          | some (B, t) => pure (some (heapq.heapify neighbors :: B, t))

/-- `R[j].append(i)` (nn_descent.py l. 55, 211, 213). -/
def append (R : List (List Nat)) (j i : Nat) : Py (List (List Nat)) :=
  if j < R.length then .ok (R.modify j (· ++ [i])) else .error .indexError

/-- The in-neighbors of out-neighbors given by their indices (nn_descent.py l. 46-57, and each half of 201-215). -/
def reverse (B : List (List Nat)) : Py (List (List Nat)) :=
  B.zipIdx.foldlM (fun R x => x.1.foldlM (fun R j => append R j x.2) R) (B.map fun _ => [])

/-- `if s > B[u][0][0]: c += 1; heapreplace(B[u], e)` (nn_descent.py l. 149-151, 336-342, 351-357). -/
def replaceIf (heapq : Heapq (Neighbor K F)) (st : List (List (Neighbor K F)) × Nat) (u : Nat) (e : Neighbor K F) :
    Py (List (List (Neighbor K F)) × Nat) := do
  let heap ← item st.1 u
  let first ← item heap 0
  if e.1 > first.1 then pure (st.1.set u (heapq.heapreplace heap e), st.2 + 1) else pure st

/-! ### nn_descent -/

/-- `C` (nn_descent.py l. 130-134). -/
def candidates (setOrd : List Nat → List Nat) (B : List (List (Neighbor K F))) (R : List (List Nat)) : Py (List (List Nat)) :=
  (List.range B.length).mapM fun i => do
    let neighbors ← item B i
    let r ← item R i
    pure (setOrd (dedup (neighbors.map (fun e => e.2.1) ++ r)))

/-- The pairs `(i, jj)` visited by the three loops (nn_descent.py l. 136-142), in order; `C` does not change meanwhile. -/
def visits (C : List (List Nat)) : Py (List (Nat × Nat)) := do
  let l ← C.zipIdx.mapM fun x => do
    let bs ← x.1.mapM fun ii => item C ii
    pure (bs.flatten.map fun jj => (x.2, jj))
  pure l.flatten

/-- What is done for a pair (nn_descent.py l. 144-151). -/
def visit (heapq : Heapq (Neighbor K Unit)) (V : List α) (similarity : α → α → K) (st : List (List (Neighbor K Unit)) × Nat) (p : Nat × Nat) :
    Py (List (List (Neighbor K Unit)) × Nat) :=
  if p.1 = p.2 then .ok st
  else do
    let s ← sim V similarity p.1 p.2
    replaceIf heapq st p.1 (s, p.2, ())

/-- One turn of the loop (nn_descent.py l. 125-151): the neighbors and the number of changes. -/
def turn (heapq : Heapq (Neighbor K Unit)) (setOrd : List Nat → List Nat) (V : List α) (similarity : α → α → K)
    (B : List (List (Neighbor K Unit))) : Py (List (List (Neighbor K Unit)) × Nat) := do
  let R ← reverse (B.map fun neighbors => neighbors.map fun e => e.2.1)
  let C ← candidates setOrd B R
  let pairs ← visits C
  pairs.foldlM (visit heapq V similarity) (B, 0)

/-- The loop (nn_descent.py l. 122-151). -/
def descend (heapq : Heapq (Neighbor K Unit)) (setOrd : List Nat → List Nat) (V : List α) (similarity : α → α → K) :
    Nat → List (List (Neighbor K Unit)) → Py (Option (List (List (Neighbor K Unit))))
  | 0, _ => .ok none
  | fuel + 1, B => do
      let (B, c) ← turn heapq setOrd V similarity B
      if c ≠ 0 then descend heapq setOrd V similarity fuel B else pure (some B)

/-- `clustering()` (nn_descent.py l. 153-157, 359-363). -/
def links (radius : K) (B : List (List (Neighbor K F))) : List (Nat × Nat) :=
  B.zipIdx.flatMap fun x => (x.1.filter fun e => decide (e.1 ≥ radius)).map fun e => (x.2, e.2.1)

/-- The end of both functions (nn_descent.py l. 153-168, 359-374). -/
def finish (ord : Nat → List Nat → List Nat) (V : List α) (radius : K) (min_size : Nat) (max_size : Option Nat) (mode : Mode)
    (B : List (List (Neighbor K F))) : Py (List (List α)) := do
  let clusters ← clustersFromPairs ord (links radius B) min_size max_size mode true
  clusters.mapM fun cluster => cluster.mapM fun i => item V i

/-- `k` when it is not given (nn_descent.py l. 112-114, 277-279). Simplified: the logarithm is exact. -/
def chooseK (N : Nat) : Option Nat → Py Nat
  | some k => .ok k
  | none => if N = 0 then .error .valueError else .ok N.log2

/-- `nn_descent(data, radius, similarity, k=k, ...)` (nn_descent.py l. 60-168); with a distance, `similarity` is its opposite, and so is
the radius (l. 99-101). -/
def nnDescent (heapq : Heapq (Neighbor K Unit)) (setOrd : List Nat → List Nat) (ord : Nat → List Nat → List Nat) (draws : Nat → Nat)
    (V : List α) (radius : K) (similarity : α → α → K) (k : Option Nat) (min_size : Nat) (max_size : Option Nat) (mode : Mode)
    (fuel : Nat) : Py (Option (List (List α))) := do
  let k ← chooseK V.length k
  match ← initial heapq setOrd draws V similarity () k fuel (List.range V.length) 0 with
  | none => pure none
  | some (B, _) =>
      match ← descend heapq setOrd V similarity fuel B with
      | none => pure none
      | some B => do
          let clusters ← finish ord V radius min_size max_size mode B
          pure (some clusters)

/-! ### nn_descent_full -/

/-- `shuffle_k(rng, L, k)` (nn_descent.py l. 171-182) from the index `i` on, `n` being the number of turns left. -/
def shuffle {β : Type} (draws : Nat → Nat) : Nat → Nat → List β → Nat → Py (List β × Nat)
  | 0, _, L, t => .ok (L, t)
  | n + 1, i, L, t => do
      let r := randint draws t i (L.length - 1)
      let v ← item L r
      let w ← item L i
      shuffle draws n (i + 1) ((L.set r w).set i v) (t + 1)

/-- `sample_full(rng, L, k)` (nn_descent.py l. 185-198): the list, which is changed, the sample, and where the generator is. -/
def sampleFull {β : Type} (draws : Nat → Nat) (L : List β) (k t : Nat) : Py (List β × List β × Nat) :=
  if L.length ≤ k then .ok (L, L, t)
  else do
    let (L, t) ← shuffle draws k 0 L t
    pure (L, L.take k, t)

/-- What is old and new among some neighbors, with the neighbors and the generator (nn_descent.py l. 297-315). -/
def oldNew (draws : Nat → Nat) (rhoK : Nat) (neighbors : List (Neighbor K Bool)) (t : Nat) :
    Py (List Nat × List Nat × List (Neighbor K Bool) × Nat) := do
  let o := dedup ((neighbors.filter fun e => !e.2.2).map fun e => e.2.1)
  let n := (neighbors.zipIdx.filter fun x => x.1.2.2).map fun x => (x.2, x.1.2.1)
  let (n, s, t) ← sampleFull draws n rhoK t
  let neighbors ← n.foldlM (fun l x =>
    if x ∈ s then .ok l
    else if x.1 < l.length then .ok (l.modify x.1 fun e => (e.1, e.2.1, false)) else .error .indexError) neighbors
  pure (o, dedup (s.map Prod.snd), neighbors, t)

/-- The first loop of a turn (nn_descent.py l. 293-315). -/
def oldNews (draws : Nat → Nat) (rhoK : Nat) : List (List (Neighbor K Bool)) → Nat →
    Py (List (List Nat) × List (List Nat) × List (List (Neighbor K Bool)) × Nat)
  | [], t => .ok ([], [], [], t)
  | neighbors :: B, t => do
      let (o, n, neighbors, t) ← oldNew draws rhoK neighbors t
      let (old, new, B, t) ← oldNews draws rhoK B t
      pure (o :: old, n :: new, neighbors :: B, t)

/-- The pairs `(u1, u2)` for which the similarity is computed, for some `o` and `n` (nn_descent.py l. 328-357). -/
def joins (setOrd : List Nat → List Nat) (o n : List Nat) : List (Nat × Nat) :=
  (setOrd n).flatMap fun u1 =>
    ((setOrd n).filter fun u2 => decide (u1 < u2)).map (fun u2 => (u1, u2)) ++
      ((setOrd o).filter fun u2 => decide (u1 ≠ u2)).map (fun u2 => (u1, u2))

/-- The pairs of all items, with the generator (nn_descent.py l. 321-357). -/
def allJoins (draws : Nat → Nat) (setOrd : List Nat → List Nat) (rhoK : Nat) (old new old_prime new_prime : List (List Nat)) :
    List Nat → Nat → Py (List (Nat × Nat) × Nat)
  | [], t => .ok ([], t)
  | i :: is, t => do
      let o ← item old i
      let n ← item new i
      let (_, so, t) ← sampleFull draws (← item old_prime i) rhoK t
      let (_, sn, t) ← sampleFull draws (← item new_prime i) rhoK t
      let (rest, t) ← allJoins draws setOrd rhoK old new old_prime new_prime is t
      pure (joins setOrd (dedup (o ++ so)) (dedup (n ++ sn)) ++ rest, t)

/-- What is done for a pair (nn_descent.py l. 334-342, 349-357). -/
def join (heapq : Heapq (Neighbor K Bool)) (V : List α) (similarity : α → α → K) (st : List (List (Neighbor K Bool)) × Nat) (p : Nat × Nat) :
    Py (List (List (Neighbor K Bool)) × Nat) := do
  let s ← sim V similarity p.1 p.2
  let st ← replaceIf heapq st p.1 (s, p.2, true)
  replaceIf heapq st p.2 (s, p.1, true)

/-- One turn of the loop (nn_descent.py l. 293-357). The pairs do not depend on what the turn changes. -/
def turnFull (heapq : Heapq (Neighbor K Bool)) (setOrd : List Nat → List Nat) (draws : Nat → Nat) (V : List α) (similarity : α → α → K)
    (rhoK : Nat) (B : List (List (Neighbor K Bool))) (t : Nat) : Py (List (List (Neighbor K Bool)) × Nat × Nat) := do
  let (old, new, B, t) ← oldNews draws rhoK B t
  let old_prime ← reverse (old.map setOrd)
  let new_prime ← reverse (new.map setOrd)
  let (pairs, t) ← allJoins draws setOrd rhoK old new old_prime new_prime (List.range V.length) t
  let (B, c) ← pairs.foldlM (join heapq V similarity) (B, 0)
  pure (B, c, t)

/-- The loop (nn_descent.py l. 290-357), where `go c` tells whether `c >= delta * NK`. -/
def descendFull (heapq : Heapq (Neighbor K Bool)) (setOrd : List Nat → List Nat) (draws : Nat → Nat) (V : List α) (similarity : α → α → K)
    (rhoK : Nat) (go : Nat → Bool) : Nat → Nat → List (List (Neighbor K Bool)) → Nat → Py (Option (List (List (Neighbor K Bool))))
  | 0, _, _, _ => .ok none
  | fuel + 1, c, B, t =>
      if go c then do
        let (B, c, t) ← turnFull heapq setOrd draws V similarity rhoK B t
        descendFull heapq setOrd draws V similarity rhoK go fuel c B t
      else pure (some B)

/-- `nn_descent_full(data, radius, similarity, k=k, ..., rho, delta)` (nn_descent.py l. 218-374). `rho` and `delta` are rational numbers,
`rho` is not negative. -/
def nnDescentFull (heapq : Heapq (Neighbor K Bool)) (setOrd : List Nat → List Nat) (ord : Nat → List Nat → List Nat) (draws : Nat → Nat)
    (V : List α) (radius : K) (similarity : α → α → K) (k : Option Nat) (min_size : Nat) (max_size : Option Nat) (mode : Mode)
    (rho delta : Rat) (fuel : Nat) : Py (Option (List (List α))) := do
  let k ← chooseK V.length k
  let NK := V.length * k
  let rhoK := (rho * k).floor.toNat
  match ← initial heapq setOrd draws V similarity true k fuel (List.range V.length) 0 with
  | none => pure none
  | some (B, t) =>
      match ← descendFull heapq setOrd draws V similarity rhoK (fun c => decide ((c : Rat) ≥ delta * NK)) fuel NK B t with
      | none => pure none
      | some B => do
          let clusters ← finish ord V radius min_size max_size mode B
          pure (some clusters)

end Fog.NnDescent
