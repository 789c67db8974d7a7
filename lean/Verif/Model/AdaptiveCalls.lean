import Verif.Model.SortedNeighborhood

/-!
# Model of `adaptive_sorted_neighborhood` of `fog/clustering/sorted_neighborhood.py`: the calls of the similarity

The loops of one pass of `adaptive_sorted_neighborhood`, which list the calls of `similarity` in the order in which they are made, by the positions of the items
in the sorted data. `full_AA_SNM` is a generator: a block is compared before the next one is sought. When an `IndexError` is raised, the calls are those which
came before. A window of at least one is assumed, as in `Verif.Model.SortedNeighborhood`.
-/

namespace Fog.AdaptiveCalls

open Fog.SortedNeighborhood

variable {α : Type _}

/-- A call of `similarity`: to place a window (sorted_neighborhood.py l. 122, 133), or to compare the items of a block (l. 217, 226). -/
inductive Step
  | place (p : Nat × Nat)
  | compare (p : Nat × Nat)

/-- The positions compared inside a block. -/
def Step.compare? : Step → Option (Nat × Nat)
  | .place _ => none
  | .compare p => some p

/-- The positions compared to place a window. -/
def Step.place? : Step → Option (Nat × Nat)
  | .place p => some p
  | .compare _ => none

/-- The enlargement loop (sorted_neighborhood.py l. 122-125), as `enlarge`. -/
def enlargeSteps (similarity : α → α → Bool) (S : List α) (f : Nat) : (fuel first last : Nat) → List Step × Option (Py Nat)
  | 0, _, _ => ([], none)
  | fuel + 1, first, last =>
      match compareAt similarity S first last with
      | .error e => ([], some (.error e))
      | .ok false => ([.place (first, last)], some (.ok last))
      | .ok true =>
          let w := last - f + 1
          let rest := enlargeSteps similarity S f fuel last (last + w - 1)
          (.place (first, last) :: rest.1, rest.2)

/-- The retrenchment loop (sorted_neighborhood.py l. 128-139), as `retrench`. -/
def retrenchSteps (similarity : α → α → Bool) (S : List α) (window : Nat) : (w last : Nat) → List Step × Py Nat
  | 0, last => ([], .ok last)
  | w + 1, last =>
      if w + 1 > window then
        match compareAt similarity S (last - 1) last with
        | .error e => ([], .error e)
        | .ok true => ([.place (last - 1, last)], .ok last)
        | .ok false =>
            let rest := retrenchSteps similarity S window w (last - 1)
            (.place (last - 1, last) :: rest.1, rest.2)
      else ([], .ok last)

/-- The positions compared in the block `(start, end)` (sorted_neighborhood.py l. 208-227), by its number `l` of items. Positions are natural numbers:
`start ≤ end` is assumed, which C24 proves of the blocks. -/
def blockCalls (start stop : Nat) : List (Nat × Nat) :=
  let l := stop - start + 1
  if l = 1 then []
  else if l = 2 then [(start, stop)]
  else (pyRange start (stop + 1)).flatMap fun i => (pyRange (i + 1) (stop + 1)).map fun j => (i, j)

/-- The pair which is yielded after a comparison (sorted_neighborhood.py l. 214-218, 223-227). -/
def yielded (similarity : α → α → Bool) (S : List α) (p : Nat × Nat) : Option (α × α) :=
  match S[p.1]?, S[p.2]? with
  | some A, some B => if similarity A B then some (A, B) else none
  | _, _ => none

/-- One pass: the loop of `full_AA_SNM` (sorted_neighborhood.py l. 118-149) from `first`, and the comparison of its blocks (l. 207-227). Also gives the blocks,
or the error. -/
def passSteps (similarity : α → α → Bool) (S : List α) (window : Nat) : (fuel first : Nat) → List Step × Option (Py (List (Nat × Nat)))
  | 0, _ => ([], none)
  | fuel + 1, first =>
      let last := first + (window - 1)
      if last < S.length then
        let e := enlargeSteps similarity S first (fuel + 1) first last
        match e.2 with
        | none => (e.1, none)
        | some (.error err) => (e.1, some (.error err))
        | some (.ok last) =>
            let r := retrenchSteps similarity S window (last - first + 1) last
            match r.2 with
            | .error err => (e.1 ++ r.1, some (.error err))
            | .ok last =>
                let rest := passSteps similarity S window fuel (last + 1)
                (e.1 ++ r.1 ++ (blockCalls first last).map .compare ++ rest.1,
                  match rest.2 with
                  | none => none
                  | some (.error err) => some (.error err)
                  | some (.ok blocks) => some (.ok ((first, last) :: blocks)))
      else if first < S.length then ((blockCalls first (S.length - 1)).map .compare, some (.ok [(first, S.length - 1)]))
      else ([], some (.ok []))

end Fog.AdaptiveCalls
