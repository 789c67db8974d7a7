import Verif.Model.Dict
import Verif.Model.Py
import Verif.Model.Metrics
import Mathlib.Order.Defs.LinearOrder

/-!
# Model of `fog/clustering/fagin.py`

A vector is a dictionary of weights, and a generator is the list of what it yields. The loops `while True` have a bound on their number of
turns, `fuel`; the result is then `none` when the bound is too low. The cosine similarity is a parameter of the models which use it.
-/

namespace Fog.Fagin

variable {κ F : Type} [DecidableEq κ]

/-- The order of tuples `(w, i)` (fagin.py l. 40 and 76). -/
def tupleLe [LinearOrder F] (a b : F × Nat) : Bool := decide (a.1 < b.1 ∨ (a.1 = b.1 ∧ a.2 ≤ b.2))

/-- The inverted lists before they are sorted (fagin.py l. 33-37 and 69-73). -/
def postings (vectors : List (Dict κ F)) : Dict κ (List (F × Nat)) :=
  vectors.zipIdx.foldl (fun lists v => v.1.foldl (fun lists e => lists.update e.1 [] (· ++ [(e.2, v.2)])) lists) []

/-- `inverted_lists[d]` once sorted (fagin.py l. 39-40 and 75-76). -/
def invertedList [LinearOrder F] (vectors : List (Dict κ F)) (d : κ) : List (F × Nat) :=
  (((postings vectors).get? d).getD []).mergeSort tupleLe

section faginK1

variable [LinearOrder F]

/-- `for d in vector` of `fagin_k1` (fagin.py l. 51-56): `counts` and `stop`. -/
def countTurn (lists : κ → List (F × Nat)) (offset : Nat) (s : Dict Nat Nat × Bool) (d : κ) : Dict Nat Nat × Bool :=
  match (lists d)[offset]? with
  | some e => (s.1.update e.2 0 (· + 1), false)
  | none => s

/-- `while True` of `fagin_k1` (fagin.py l. 48-65): the list of what is yielded. -/
def countLoop (lists : κ → List (F × Nat)) (dims : List κ) (i : Nat) :
    Nat → Nat → Dict Nat Nat → Option (List (Nat × List Nat))
  | 0, _, _ => none
  | fuel + 1, offset, counts =>
      let s := dims.foldl (countTurn lists offset) (counts, true)
      if s.2 then some []
      else if 2 ≤ (s.1.filter fun e => decide (dims.length ≤ e.2)).length then
        some [(i, (s.1.keys.filter fun j => decide (j ≠ i)))]
      else countLoop lists dims i fuel (offset + 1) s.1

/-- `fagin_k1(vectors)` (fagin.py l. 32-65). -/
def faginK1 (fuel : Nat) (vectors : List (Dict κ F)) : Option (List (Nat × List Nat)) := do
  let parts ← vectors.zipIdx.mapM fun v => countLoop (invertedList vectors) v.1.keys v.2 fuel 0 []
  pure parts.flatten

end faginK1

section thresholdAlgorithmK1

/-- The variables `visited`, `best`, `t_vector` and `stop` of `threshold_algorithm_k1` (fagin.py l. 79-84 and 87). -/
structure TState (κ F : Type) where
  visited : List Nat
  best : Option (F × Nat)
  t_vector : Dict κ F
  stop : Bool

variable [LinearOrder F] (similarity : Nat → Nat → Py F) (threshold : Nat → Dict κ F → Py F)

/-- The body of `for d in vector` (fagin.py l. 89-118). `similarity i j` is the cosine similarity of the vectors `i` and `j`. -/
def look (lists : κ → List (F × Nat)) (i offset : Nat) (s : TState κ F) (d : κ) : Py (TState κ F) :=
  match (lists d)[offset]? with
  | none => .ok s
  | some e =>
      match if i = e.2 then (lists d)[offset + 1]? else some e with
      | none => .ok { s with stop := false }
      | some e =>
          let s := { s with stop := false, t_vector := s.t_vector.set d e.1 }
          if e.2 ∈ s.visited then .ok s
          else
            match similarity i e.2 with
            | .error x => .error x
            | .ok cs =>
                let s := { s with visited := e.2 :: s.visited }
                if s.best.all fun b => decide (cs > b.1) then .ok { s with best := some (cs, e.2) } else .ok s

/-- `while True` of `threshold_algorithm_k1` (fagin.py l. 86-131): the second part of the pair yielded. `threshold i t` is the cosine
similarity of the vector `i` and of `t`. -/
def thresholdLoop (lists : κ → List (F × Nat)) (dims : List κ) (i : Nat) : Nat → Nat → TState κ F → Py (Option Nat)
  | 0, _, _ => .ok none
  | fuel + 1, offset, s =>
      match dims.foldlM (look similarity lists i offset) { s with stop := true } with
      | .error x => .error x
      | .ok s =>
          if s.stop then .ok (some (match s.best with | some b => b.2 | none => i))
          else
            match threshold i s.t_vector with
            | .error x => .error x
            | .ok t =>
                match s.best with
                | some b => if b.1 ≥ t then .ok (some b.2) else thresholdLoop lists dims i fuel (offset + 1) s
                | none => thresholdLoop lists dims i fuel (offset + 1) s

/-- `threshold_algorithm_k1(vectors)` (fagin.py l. 68-131). `none` stands for a vector whose loop did not end. -/
def thresholdAlgorithmK1 (fuel : Nat) (vectors : List (Dict κ F)) : Py (List (Nat × Option Nat)) :=
  vectors.zipIdx.mapM fun v => do
    let j ← thresholdLoop similarity threshold (invertedList vectors) v.1.keys v.2 fuel 0 ⟨[], none, [], true⟩
    pure (v.2, j)

/-- `sparse_cosine_similarity(vector, vectors[j])` (fagin.py l. 114 and 165). `same i j` is whether these are the same object. -/
noncomputable def cosineOf (same : Nat → Nat → Bool) (vectors : List (Dict κ ℝ)) (i j : Nat) : Py ℝ :=
  match vectors[i]?, vectors[j]? with
  | some A, some B => Metrics.sparseCosineSimilarity (same i j) A B
  | _, _ => .error .indexError

/-- `sparse_cosine_similarity(vector, t_vector)` (fagin.py l. 125). -/
noncomputable def cosineTo (vectors : List (Dict κ ℝ)) (i : Nat) (t : Dict κ ℝ) : Py ℝ :=
  match vectors[i]? with
  | some A => Metrics.sparseCosineSimilarity false A t
  | none => .error .indexError

end thresholdAlgorithmK1

section naiveCosinePairs

/-- `inverted_lists`, `visited` and what has been yielded in `naive_cosine_pairs` (fagin.py l. 135-138). -/
structure NState (κ : Type) where
  lists : Dict κ (List Nat)
  visited : List Nat
  out : List (Nat × Nat)

/-- The body of `for j in l` (fagin.py l. 143-149). -/
def pairTurn (i : Nat) (s : List Nat × List (Nat × Nat)) (j : Nat) : List Nat × List (Nat × Nat) :=
  if j ∈ s.1 then s else (j :: s.1, s.2 ++ [(i, j)])

/-- The body of `for d in vector` (fagin.py l. 140-151). -/
def dimTurn (i : Nat) (s : NState κ) (d : κ) : NState κ :=
  let l := (s.lists.get? d).getD []
  let p := l.foldl (pairTurn i) (s.visited, s.out)
  { lists := s.lists.update d [] (· ++ [i]), visited := p.1, out := p.2 }

/-- `naive_cosine_pairs(vectors)` (fagin.py l. 134-151). -/
def naiveCosinePairs (vectors : List (Dict κ F)) : List (Nat × Nat) :=
  (vectors.zipIdx.foldl (fun s v => v.1.keys.foldl (dimTurn v.2) { s with visited := [] }) (⟨[], [], []⟩ : NState κ)).out

end naiveCosinePairs

section sqrtIndexationPairs

variable [LinearOrder F] [Sub F] [One F] (similarity : Nat → Nat → Py F)

/-- `min(leaders, key=...)` (fagin.py l. 165): the first leader with the least key. -/
def closest (i : Nat) : List Nat → Option (F × Nat) → Py Nat
  | [], none => .error .valueError
  | [], some b => .ok b.2
  | x :: leaders, b =>
      match similarity i x with
      | .error e => .error e
      | .ok cs => closest i leaders (if b.all fun b => decide (1 - cs < b.1) then some (1 - cs, x) else b)

/-- The loop of `sqrt_indexation_pairs` (fagin.py l. 164-174), with `proximities` and the indices which remain. -/
def leaderLoop (leaders : List Nat) : List Nat → Dict Nat (List Nat) → Py (List (Nat × Nat))
  | [], _ => .ok []
  | i :: is, proximities =>
      match closest similarity i leaders none with
      | .error e => .error e
      | .ok leader =>
          match leaderLoop leaders is (proximities.update leader [] (· ++ [i])) with
          | .error e => .error e
          | .ok rest => .ok ((i, leader) :: ((proximities.get? leader).getD []).map (fun j => (i, j)) ++ rest)

/-- `sqrt_indexation_pairs(vectors)` (fagin.py l. 154-174). `indices` is the shuffled list of the indices, and `similarity i j` the cosine
similarity of the vectors `i` and `j`. Simplified: `int(math.sqrt(n))` is the exact integer square root. -/
def sqrtIndexationPairs (indices : List Nat) (vectors : List (Dict κ F)) : Py (List (Nat × Nat)) :=
  leaderLoop similarity (indices.take vectors.length.sqrt) (List.range vectors.length) []

end sqrtIndexationPairs

end Fog.Fagin
