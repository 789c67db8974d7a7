import Verif.Model.Py
import Verif.Model.Dict
import Mathlib.Algebra.Order.Floor.Defs
import Mathlib.Algebra.Field.Defs
import Mathlib.Analysis.Real.Sqrt

/-!
# Model of `fog/clustering/ppjoin.py`

Numbers are elements of an ordered field with a floor function: simplified from floats. Records are given by their
positions. Tokens belong to a linear order.
-/

namespace Fog.Ppjoin

variable {τ K : Type _} [LinearOrder τ] [Field K] [LinearOrder K] [FloorRing K]

/-- `EPSILON` (ppjoin.py l. 24). -/
def epsilon : K := 1 / 1000000

/-- `int(x)`: rounds towards zero (ppjoin.py l. 40, 43, 52). -/
def pyInt (x : K) : Int := if 0 ≤ x then ⌊x⌋ else ⌈x⌉

/-- A `MetricHelper` (ppjoin.py l. 31-35) and its methods. -/
structure Helper (K : Type _) where
  threshold : K
  indexLength : Nat → Int
  probeLength : Nat → Int
  requireOverlap : Nat → Nat → Int
  computeSimilarity : Nat → Nat → Int → K
  maxPossibleLength : Nat → Int
  minPossibleLength : Nat → Int

/-- `JaccardHelper` (ppjoin.py l. 38-55). -/
def jaccardHelper (threshold : K) : Helper K where
  threshold := threshold
  indexLength l := pyInt ((1 - 2 * threshold / (1 + threshold)) * l + 1 + epsilon)
  probeLength l := pyInt ((1 - threshold) * l + 1 + epsilon)
  requireOverlap l1 l2 := ⌈threshold / (1 + threshold) * ((l1 : K) + l2) - epsilon⌉
  computeSimilarity l1 l2 overlap := (overlap : K) / ((l1 : K) + l2 - overlap) + epsilon
  maxPossibleLength l := pyInt (l / threshold + epsilon)
  minPossibleLength l := ⌈(l : K) * threshold - epsilon⌉

/-- `DiceHelper` (ppjoin.py l. 58-75). -/
def diceHelper (threshold : K) : Helper K where
  threshold := threshold
  indexLength l := pyInt ((1 - threshold) * l + 1 + epsilon)
  probeLength l := pyInt ((1 - threshold / (2 - threshold)) * l + 1 + epsilon)
  requireOverlap l1 l2 := ⌈((l1 : K) + l2) * threshold / 2 - epsilon⌉
  computeSimilarity l1 l2 overlap := 2 * (overlap : K) / ((l1 : K) + l2) + epsilon
  maxPossibleLength l := pyInt (l / threshold * (2 - threshold) + epsilon)
  minPossibleLength l := ⌈(l : K) * threshold / (2 - threshold) - epsilon⌉

/-- `BinaryCosineHelper` (ppjoin.py l. 78-95). -/
noncomputable def binaryCosineHelper (threshold : ℝ) : Helper ℝ where
  threshold := threshold
  indexLength l := pyInt ((1 - threshold) * (l : ℝ) + 1 + epsilon)
  probeLength l := pyInt ((1 - threshold * threshold) * (l : ℝ) + 1 + epsilon)
  requireOverlap l1 l2 := ⌈threshold * Real.sqrt ((l1 : ℝ) * l2) - epsilon⌉
  computeSimilarity l1 l2 overlap := (overlap : ℝ) / Real.sqrt ((l1 : ℝ) * l2) + epsilon
  maxPossibleLength l := pyInt ((l : ℝ) / threshold / threshold + epsilon)
  minPossibleLength l := ⌈(l : ℝ) * threshold * threshold - epsilon⌉

/-- `l[i]` for an integer: negative ones count from the end (ppjoin.py l. 154, 170-171, 180, 411). -/
def pyGet (l : List τ) (i : Int) : Py τ :=
  if 0 ≤ i then (match l[i.toNat]? with | some x => .ok x | none => .error .indexError)
  else if 0 ≤ i + l.length then
    (match l[(i + l.length).toNat]? with | some x => .ok x | none => .error .indexError)
  else .error .indexError

/-- `compute_overlap(x, y, require_overlap)` (ppjoin.py l. 110-134) from the positions reached: `x` and `y` are what remains. -/
def computeOverlap (require_overlap : Int) : (x y : List τ) → (current_overlap : Int) → Int
  | [], _, current_overlap => current_overlap
  | _ :: _, [], current_overlap => current_overlap
  | a :: x, b :: y, current_overlap =>
      if ((a :: x).length : Int) + current_overlap < require_overlap ∨
          ((b :: y).length : Int) + current_overlap < require_overlap then -1
      else if a = b then computeOverlap require_overlap x y (current_overlap + 1)
      else if a < b then computeOverlap require_overlap x (b :: y) current_overlap
      else computeOverlap require_overlap (a :: x) y current_overlap
termination_by x y => x.length + y.length

/-- The loop of `bisect.bisect_left(y, token, lo, hi)` (ppjoin.py l. 178). -/
def bisectLoop (y : List τ) (token : τ) (lo hi : Int) : Py Int :=
  if h : lo < hi then
    let mid := (lo + hi) / 2
    match pyGet y mid with
    | .error e => .error e
    | .ok v => if v < token then bisectLoop y token (mid + 1) hi else bisectLoop y token lo mid
  else .ok lo
termination_by (hi - lo).toNat
decreasing_by all_goals omega

/-- `bisect.bisect_left(y, token, lo, hi)` (ppjoin.py l. 178). -/
def bisectLeft (y : List τ) (token : τ) (lo hi : Int) : Py Int :=
  if lo < 0 then .error .valueError else bisectLoop y token lo hi

/-- `left` and `right` (ppjoin.py l. 156-167). -/
def suffixWindow (x_start x_end y_start y_end hd : Int) : Int × Int :=
  let x_len := x_end - x_start
  let y_len := y_end - y_start
  if x_len ≥ y_len then
    let delta := x_len - y_len
    (y_start + x_len / 2 - ((hd - delta) / 2 + delta), y_start + x_len / 2 + (hd - delta) / 2)
  else
    let delta := y_len - x_len
    (y_start + x_len / 2 - (hd - delta) / 2, y_start + x_len / 2 + ((hd - delta) / 2 + delta))

/-- `y[i] > token` or `y[i] < token` or `y[i] == token`, after a bound on `i` (ppjoin.py l. 170, 171 and 180). -/
def suffixTest (inside : Bool) (y : List τ) (i : Int) (test : τ → Bool) : Py Bool :=
  if inside then
    match pyGet y i with
    | .error e => .error e
    | .ok v => .ok (test v)
  else .ok false

/-- The place of the token in the middle of `x` (ppjoin.py l. 153-180): `none` when it is too far, otherwise `pos` and whether the token is there. -/
def suffixProbe (x y : List τ) (x_start x_end y_start y_end hd : Int) : Py (Option (Int × Bool)) :=
  match pyGet x (x_start + (x_end - x_start) / 2) with
  | .error e => .error e
  | .ok token =>
      let left := (suffixWindow x_start x_end y_start y_end hd).1
      let right := (suffixWindow x_start x_end y_start y_end hd).2
      match suffixTest (decide (left ≥ y_start)) y left (fun v => decide (v > token)) with
      | .error e => .error e
      | .ok true => .ok none
      | .ok false =>
          match suffixTest (decide (right < y_end)) y right (fun v => decide (v < token)) with
          | .error e => .error e
          | .ok true => .ok none
          | .ok false =>
              let search_left := if left ≥ y_start then left else y_start
              let search_right := if right + 1 < y_end then right + 1 else y_end
              match bisectLeft y token search_left search_right with
              | .error e => .error e
              | .ok pos =>
                  match suffixTest (decide (pos < y_end)) y pos (fun v => decide (v = token)) with
                  | .error e => .error e
                  | .ok found => .ok (some (pos, found))

/-- `suffix_filter(x, y, x_start, x_end, y_start, y_end, hd, depth)` (ppjoin.py l. 137-213); the first argument is
`MAX_DEPTH - depth`. -/
def suffixFilter (x y : List τ) (d : Nat) (x_start x_end y_start y_end hd : Int) : Py Int :=
  if x_end ≤ x_start ∨ y_end ≤ y_start then .ok (((x_end - x_start) - (y_end - y_start)).natAbs : Int)
  else
    match suffixProbe x y x_start x_end y_start y_end hd with
    | .error e => .error e
    | .ok none => .ok (hd + 1)
    | .ok (some (pos, true)) =>
        let mid := x_start + (x_end - x_start) / 2
        let hd_left_bound : Int := (((mid - x_start) - (pos - y_start)).natAbs : Int)
        let hd_right_bound : Int := (((x_end - mid - 1) - (y_end - pos - 1)).natAbs : Int)
        if hd_left_bound + hd_right_bound > hd then .ok (hd_left_bound + hd_right_bound)
        else
          match d with
          | 0 => .ok (hd_left_bound + hd_right_bound)
          | d + 1 =>
              match suffixFilter x y d x_start mid y_start pos (hd - hd_right_bound) with
              | .error e => .error e
              | .ok hd_left =>
                  if hd_left + hd_right_bound > hd then .ok (hd_left + hd_right_bound)
                  else
                    match suffixFilter x y d (mid + 1) x_end (pos + 1) y_end (hd - hd_left) with
                    | .error e => .error e
                    | .ok hd_right => .ok (hd_left + hd_right)
    | .ok (some (pos, false)) =>
        let mid := x_start + (x_end - x_start) / 2
        let hd_left_bound : Int := (((mid - x_start) - (pos - y_start)).natAbs : Int)
        let hd_right_bound : Int := (((x_end - mid - 1) - (y_end - pos)).natAbs : Int)
        if hd_left_bound + hd_right_bound + 1 > hd then .ok (hd_left_bound + hd_right_bound + 1)
        else
          match d with
          | 0 => .ok (hd_left_bound + hd_right_bound + 1)
          | d + 1 =>
              match suffixFilter x y d x_start mid y_start pos (hd - hd_right_bound - 1) with
              | .error e => .error e
              | .ok hd_left =>
                  if hd_left + hd_right_bound + 1 > hd then .ok (hd_left + hd_right_bound + 1)
                  else
                    match suffixFilter x y d (mid + 1) x_end pos y_end (hd - hd_left - 1) with
                    | .error e => .error e
                    | .ok hd_right => .ok (hd_left + hd_right + 1)

/-- `MAX_DEPTH` (ppjoin.py l. 26). -/
def maxDepth : Nat := 2

/-- `PRUNE_FLAG` (ppjoin.py l. 25). -/
def pruneFlag : Int := -1

/-- An entry of the inverted index: a record and the position of the token in it (ppjoin.py l. 400). -/
abbrev Entry := Nat × Nat

/-- `inverted_index` (ppjoin.py l. 98-107 and 305): `pos` and `ids` by token. -/
abbrev Index (τ : Type _) := Dict τ (Nat × List Entry)

/-- Which algorithm (ppjoin.py l. 251-252, 335, 355). -/
structure Config where
  all_pairs : Bool
  plus : Bool

/-- `tokenized_records[i]`; positions are always in range (ppjoin.py l. 309, 344, 406). -/
def recordAt (tok : List (List τ)) (i : Nat) : List τ := (tok[i]?).getD []

/-- `require_overlaps[l]` (ppjoin.py l. 317-320 and 346, 408) for a record of the given length. Simplified: `min_length` is not
negative, as is the case when the threshold is not. -/
def requireOverlaps (h : Helper K) (record_length l : Nat) : Py Int :=
  if l ≤ record_length then
    .ok (if h.minPossibleLength record_length ≤ (l : Int) then h.requireOverlap record_length l else 0)
  else .error .indexError

/-- `0 if value is None else 2 * value` (ppjoin.py l. 360). -/
def twice : Option Int → Int
  | none => 0
  | some value => 2 * value

/-- Whether the suffix filter of PPJoin+ removes a candidate (ppjoin.py l. 354-380), where `record` is the record and `t` a position in it. -/
def suffixFiltered (config : Config) (candidate record : List τ) (candidate_pos t : Nat) (value : Option Int) (require_overlap : Int) : Py Bool :=
  if config.plus then
    let hamming_distance : Int := (candidate.length : Int) + record.length - 2 * require_overlap + twice value - ((candidate_pos : Int) + t)
    if hamming_distance ≥ 0 then
      match suffixFilter candidate record maxDepth candidate_pos candidate.length t record.length hamming_distance with
      | .error e => .error e
      | .ok sf => .ok (decide (sf > hamming_distance))
    else .ok false
  else .ok false

/-- The value of `occurances[candidate_id]` after an entry of the index (ppjoin.py l. 333-397); `none` when the key is
missing. -/
def candidateValue (h : Helper K) (config : Config) (tok : List (List τ)) (record : List τ) (t : Nat) (entry : Entry)
    (value : Option Int) : Py (Option Int) :=
  if config.all_pairs then
    match value with
    | none => .ok (some 1)
    | some value => .ok (some (value + 1))
  else
    let candidate := recordAt tok entry.1
    let candidate_pos : Int := entry.2
    match requireOverlaps h record.length candidate.length with
    | .error e => .error e
    | .ok require_overlap =>
        if value = some pruneFlag then .ok value
        else
          match suffixFiltered config candidate record entry.2 t value require_overlap with
          | .error e => .error e
          | .ok true => .ok (value.map fun _ => pruneFlag)
          | .ok false =>
              match value with
              | none =>
                  if (record.length : K) - h.threshold < (require_overlap : K) ∨ (candidate.length : Int) - candidate_pos < require_overlap
                    then .ok none
                  else .ok (some 1)
              | some value =>
                  if (value : K) + ((record.length : K) - h.threshold) < (require_overlap : K) ∨
                      value + ((candidate.length : Int) - candidate_pos) < require_overlap then .ok (some pruneFlag)
                  else .ok (some (value + 1))

/-- One entry of the index (ppjoin.py l. 332-397). -/
def candidateStep (h : Helper K) (config : Config) (tok : List (List τ)) (record : List τ) (t : Nat)
    (occurances : Dict Nat Int) (entry : Entry) : Py (Dict Nat Int) :=
  match candidateValue h config tok record t entry (occurances.get? entry.1) with
  | .error e => .error e
  | .ok none => .ok occurances
  | .ok (some v) => .ok (occurances.set entry.1 v)

/-- The loop over the entries (ppjoin.py l. 332-397). -/
def candidateLoop (h : Helper K) (config : Config) (tok : List (List τ)) (record : List τ) (t : Nat) :
    List Entry → Dict Nat Int → Py (Dict Nat Int)
  | [], occurances => .ok occurances
  | entry :: entries, occurances =>
      match candidateStep h config tok record t occurances entry with
      | .error e => .error e
      | .ok occurances => candidateLoop h config tok record t entries occurances

/-- One token of the prefix of record `k` (ppjoin.py l. 325-400). -/
def tokenStep (h : Helper K) (config : Config) (tok : List (List τ)) (k : Nat) (index : Index τ)
    (occurances : Dict Nat Int) (t : Nat) : Py (Index τ × Dict Nat Int) :=
  let record := recordAt tok k
  let min_length := h.minPossibleLength record.length
  let index_length := h.indexLength record.length
  match record[t]? with
  | none => .error .indexError
  | some token =>
      let (pos, ids) := (index.get? token).getD (0, [])
      let pos := pos + ((ids.drop pos).takeWhile fun e => decide (((recordAt tok e.1).length : Int) < min_length)).length
      match candidateLoop h config tok record t (ids.drop pos) occurances with
      | .error e => .error e
      | .ok occurances =>
          let ids := if h.threshold < (index_length : K) then ids ++ [(k, t)] else ids
          .ok (index.set token (pos, ids), occurances)

/-- The loop over the prefix (ppjoin.py l. 324-400). -/
def tokenLoop (h : Helper K) (config : Config) (tok : List (List τ)) (k : Nat) :
    List Nat → Index τ × Dict Nat Int → Py (Index τ × Dict Nat Int)
  | [], s => .ok s
  | t :: ts, s =>
      match tokenStep h config tok k s.1 s.2 t with
      | .error e => .error e
      | .ok s => tokenLoop h config tok k ts s

/-- Whether a candidate is yielded (ppjoin.py l. 403-426). -/
def verify (h : Helper K) (tok : List (List τ)) (record : List τ) (candidate : Nat) (count : Int) : Py Bool :=
  if count = pruneFlag then .ok false
  else do
    let record_length := record.length
    let probe_length := h.probeLength record_length
    let candidate_record := recordAt tok candidate
    let candidate_size := candidate_record.length
    let require_overlap ← requireOverlaps h record_length candidate_size
    let index_length := h.indexLength candidate_size
    let a ← pyGet candidate_record (index_length - 1)
    let b ← pyGet record (probe_length - 1)
    let hopeless := if a < b then decide (count + candidate_size - index_length < require_overlap)
      else decide (count + record_length - probe_length < require_overlap)
    if hopeless then return false
    let real_overlap := computeOverlap require_overlap record candidate_record 0
    if real_overlap = -1 then return false
    return decide (h.computeSimilarity record_length candidate_size real_overlap ≥ h.threshold)

/-- The loop over the candidates (ppjoin.py l. 402-426): the candidates yielded. -/
def verifyLoop (h : Helper K) (tok : List (List τ)) (record : List τ) : List (Nat × Int) → Py (List Nat)
  | [] => .ok []
  | (candidate, count) :: items =>
      match verify h tok record candidate count with
      | .error e => .error e
      | .ok keep =>
          match verifyLoop h tok record items with
          | .error e => .error e
          | .ok rest => .ok (if keep then candidate :: rest else rest)

/-- The join (ppjoin.py l. 308-426) over the positions in `argsort`: the pairs of positions yielded. Simplified: when it
raises, the pairs yielded before are not kept. -/
def join (h : Helper K) (config : Config) (tok : List (List τ)) : List Nat → Index τ → Py (List (Nat × Nat))
  | [], _ => .ok []
  | k :: ks, index =>
      let record := recordAt tok k
      match tokenLoop h config tok k (List.range (h.probeLength record.length).toNat) (index, []) with
      | .error e => .error e
      | .ok (index, occurances) =>
          match verifyLoop h tok record occurances with
          | .error e => .error e
          | .ok candidates =>
              match join h config tok ks index with
              | .error e => .error e
              | .ok rest => .ok (candidates.map (fun c => (k, c)) ++ rest)

/-- `argsort` (ppjoin.py l. 246). -/
def argsort (tok : List (List τ)) : List Nat :=
  (List.range tok.length).mergeSort fun i j => decide ((recordAt tok i).length ≤ (recordAt tok j).length)

/-- `sorted_uniq(record)` of the `ebbe` library (ppjoin.py l. 231). -/
def sortedUniq (record : List τ) : List τ := (dedup record).mergeSort fun a b => decide (a ≤ b)

/-- `freqs` (ppjoin.py l. 217 and 227-229): tokens are counted only when there is a tokenizer. -/
def countTokens (tokenizer : Bool) (records : List (List τ)) : Dict τ Nat :=
  if tokenizer then
    records.foldl (fun freqs record => record.foldl (fun freqs token => freqs.update token 0 (· + 1)) freqs) []
  else []

/-- `sorted(freqs.items(), key=lambda x: (x[1], x[0]))` (ppjoin.py l. 239). -/
def sortedFreqs (freqs : Dict τ Nat) : List (τ × Nat) :=
  freqs.mergeSort fun a b => decide (a.2 < b.2 ∨ (a.2 = b.2 ∧ a.1 ≤ b.1))

/-- `labels[token]` (ppjoin.py l. 239 and 242): the rank of the token. -/
def labelOf (freqs : Dict τ Nat) (token : τ) : Py Nat :=
  match ((sortedFreqs freqs).map Prod.fst).idxOf? token with
  | some i => .ok i
  | none => .error .keyError

/-- `[labels[token] for token in record]` (ppjoin.py l. 242). -/
def labelsOf (freqs : Dict τ Nat) : List τ → Py (List Nat)
  | [] => .ok []
  | token :: record =>
      match labelOf freqs token with
      | .error e => .error e
      | .ok i =>
          match labelsOf freqs record with
          | .error e => .error e
          | .ok rest => .ok (i :: rest)

/-- `preprocess(...)` with `token_ordering=None` (ppjoin.py l. 216-248): the tokenized records. -/
def preprocessNone (records : List (List τ)) : List (List τ) := records.map sortedUniq

/-- `preprocess(...)` with `token_ordering='crc32'`, for any hash function (ppjoin.py l. 216-248). -/
def preprocessCrc (crc32 : τ → Nat) (records : List (List τ)) : List (List Nat) :=
  records.map fun record => ((sortedUniq record).map crc32).mergeSort fun a b => decide (a ≤ b)

/-- `preprocess(...)` with `token_ordering='freq'` (ppjoin.py l. 216-248). -/
def preprocessFreq (tokenizer : Bool) (records : List (List τ)) : Py (List (List Nat)) :=
  let freqs := countTokens tokenizer records
  let rec go : List (List τ) → Py (List (List Nat))
    | [] => .ok []
    | record :: records =>
        match labelsOf freqs (sortedUniq record) with
        | .error e => .error e
        | .ok l =>
            match go records with
            | .error e => .error e
            | .ok rest => .ok (l.mergeSort (fun a b => decide (a ≤ b)) :: rest)
  go records

/-- `ppjoin(...)` (ppjoin.py l. 251-426) on tokenized records. `all_pairs` (l. 429-438) and `ppjoin_plus` (l. 441-450) are the same with one flag
of the configuration. -/
def ppjoin (h : Helper K) (config : Config) (tok : List (List τ)) : Py (List (Nat × Nat)) :=
  join h config tok (argsort tok) []

/-- The `token_ordering` argument (ppjoin.py l. 227, 233, 238). -/
inductive Ordering (τ : Type _)
  | none
  | freq
  | crc32 (hash : τ → Nat)

/-- `ppjoin(records, ...)` with the preprocessing: `records` are the lists of tokens given by the tokenizer, or by the
records themselves when there is no tokenizer (ppjoin.py l. 251-426). -/
def ppjoinRecords (h : Helper K) (config : Config) (tokenizer : Bool) (records : List (List τ)) :
    Ordering τ → Py (List (Nat × Nat))
  | .none => ppjoin h config (preprocessNone records)
  | .crc32 hash => ppjoin h config (preprocessCrc hash records)
  | .freq =>
      match preprocessFreq tokenizer records with
      | .error e => .error e
      | .ok tok => ppjoin h config tok

end Fog.Ppjoin
