import Verif.Model.PpjoinFloat

/-!
# Model of the join of `fog/clustering/ppjoin.py` in double precision

As in `Verif/Model/Ppjoin.lean`, but the tests of positions, which mix lengths with the threshold, are rounded by `fl`. Comparisons of integers with
floats are exact in Python.
-/

namespace Fog.PpjoinFloat

open Fog.Ppjoin

variable {τ : Type _} [LinearOrder τ]

/-- The value of `occurances[candidate_id]` after an entry of the index (ppjoin.py l. 333-397); `none` when the key is
missing. -/
noncomputable def candidateValue (fl : ℝ → ℝ) (h : Helper ℝ) (config : Config) (tok : List (List τ)) (record : List τ) (t : Nat) (entry : Entry)
    (value : Option Int) : Py (Option Int) :=
  if config.all_pairs then
    match value with
    | none => .ok (some 1)
    | some value => .ok (some (value + 1))
  else
    let candidate := recordAt tok entry.1
    let candidate_pos : Int := entry.2
    match requireOverlaps h record.length candidate.length with
    | .error e => .error e
    | .ok require_overlap =>
        if value = some pruneFlag then .ok value
        else
          match suffixFiltered config candidate record entry.2 t value require_overlap with
          | .error e => .error e
          | .ok true => .ok (value.map fun _ => pruneFlag)
          | .ok false =>
              match value with
              | none =>
                  if fl ((record.length : ℝ) - h.threshold) < (require_overlap : ℝ) ∨ (candidate.length : Int) - candidate_pos < require_overlap
                    then .ok none
                  else .ok (some 1)
              | some value =>
                  if fl ((value : ℝ) + fl ((record.length : ℝ) - h.threshold)) < (require_overlap : ℝ) ∨
                      value + ((candidate.length : Int) - candidate_pos) < require_overlap then .ok (some pruneFlag)
                  else .ok (some (value + 1))

/-- One entry of the index (ppjoin.py l. 332-397). -/
noncomputable def candidateStep (fl : ℝ → ℝ) (h : Helper ℝ) (config : Config) (tok : List (List τ)) (record : List τ) (t : Nat)
    (occurances : Dict Nat Int) (entry : Entry) : Py (Dict Nat Int) :=
  match candidateValue fl h config tok record t entry (occurances.get? entry.1) with
  | .error e => .error e
  | .ok none => .ok occurances
  | .ok (some v) => .ok (occurances.set entry.1 v)

/-- The loop over the entries (ppjoin.py l. 332-397). -/
noncomputable def candidateLoop (fl : ℝ → ℝ) (h : Helper ℝ) (config : Config) (tok : List (List τ)) (record : List τ) (t : Nat) :
    List Entry → Dict Nat Int → Py (Dict Nat Int)
  | [], occurances => .ok occurances
  | entry :: entries, occurances =>
      match candidateStep fl h config tok record t occurances entry with
      | .error e => .error e
      | .ok occurances => candidateLoop fl h config tok record t entries occurances

/-- One token of the prefix of record `k` (ppjoin.py l. 325-400). -/
noncomputable def tokenStep (fl : ℝ → ℝ) (h : Helper ℝ) (config : Config) (tok : List (List τ)) (k : Nat) (index : Index τ)
    (occurances : Dict Nat Int) (t : Nat) : Py (Index τ × Dict Nat Int) :=
  let record := recordAt tok k
  let min_length := h.minPossibleLength record.length
  let index_length := h.indexLength record.length
  match record[t]? with
  | none => .error .indexError
  | some token =>
      let (pos, ids) := (index.get? token).getD (0, [])
      let pos := pos + ((ids.drop pos).takeWhile fun e => decide (((recordAt tok e.1).length : Int) < min_length)).length
      match candidateLoop fl h config tok record t (ids.drop pos) occurances with
      | .error e => .error e
      | .ok occurances =>
          let ids := if h.threshold < (index_length : ℝ) then ids ++ [(k, t)] else ids
          .ok (index.set token (pos, ids), occurances)

/-- The loop over the prefix (ppjoin.py l. 324-400). -/
noncomputable def tokenLoop (fl : ℝ → ℝ) (h : Helper ℝ) (config : Config) (tok : List (List τ)) (k : Nat) :
    List Nat → Index τ × Dict Nat Int → Py (Index τ × Dict Nat Int)
  | [], s => .ok s
  | t :: ts, s =>
      match tokenStep fl h config tok k s.1 s.2 t with
      | .error e => .error e
      | .ok s => tokenLoop fl h config tok k ts s

/-- The join (ppjoin.py l. 308-426) over the positions in `argsort`: the pairs of positions yielded. Simplified: when it
raises, the pairs yielded before are not kept. -/
noncomputable def join (fl : ℝ → ℝ) (h : Helper ℝ) (config : Config) (tok : List (List τ)) : List Nat → Index τ → Py (List (Nat × Nat))
  | [], _ => .ok []
  | k :: ks, index =>
      let record := recordAt tok k
      match tokenLoop fl h config tok k (List.range (h.probeLength record.length).toNat) (index, []) with
      | .error e => .error e
      | .ok (index, occurances) =>
          match verifyLoop h tok record occurances with
          | .error e => .error e
          | .ok candidates =>
              match join fl h config tok ks index with
              | .error e => .error e
              | .ok rest => .ok (candidates.map (fun c => (k, c)) ++ rest)

/-- `ppjoin(...)` (ppjoin.py l. 251-426) on tokenized records. -/
noncomputable def ppjoin (fl : ℝ → ℝ) (h : Helper ℝ) (config : Config) (tok : List (List τ)) : Py (List (Nat × Nat)) :=
  join fl h config tok (argsort tok) []

/-- `ppjoin(records, ...)` with the preprocessing (ppjoin.py l. 251-426). -/
noncomputable def ppjoinRecords (fl : ℝ → ℝ) (h : Helper ℝ) (config : Config) (tokenizer : Bool) (records : List (List τ)) :
    Ppjoin.Ordering τ → Py (List (Nat × Nat))
  | .none => ppjoin fl h config (preprocessNone records)
  | .crc32 hash => ppjoin fl h config (preprocessCrc hash records)
  | .freq =>
      match preprocessFreq tokenizer records with
      | .error e => .error e
      | .ok tok => ppjoin fl h config tok

end Fog.PpjoinFloat
