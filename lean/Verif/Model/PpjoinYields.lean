import Verif.Model.Ppjoin

/-!
# Model of `fog/clustering/ppjoin.py` as a generator

What `ppjoin` has yielded when it raises, if it does. The rest is as in `Verif.Model.Ppjoin`.
-/

namespace Fog.Ppjoin

variable {τ K : Type _} [LinearOrder τ] [Field K] [LinearOrder K] [FloorRing K]

/-- The loop over the candidates (ppjoin.py l. 402-426): the candidates yielded, then the exception, if any. -/
def verifyYields (h : Helper K) (tok : List (List τ)) (record : List τ) : List (Nat × Int) → List Nat × Option PyErr
  | [] => ([], none)
  | (candidate, count) :: items =>
      match verify h tok record candidate count with
      | .error e => ([], some e)
      | .ok true => (candidate :: (verifyYields h tok record items).1, (verifyYields h tok record items).2)
      | .ok false => verifyYields h tok record items

/-- The join (ppjoin.py l. 308-426) over the positions in `argsort`: the pairs of positions yielded, then the exception, if any. -/
def joinYields (h : Helper K) (config : Config) (tok : List (List τ)) : List Nat → Index τ → List (Nat × Nat) × Option PyErr
  | [], _ => ([], none)
  | k :: ks, index =>
      let record := recordAt tok k
      match tokenLoop h config tok k (List.range (h.probeLength record.length).toNat) (index, []) with
      | .error e => ([], some e)
      | .ok (index, occurances) =>
          match verifyYields h tok record occurances with
          | (candidates, some e) => (candidates.map (fun c => (k, c)), some e)
          | (candidates, none) =>
              let rest := joinYields h config tok ks index
              (candidates.map (fun c => (k, c)) ++ rest.1, rest.2)

/-- `ppjoin(...)` (ppjoin.py l. 251-426) on tokenized records. -/
def ppjoinYields (h : Helper K) (config : Config) (tok : List (List τ)) : List (Nat × Nat) × Option PyErr :=
  joinYields h config tok (argsort tok) []

/-- `ppjoin(records, ...)` with the preprocessing (ppjoin.py l. 251-426), which is done when the first pair is asked for. -/
def ppjoinRecordsYields (h : Helper K) (config : Config) (tokenizer : Bool) (records : List (List τ)) :
    Ordering τ → List (Nat × Nat) × Option PyErr
  | .none => ppjoinYields h config (preprocessNone records)
  | .crc32 hash => ppjoinYields h config (preprocessCrc hash records)
  | .freq =>
      match preprocessFreq tokenizer records with
      | .error e => ([], some e)
      | .ok tok => ppjoinYields h config tok

end Fog.Ppjoin
