import Verif.Model.Cli

/-!
# Model of what `fog split` and `fog transform` write before they raise

As in `Verif/Model/Cli.lean`, but the rows given to `csv.writer` are kept when an exception stops the command.
-/

namespace Fog.CliStream

open Cli

/-- The loop `for line in reader` (split.py l. 25-39, transform.py l. 43-63), where `rows` gives the rows written for a line, or the exception
raised before any of them is written. -/
def loop {ρ : Type _} (rows : List Str → Py (List ρ)) : List (List Str) → List ρ × Option PyErr
  | [] => ([], none)
  | line :: reader =>
      match rows line with
      | .error e => ([], some e)
      | .ok written => (written ++ (loop rows reader).1, (loop rows reader).2)

/-- `split_action(namespace)` (split.py l. 13-39): the rows written, and the exception raised if there is one. -/
def splitAction (args : SplitArgs) (rows : List (List Str)) : List (List Str) × Option PyErr :=
  match customReader rows args.column with
  | .error e => ([], some e)
  | .ok (headers, position, reader) =>
      let rest := loop (splitLine args position) reader
      (splitHeaders args headers position :: rest.1, rest.2)

/-- `transform_action(namespace)` (transform.py l. 24-63): the rows written, and the exception raised if there is one. -/
def transformAction (lib : Library) (args : TransformArgs) (rows : List (List Str)) : List (List Cell) × Option PyErr :=
  match operationChain args with
  | .error e => ([], some e)
  | .ok chain =>
      match customReader rows args.column with
      | .error e => ([], some e)
      | .ok (headers, position, reader) =>
          let rest := loop (fun line => (transformLine lib args chain position line).map fun row => [row]) reader
          ((transformHeaders args headers position).map Cell.str :: rest.1, rest.2)

end Fog.CliStream
