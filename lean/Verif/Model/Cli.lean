import Verif.Model.KeyCollision

/-!
# Model of `fog/cli`

Strings are lists of characters. A CSV file is the list of the rows given by `csv.reader`; what is written is the list of the rows given to
`csv.writer`. A failed command gives its exception only: the rows already written are not kept. Argument parsing is not modelled.
-/

namespace Fog.Cli

/-- Strings (split.py l. 26, transform.py l. 44). -/
abbrev Str := List Char

/-- `custom_reader(f, target_header)` (cli/utils.py l. 10-21): the headers, the position of the column, the other rows. An empty file gives
`None.index(...)`. -/
def customReader (rows : List (List Str)) (target_header : Str) : Py (List Str × Nat × List (List Str)) :=
  match rows with
  | [] => .error .attributeError
  | headers :: reader =>
      match headers.idxOf? target_header with
      | none => .error .valueError
      | some position => .ok (headers, position, reader)

/-! ### split.py -/

/-- `values.split(separator)` for a separator which is not empty; `skip` is what remains of the current separator, `cur` the current
piece (split.py l. 32, transform.py l. 30). -/
def cut (sep : Str) : Nat → Str → Str → List Str
  | _, cur, [] => [cur]
  | 0, cur, c :: s => if sep.isPrefixOf (c :: s) then cur :: cut sep (sep.length - 1) [] s else cut sep 0 (cur ++ [c]) s
  | skip + 1, cur, _ :: s => cut sep skip cur s

/-- `values.split(separator)` (split.py l. 32, transform.py l. 30). -/
def pySplit (sep s : Str) : Py (List Str) := if sep = [] then .error .valueError else .ok (cut sep 0 [] s)

/-- The arguments of `split` (cli/__main__.py l. 30-37). -/
structure SplitArgs where
  column : Str
  separator : Str
  target_column : Option Str
  rename_column : Option Str

/-- The rows written for the values of a line, which is changed by each of them (split.py l. 32-39). An empty name of target column is
false. -/
def writeValues (position : Nat) (target_column : Option Str) : List Str → List Str → List (List Str)
  | _, [] => []
  | line, value :: values =>
      let line := if (target_column.getD []) ≠ [] then line ++ [value] else line.set position value
      line :: writeValues position target_column line values

/-- One line (split.py l. 25-39). -/
def splitLine (args : SplitArgs) (position : Nat) (line : List Str) : Py (List (List Str)) :=
  match line[position]? with
  | none => .error .indexError
  | some values =>
      if values.length = 0 then .ok [line]
      else (pySplit args.separator values).map (writeValues position args.target_column line)

/-- The headers written (split.py l. 16-20). -/
def splitHeaders (args : SplitArgs) (headers : List Str) (position : Nat) : List Str :=
  let headers :=
    match args.target_column with
    | none => headers
    | some t => headers ++ [t]
  match args.rename_column with
  | none => headers
  | some r => headers.set position r

/-- `split_action(namespace)` (split.py l. 13-39). -/
def splitAction (args : SplitArgs) (rows : List (List Str)) : Py (List (List Str)) := do
  let (headers, position, reader) ← customReader rows args.column
  let written ← reader.mapM (splitLine args position)
  pure (splitHeaders args headers position :: written.flatten)

/-! ### transform.py -/

/-- A cell which is written: a string, or the number given by `len` (transform.py l. 15, 53). -/
inductive Cell
  | str (s : Str)
  | int (n : Nat)
  deriving DecidableEq, Repr

/-- The functions used by the operations (transform.py l. 13-21). -/
structure Library where
  fingerprint : Str → Str
  lower : Str → Str
  squeeze : Str → Str
  strip : Str → Str
  unidecode : Str → Str
  upper : Str → Str

/-- `OPERATIONS` (transform.py l. 13-21). -/
inductive Operation
  | fingerprint | len | lower | squeeze | strip | unidecode | upper
  deriving DecidableEq, Repr

/-- `OPERATIONS[o]` (transform.py l. 13-21, 30). -/
def operation (o : Str) : Py Operation :=
  if o = "fingerprint".toList then .ok .fingerprint
  else if o = "len".toList then .ok .len
  else if o = "lower".toList then .ok .lower
  else if o = "squeeze".toList then .ok .squeeze
  else if o = "strip".toList then .ok .strip
  else if o = "unidecode".toList then .ok .unidecode
  else if o = "upper".toList then .ok .upper
  else .error .keyError

/-- `op(new_value)` (transform.py l. 13-21, 53). On a number, methods of strings do not exist, `len` and `re.sub` raise a type error;
`fingerprint` first calls `lower`, and `unidecode` calls `encode`. -/
def apply (lib : Library) : Operation → Cell → Py Cell
  | .fingerprint, .str s => .ok (.str (lib.fingerprint s))
  | .len, .str s => .ok (.int s.length)
  | .lower, .str s => .ok (.str (lib.lower s))
  | .squeeze, .str s => .ok (.str (lib.squeeze s))
  | .strip, .str s => .ok (.str (lib.strip s))
  | .unidecode, .str s => .ok (.str (lib.unidecode s))
  | .upper, .str s => .ok (.str (lib.upper s))
  | .len, .int _ => .error .typeError
  | .squeeze, .int _ => .error .typeError
  | _, .int _ => .error .attributeError

/-- The arguments of `transform` (cli/__main__.py l. 39-47). With `--eval`, the expression is a function of the value. -/
structure TransformArgs where
  column : Str
  operations : Str
  target_column : Option Str
  after : Bool
  eval : Option (Str → Py Cell)

/-- The new value of a cell (transform.py l. 44-53). -/
def newValue (lib : Library) (eval : Option (Str → Py Cell)) (chain : List Operation) (value : Str) : Py Cell :=
  match eval with
  | some e => e value
  | none => chain.foldlM (fun v op => apply lib op v) (.str value)

/-- One line (transform.py l. 43-63). -/
def transformLine (lib : Library) (args : TransformArgs) (chain : List Operation) (position : Nat) (line : List Str) : Py (List Cell) :=
  match line[position]? with
  | none => .error .indexError
  | some value => do
      let new_value ← newValue lib args.eval chain value
      let line := line.map Cell.str
      match args.target_column with
      | some _ =>
          if args.after then pure (line.take (position + 1) ++ [new_value] ++ line.drop (position + 1))
          else pure (line ++ [new_value])
      | none => pure (line.set position new_value)

/-- The headers written (transform.py l. 34-38). -/
def transformHeaders (args : TransformArgs) (headers : List Str) (position : Nat) : List Str :=
  match args.target_column with
  | none => headers
  | some t =>
      if args.after then headers.take (position + 1) ++ [t] ++ headers.drop (position + 1)
      else headers ++ [t]

/-- `operation_chain` (transform.py l. 27-30); it is not used with `--eval`. -/
def operationChain (args : TransformArgs) : Py (List Operation) :=
  match args.eval with
  | some _ => .ok []
  | none => (cut [','] 0 [] args.operations).mapM operation

/-- `transform_action(namespace)` (transform.py l. 24-63). -/
def transformAction (lib : Library) (args : TransformArgs) (rows : List (List Str)) : Py (List Str × List (List Cell)) := do
  let chain ← operationChain args
  let (headers, position, reader) ← customReader rows args.column
  let written ← reader.mapM (transformLine lib args chain position)
  pure (transformHeaders args headers position, written)

/-! ### cluster.py and reporting/toml.py -/

/-- `string.replace(c, r)` for a single character (toml.py l. 10). -/
def replaceChar (c : Char) (r : Str) (s : Str) : Str := s.flatMap fun x => if x = c then r else [x]

/-- `escape_string(string)` (toml.py l. 9-10). -/
def escapeString (s : Str) : Str := replaceChar '\n' ['\\', 'n'] (replaceChar '"' ['\\', '"'] s)

/-- What is written of a cluster (toml.py l. 32-51); the text around these values is in `clusterText`. -/
structure ClusterReport where
  id : Nat
  nb_values : Nat
  nb_rows : Nat
  harmonized : Str
  values : List (Str × Nat × Nat)

/-- `values[v]` on a `Counter` (toml.py l. 33, 45). -/
def count (values : Dict Str Nat) (v : Str) : Nat := (Dict.get? values v).getD 0

/-- The report of a cluster (toml.py l. 32-51): the values are given with the padding after them and their number of rows. `max` raises on an
empty cluster. -/
def clusterReport (values : Dict Str Nat) (i : Nat) (cluster : List Str) : Py ClusterReport :=
  let sorted := cluster.mergeSort fun a b => decide (count values b ≤ count values a)
  match (cluster.map List.length).max?, sorted with
  | some max_length, first :: _ => .ok {
      id := i
      nb_values := cluster.length
      nb_rows := (cluster.map (count values)).sum
      harmonized := escapeString first
      values := sorted.map fun v => (escapeString v, max_length - v.length, count values v) }
  | _, _ => .error .valueError

/-- The statistics and the clusters written (toml.py l. 13-51). The date, the name of the algorithm and the time are not modelled. -/
structure Report where
  lines : Nat
  nb_distinct_values : Nat
  nb_clusters : Nat
  clusters : List ClusterReport

/-- `p(s)` (toml.py l. 15-16). -/
def printLine (s : Str) : Str := s ++ ['\n']

/-- `'%i' % n` (toml.py l. 23-25, 31-33). -/
def decimal (n : Nat) : Str := Nat.toDigits 10 n

/-- The text of a cluster (toml.py l. 31-51). -/
def clusterText (r : ClusterReport) : Str :=
  printLine "[[cluster]]".toList ++
  printLine ("id = ".toList ++ decimal r.id) ++
  printLine ("nb_values = ".toList ++ decimal r.nb_values) ++
  printLine ("nb_rows = ".toList ++ decimal r.nb_rows) ++
  printLine ("harmonized = \"".toList ++ r.harmonized ++ "\"".toList) ++
  printLine "values =  [".toList ++
  (r.values.flatMap fun v =>
    printLine ("  [[\"".toList ++ v.1 ++ "\"],".toList ++ List.replicate v.2.1 ' ' ++ " [".toList ++ decimal v.2.2 ++ "]],".toList)) ++
  printLine "]".toList ++
  printLine "harmonize = false".toList ++
  printLine []

/-- `print_toml_report(file, meta, values, clusters)` (toml.py l. 13-51): the text written. `date` is `isoformat().split('.')[0]` and `took` is
the text of `'%2f'`. -/
def printTomlReport (date algorithm took : Str) (lines : Nat) (values : Dict Str Nat) (clusters : List (List Str)) : Py Str := do
  let reports ← (clusters.zipIdx).mapM fun x => clusterReport values x.2 x.1
  pure (printLine "[info]".toList ++
    printLine ("date = ".toList ++ date) ++
    printLine ("algorithm = \"".toList ++ algorithm ++ "\"".toList) ++
    printLine [] ++
    printLine "[stats]".toList ++
    printLine ("lines = ".toList ++ decimal lines) ++
    printLine ("nb_distinct_values = ".toList ++ decimal values.length) ++
    printLine ("nb_clusters = ".toList ++ decimal clusters.length) ++
    printLine ("took = ".toList ++ took) ++
    printLine [] ++
    reports.flatMap clusterText)

/-- The values of the column with their number of rows (cluster.py l. 33-41). -/
def counter (position : Nat) (reader : List (List Str)) : Py (Dict Str Nat) :=
  reader.foldlM (fun values line =>
    match line[position]? with
    | none => .error .indexError
    | some v => .ok (values.update v 0 (· + 1))) []

/-- `cluster_action(namespace)` with the TOML renderer (cluster.py l. 30-56, toml.py l. 13-51), where `fingerprint` is the key. -/
def clusterAction (ord : Str → List Str → List Str) (fingerprint : Str → Str) (column : Str) (rows : List (List Str)) : Py Report := do
  let (_, position, reader) ← customReader rows column
  let values ← counter position reader
  let clusters ← KeyCollision.keyCollision ord (fun k : Str => decide (k ≠ [])) values.keys (some fingerprint) none 2 none true
  let reports ← (clusters.zipIdx).mapM fun x => clusterReport values x.2 x.1
  pure { lines := reader.length, nb_distinct_values := values.length, nb_clusters := clusters.length, clusters := reports }

end Fog.Cli
