import Verif.Model.Cli
import Verif.Model.Html
import Verif.Model.Fingerprint

/-!
# Model of `fog/cli/__main__.py` and of the tables of `fog/cli/cluster.py`, `fog/cli/reporting` and `fog/cli/transform.py`

The reading of the command line by `argparse` is not modelled, except for the defaults and the choices of the options. Files are lists of
rows, as in `Fog.Cli`. The clock is a parameter.
-/

namespace Fog.CliMain

open Fog.Cli

/-- `datetime.now()` (cluster.py l. 50). -/
structure DateTime where
  year : Nat
  month : Nat
  day : Nat
  hour : Nat
  minute : Nat
  second : Nat
  microsecond : Nat

/-- `date.isoformat()` (toml.py l. 19, html.py l. 32): `YYYY-MM-DDTHH:MM:SS[.ffffff]`. -/
def isoformat (d : DateTime) : Str :=
  Html.padded 4 d.year ++ '-' :: Html.padded 2 d.month ++ '-' :: Html.padded 2 d.day ++ 'T' ::
    Html.padded 2 d.hour ++ ':' :: Html.padded 2 d.minute ++ ':' :: Html.padded 2 d.second ++
    (if d.microsecond = 0 then [] else '.' :: Html.padded 6 d.microsecond)

/-- `text.split(c)[0]` (toml.py l. 19, html.py l. 32). -/
def before (c : Char) (text : Str) : Str := (cut [c] 0 [] text).headD []

/-- `'%2f' % took` (toml.py l. 26), for a number which is not negative: six decimals, the width of two being always reached. -/
def sixDecimals (took : Rat) : Str :=
  decimal (Html.roundEven (took * 1000000) / 1000000) ++ '.' :: Html.padded 6 (Html.roundEven (took * 1000000) % 1000000)

/-- `meta` (cluster.py l. 47-52). -/
structure Meta where
  algorithm : Str
  took : Rat
  date : DateTime
  lines : Nat

/-- `RENDERERS` (reporting/__init__.py l. 4-7): the text written for the values and the clusters. -/
def renderers : Dict Str (Meta → Dict Str Nat → List (List Str) → Py Str) := [
  ("html".toList, fun m values clusters => .ok (Html.printHtmlReport (before 'T' (isoformat m.date)) m.algorithm m.took m.lines values clusters)),
  ("toml".toList, fun m values clusters => printTomlReport (before '.' (isoformat m.date)) m.algorithm (sixDecimals m.took) m.lines values clusters)]

/-- `CLUSTERING_ROUTINES` (cluster.py l. 19-27): the function with its keyword arguments. -/
def clusteringRoutines (u : Fingerprint.Unicode) (ord : Str → List Str → List Str) : Dict Str (List Str → Py (List (List Str))) := [
  ("fingerprint_collision".toList, fun data =>
    KeyCollision.keyCollision ord (fun k : Str => decide (k ≠ [])) data (some (Fingerprint.key u {})) none 2 none true)]

/-- The arguments of `cluster` (cli/__main__.py l. 22-28). -/
structure ClusterArgs where
  column : Str
  algorithm : Str
  type : Str

/-- The defaults and the choices of `cluster` (cli/__main__.py l. 26-27); `none` when `argparse` refuses the command line. -/
def clusterArgs (u : Fingerprint.Unicode) (ord : Str → List Str → List Str) (column : Str) (algorithm type : Option Str) : Option ClusterArgs :=
  let a := algorithm.getD "fingerprint_collision".toList
  let t := type.getD "toml".toList
  if a ∈ (clusteringRoutines u ord).keys ∧ t ∈ ["html".toList, "toml".toList] then some ⟨column, a, t⟩ else none

/-- The default of `split` (cli/__main__.py l. 34). -/
def splitArgs (column : Str) (separator target_column rename_column : Option Str) : SplitArgs :=
  ⟨column, separator.getD "|".toList, target_column, rename_column⟩

/-- `cluster_action(namespace)` (cluster.py l. 30-56): the text written. -/
def clusterAction (u : Fingerprint.Unicode) (ord : Str → List Str → List Str) (now : DateTime) (took : Rat) (args : ClusterArgs)
    (rows : List (List Str)) : Py Str := do
  let routine ← match (clusteringRoutines u ord).get? args.algorithm with
    | none => .error .keyError
    | some routine => .ok routine
  let (_, position, reader) ← customReader rows args.column
  let values ← counter position reader
  let clusters ← routine values.keys
  let renderer ← match renderers.get? args.type with
    | none => .error .keyError
    | some renderer => .ok renderer
  renderer ⟨args.algorithm, took, now, reader.length⟩ values clusters

/-- The functions of `OPERATIONS` (transform.py l. 13-21). -/
def library (u : Fingerprint.Unicode) (upper : Str → Str) : Library where
  fingerprint := Fingerprint.key u {}
  lower := u.lower
  squeeze := fun s => Utils.squeeze s false
  strip := Fingerprint.strip u
  unidecode := u.unidecode
  upper := upper

/-- `args` (cli/__main__.py l. 53). `argparse` gives the arguments of the chosen command only; those of the others are not read. -/
structure Namespace where
  action : Option Str
  subcommand : Str
  cluster : ClusterArgs
  split : SplitArgs
  transform : TransformArgs

/-- What is written: a help message, of the program or of a command; the text of a report; the rows of a file. -/
inductive Written
  | help (command : Option Str)
  | text (t : Str)
  | rows (rows : List (List Str))
  | table (headers : List Str) (rows : List (List Cell))

/-- `SUBPARSERS` (cli/__main__.py l. 28, 37, 47, 51). -/
def subparsers : List Str := ["cluster".toList, "split".toList, "transform".toList, "help".toList]

/-- `main()` after the command line was read (cli/__main__.py l. 55-73): what is written, in turn. -/
def main (u : Fingerprint.Unicode) (upper : Str → Str) (ord : Str → List Str → List Str) (now : DateTime) (took : Rat) (args : Namespace)
    (file : List (List Str)) : Py (List Written) := do
  let a := if args.action = some "help".toList then
      [if args.subcommand ∈ subparsers then Written.help (some args.subcommand) else .help none]
    else []
  let b ← if args.action = some "cluster".toList then (clusterAction u ord now took args.cluster file).map fun t => [Written.text t] else .ok []
  let c ← if args.action = some "split".toList then (splitAction args.split file).map fun r => [Written.rows r] else .ok []
  let d ← if args.action = some "transform".toList then
      (transformAction (library u upper) args.transform file).map fun r => [Written.table r.1 r.2]
    else .ok []
  let e := if args.action = none then [Written.help none] else []
  pure (a ++ b ++ c ++ d ++ e)

end Fog.CliMain
