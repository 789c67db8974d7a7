import Verif.Model.Cli

/-!
# Model of `fog/cli/reporting/html.py`

The text written by the HTML report. The time of the clustering is a rational number of seconds, as `timer()` gives seconds.
-/

namespace Fog.Html

open Fog.Cli

/-- Commas after each third digit, on the digits read backwards (html.py l. 53, 61, 69). -/
def commas : Str → Str
  | a :: b :: c :: d :: rest => a :: b :: c :: ',' :: commas (d :: rest)
  | digits => digits

/-- `'{:,}'.format(n)` (html.py l. 53, 61, 69). -/
def thousands (n : Nat) : Str := (commas (decimal n).reverse).reverse

/-- The rounding of `timedelta` to microseconds, half to even, of a number which is not negative (html.py l. 77). -/
def roundEven (x : Rat) : Nat :=
  let f := x.floor.toNat
  if x - f < 1 / 2 then f else if 1 / 2 < x - f then f + 1 else if f % 2 = 0 then f else f + 1

/-- `'%0ki' % n`: zeros before the digits up to the width (html.py l. 77). -/
def padded (k n : Nat) : Str := List.replicate (k - (decimal n).length) '0' ++ decimal n

/-- `str(timedelta(microseconds=us))` for a whole number of microseconds (html.py l. 77): `[D day[s], ]H:MM:SS[.UUUUUU]`. -/
def timedeltaStr (us : Nat) : Str :=
  let seconds := us / 1000000
  let minutes := seconds / 60
  let hours := minutes / 60
  let days := hours / 24
  (if days = 0 then [] else decimal days ++ " day".toList ++ (if days = 1 then [] else ['s']) ++ ", ".toList) ++
  decimal (hours % 24) ++ ':' :: padded 2 (minutes % 60) ++ ':' :: padded 2 (seconds % 60) ++
  (if us % 1000000 = 0 then [] else '.' :: padded 6 (us % 1000000))

/-- `datetime.timedelta(microseconds=meta['took'])` as text (html.py l. 77). -/
def tookText (took : Rat) : Str := timedeltaStr (roundEven took)

/-- A row of a table (html.py l. 27-34, 35-42, 48-55, 56-63, 64-71, 72-79). -/
def rowText (name value : Str) : Str :=
  printLine "        <tr>".toList ++
  (printLine "          <td>".toList ++
  (printLine ("            <b>".toList ++ (name ++ "</b>".toList)) ++
  (printLine "          </td>".toList ++
  (printLine "          <td>".toList ++
  (printLine ("            ".toList ++ value) ++
  (printLine "          </td>".toList ++
  printLine "        </tr>".toList))))))

/-- The first lines of the page, up to the first row (html.py l. 15-26). -/
def topText : Str := List.flatMap printLine [
  "<html>".toList,
  "  <head>".toList,
  "    <title>Clustering result</title>".toList,
  "    <style>".toList,
  "      td {padding-right: 10px};".toList,
  "    </style>".toList,
  "  </head>".toList,
  "  <body>".toList,
  "    <h1>Clustering result</h1>".toList,
  "    <div>".toList,
  "      <h2>Information:</h2>".toList,
  "      <table>".toList]

/-- The lines between the two tables (html.py l. 43-47). -/
def middleText : Str := List.flatMap printLine [
  "      </table>".toList,
  "    </div>".toList,
  "    <div>".toList,
  "      <h2>Statistics:</h2>".toList,
  "      <table>".toList]

/-- The lines between the tables and the clusters (html.py l. 80-83). -/
def clustersText : Str := List.flatMap printLine [
  "      </table>".toList,
  "    </div>".toList,
  "    <div>".toList,
  "      <h2>Clusters:</h2>".toList]

/-- The last lines (html.py l. 101-103). -/
def bottomText : Str := List.flatMap printLine ["    </div>".toList, "  </body>".toList, "<html>".toList]

/-- An item (html.py l. 94-96). -/
def itemText (v : Str) : Str :=
  printLine "        <li>".toList ++ (printLine ("          ".toList ++ v) ++ printLine "        </li>".toList)

/-- The line before the values of a cluster (html.py l. 87). -/
def headingText (values : Dict Str Nat) (i : Nat) (cluster : List Str) : Str :=
  "Cluster n°".toList ++ decimal (i + 1) ++ " (".toList ++ decimal cluster.length ++ " unique values, ".toList ++
    decimal (cluster.map (count values)).sum ++ " affected rows):".toList

/-- A cluster (html.py l. 85-99). `sorted(..., reverse=True)` keeps the order of the values of equal counts. -/
def clusterHtml (values : Dict Str Nat) (i : Nat) (cluster : List Str) : Str :=
  let sorted_values := cluster.mergeSort fun a b => decide (count values b ≤ count values a)
  printLine "      <p>".toList ++
  (printLine ("        ".toList ++ headingText values i cluster) ++
  (printLine "      <ul>".toList ++
  (sorted_values.flatMap itemText ++
  (printLine "      </ul>".toList ++
  printLine "      </p>".toList))))

/-- `print_html_report(file, meta, values, clusters)` (html.py l. 10-103): the text written. `date` is `isoformat().split('T')[0]`. -/
def printHtmlReport (date algorithm : Str) (took : Rat) (lines : Nat) (values : Dict Str Nat) (clusters : List (List Str)) : Str :=
  topText ++ rowText "Date".toList date ++ rowText "Algorithm used".toList algorithm ++ middleText ++
  rowText "Lines".toList (thousands lines) ++ rowText "Distinct values".toList (thousands values.length) ++
  rowText "Found clusters".toList (thousands clusters.length) ++ rowText "Took".toList (tookText took) ++ clustersText ++
  (clusters.zipIdx.flatMap fun x => clusterHtml values x.2 x.1) ++ bottomText

end Fog.Html
