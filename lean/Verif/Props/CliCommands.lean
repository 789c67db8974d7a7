import Verif.Props.CliMain
import Verif.Props.CliErrors

/-!
# C125: the commands `split` and `transform`, from what is typed to what is written
-/

namespace Fog.Props

open Fog.Cli Fog.CliMain Fog.Spec

variable (u : Fingerprint.Unicode) (upper : Str → Str) (ord : Str → List Str → List Str) (now : DateTime) (took : Rat)

/-- **C125**: `fog split column` without options splits the cells of the column at vertical bars: each row is written once for each value
of its cell, under the same headers. -/
theorem fog_split_default (args : CliMain.Namespace) (haction : args.action = some "split".toList) {column : Str}
    (hargs : args.split = splitArgs column none none none) {headers : List Str} {reader : List (List Str)} (hcol : column ∈ headers)
    (hrows : ∀ line ∈ reader, headers.length ≤ line.length) :
    ∃ (i : Nat) (outs : List (List (List Str))), headers[i]? = some column ∧
      main u upper ord now took args (headers :: reader) = .ok [.rows (headers :: outs.flatten)] ∧
      List.Forall₂ (fun line out => ∃ cell, line[i]? = some cell ∧
        ((cell = [] ∧ out = [line]) ∨ (cell ≠ [] ∧ ∃ ps, SplitBy ['|'] cell ps ∧ out = ps.map fun p => line.set i p))) reader outs := by
  have hc : args.split.column = column := by rw [hargs]; rfl
  have ht : args.split.target_column = none := by rw [hargs]; rfl
  have hs : args.split.separator = ['|'] := by rw [hargs]; rfl
  have hn : args.split.rename_column = none := by rw [hargs]; rfl
  obtain ⟨i, outs, h1, h2, h3⟩ := split_in_place_partial args.split (by rw [ht]; rfl) (by rw [hs]; simp) (hc ▸ hcol) hrows
  refine ⟨i, outs, hc ▸ h1, ?_, hs ▸ h3⟩
  rw [(fog_actions args _).1 haction, h2]
  simp only [newHeaders, hn, ht, Option.toList_none, List.append_nil]
  rfl

/-- What the operations do to a text: `len` is left to the end. -/
def Does (u : Fingerprint.Unicode) (upper : Str → Str) (s t : Str) : Operation → Prop
  | .fingerprint => t = Fingerprint.key u {} s
  | .len => t = s
  | .lower => t = u.lower s
  | .squeeze => NoConsecutive (fun a b => a = b ∧ a ≠ '\n') t ∧ Repeats t s
  | .strip => ∃ a b, s = a ++ t ++ b ∧ (∀ c ∈ a, u.isSpace c = true) ∧ (∀ c ∈ b, u.isSpace c = true) ∧
      (∀ c, t.head? = some c → u.isSpace c = false) ∧ ∀ c, t.getLast? = some c → u.isSpace c = false
  | .unidecode => t = u.unidecode s
  | .upper => t = upper s

/-- The operations are done in turn. -/
inductive InTurn (u : Fingerprint.Unicode) (upper : Str → Str) : List Operation → Str → Str → Prop
  | done (s : Str) : InTurn u upper [] s s
  | step {o : Operation} {ops : List Operation} {s t r : Str} : Does u upper s t o → InTurn u upper ops t r → InTurn u upper (o :: ops) s r

theorem does_library (o : Operation) (s : Str) : Does u upper s (opFn (library u upper) o s) o := by
  cases o
  case squeeze =>
      have h := squeeze_partial s false
      exact ⟨by simpa [kept, opFn, library] using h.1, h.2.1⟩
  case strip =>
      have hsp : s = s.takeWhile u.isSpace ++ Fingerprint.strip u s ++ ((s.dropWhile u.isSpace).reverse.takeWhile u.isSpace).reverse := by
        unfold Fingerprint.strip
        rw [List.append_assoc, ← List.reverse_append, List.takeWhile_append_dropWhile, List.reverse_reverse,
          List.takeWhile_append_dropWhile]
      refine ⟨_, _, hsp, fun c hc => mem_takeWhile' hc, fun c hc => mem_takeWhile' (List.mem_reverse.mp hc), ?_⟩
      show (∀ c, (Fingerprint.strip u s).head? = some c → _) ∧ ∀ c, (Fingerprint.strip u s).getLast? = some c → _
      by_cases h : Fingerprint.strip u s = []
      · rw [h]; simp
      · exact strip_ends u h
  all_goals rfl

theorem inTurn_library (ops : List Operation) (s : Str) :
    InTurn u upper ops s (ops.foldl (fun t o => opFn (library u upper) o t) s) := by
  induction ops generalizing s with
  | nil => exact .done s
  | cons o ops ih => exact .step (does_library u upper o s) (ih _)

/-- **C125**: `fog transform` writes, for each row, the row with the result of the operations, done in turn, in the place of the cell, or
next to it when there is a target column. -/
theorem fog_transform (args : CliMain.Namespace) (haction : args.action = some "transform".toList) (heval : args.transform.eval = none)
    {ops : List Operation} (hops : ops ≠ []) (hargs : args.transform.operations = [','].intercalate (ops.map opName))
    (hlen : Operation.len ∉ ops.dropLast) {headers : List Str} {reader : List (List Str)} (hcol : args.transform.column ∈ headers)
    (hrows : ∀ line ∈ reader, line.length = headers.length) :
    ∃ (i : Nat) (hs : List Str) (out : List (List Cell)), headers[i]? = some args.transform.column ∧
      main u upper ord now took args (headers :: reader) = .ok [.table hs out] ∧
      (args.transform.target_column = none → hs = headers) ∧
      List.Forall₂ (fun line row => ∃ cell value, line[i]? = some cell ∧ InTurn u upper ops cell value ∧
        (args.transform.target_column = none →
          row = (line.map Cell.str).set i (if ops.getLast? = some .len then .int value.length else .str value)) ∧
        ∀ t, args.transform.target_column = some t → ∃ k, hs[k]? = some t ∧ hs.eraseIdx k = headers ∧
          row[k]? = some (if ops.getLast? = some .len then .int value.length else .str value) ∧ row.eraseIdx k = line.map Cell.str)
        reader out := by
  obtain ⟨i, hs, out, h1, h2, h3, h4, h5⟩ := transform_rows (library u upper) args.transform heval hops hargs hlen hcol hrows
  refine ⟨i, hs, out, h1, ?_, h4, h5.imp ?_⟩
  · rw [(fog_actions args _).2 haction, h2]
    rfl
  · rintro line row ⟨hl, cell, hc, htarget, hnone⟩
    refine ⟨cell, _, hc, inTurn_library u upper ops cell, ?_, ?_⟩
    · intro hn
      obtain ⟨a, b⟩ := hnone hn
      apply List.ext_getElem?
      intro j
      by_cases hj : j = i
      · subst hj
        rw [a]
        have : j < line.length := (List.getElem?_eq_some_iff.mp hc).1
        simp [this, opResult]
      · rw [b j hj, List.getElem?_set_ne (Ne.symm hj), List.getElem?_map]
    · intro t ht
      obtain ⟨a, b⟩ := htarget (by rw [ht]; simp)
      exact ⟨_, (h3 t ht).2.1, (h3 t ht).2.2, a, b⟩

/-! ### Examples -/

example : main ascii id (fun _ l => l) ⟨2020, 1, 2, 3, 4, 5, 0⟩ 1
    { action := some "split".toList, subcommand := [], cluster := ⟨[], [], []⟩, split := splitArgs "b".toList none none none,
      transform := ⟨[], [], none, false, none⟩ }
    [["a".toList, "b".toList], ["1".toList, "x|y".toList], ["2".toList, []]] =
    .ok [.rows [["a".toList, "b".toList], ["1".toList, "x".toList], ["1".toList, "y".toList], ["2".toList, []]]] := by
  rfl

example : main ascii id (fun _ l => l) ⟨2020, 1, 2, 3, 4, 5, 0⟩ 1
    { action := some "transform".toList, subcommand := [], cluster := ⟨[], [], []⟩, split := splitArgs [] none none none,
      transform := ⟨"b".toList, [','].intercalate ([Operation.strip, .lower, .len].map opName), some "n".toList, true, none⟩ }
    [["b".toList, "a".toList], [" Xy ".toList, "1".toList]] =
    .ok [.table ["b".toList, "n".toList, "a".toList] [[.str " Xy ".toList, .int 2, .str "1".toList]]] := by
  rfl

end Fog.Props
