import Verif.Model.CliStream
import Verif.Props.CliErrors

/-!
# C133: what `fog split` and `fog transform` leave behind when they raise
-/

namespace Fog.Props

open Cli

theorem loop_spec {ρ : Type _} (f : List Str → Py (List ρ)) (reader : List (List Str)) :
    (∀ ws, reader.mapM f = .ok ws → CliStream.loop f reader = (ws.flatten, none)) ∧
    (∀ e, reader.mapM f = .error e → ∃ k, k < reader.length ∧ (∃ ws, (reader.take k).mapM f = .ok ws ∧
      CliStream.loop f reader = (ws.flatten, some e)) ∧ (reader.take (k + 1)).mapM f = .error e) := by
  induction reader with
  | nil =>
      refine ⟨fun ws h => ?_, fun e h => ?_⟩
      · have : ws = [] := by simpa [pure, Except.pure] using h.symm
        subst this
        rfl
      · simp [pure, Except.pure] at h
  | cons line reader ih =>
      cases hl : f line with
      | error e =>
          have e1 : (line :: reader).mapM f = .error e := by simp [List.mapM_cons, hl, bind, Except.bind]
          refine ⟨fun ws h => by rw [e1] at h; simp at h, fun e' h => ?_⟩
          rw [e1] at h
          obtain rfl : e = e' := by simpa using h
          refine ⟨0, by simp, ⟨[], rfl, ?_⟩, ?_⟩
          · simp [CliStream.loop, hl]
          · simp [List.mapM_cons, hl, bind, Except.bind]
      | ok w =>
          have step : ∀ l : List (List Str), (line :: l).mapM f = (l.mapM f).map fun ws => w :: ws := by
            intro l
            rw [List.mapM_cons, hl]
            cases h : l.mapM f <;> simp [bind, Except.bind, pure, Except.pure, Except.map, h]
          have unfoldLoop : CliStream.loop f (line :: reader) = (w ++ (CliStream.loop f reader).1, (CliStream.loop f reader).2) := by
            simp [CliStream.loop, hl]
          refine ⟨fun ws h => ?_, fun e h => ?_⟩
          · rw [step] at h
            cases hr : reader.mapM f with
            | error e => rw [hr] at h; simp [Except.map] at h
            | ok ws' =>
                rw [hr] at h
                obtain rfl : w :: ws' = ws := by simpa [Except.map] using h
                rw [unfoldLoop, ih.1 ws' hr]
                simp
          · rw [step] at h
            cases hr : reader.mapM f with
            | ok ws' => rw [hr] at h; simp [Except.map] at h
            | error e' =>
                rw [hr] at h
                obtain rfl : e' = e := by simpa [Except.map] using h
                obtain ⟨k, hk, ⟨ws, h1, h2⟩, h3⟩ := ih.2 e' hr
                refine ⟨k + 1, by simpa using hk, ⟨w :: ws, ?_, ?_⟩, ?_⟩
                · rw [List.take_succ_cons, step, h1]
                  rfl
                · rw [unfoldLoop, h2]
                  simp
                · rw [List.take_succ_cons, step, h3]
                  rfl

theorem customReader_take (rows : List (List Str)) (column : Str) (k : Nat) :
    customReader (rows.take (k + 1)) column =
      (customReader rows column).map fun x => (x.1, x.2.1, x.2.2.take k) := by
  cases rows with
  | nil => rfl
  | cons headers reader =>
      rw [List.take_succ_cons]
      unfold customReader
      simp only
      cases headers.idxOf? column <;> rfl

/-- **C133**: `fog split` writes the same rows as it would from the file cut before the first row on which it raises: none if it raises before the
headers are written. -/
theorem split_written (args : SplitArgs) (rows : List (List Str)) :
    (∀ W, splitAction args rows = .ok W → CliStream.splitAction args rows = (W, none)) ∧
    (∀ e, splitAction args rows = .error e →
      (splitAction args (rows.take 1) = .error e ∧ CliStream.splitAction args rows = ([], some e)) ∨
      ∃ k W, 0 < k ∧ k < rows.length ∧ splitAction args (rows.take k) = .ok W ∧ splitAction args (rows.take (k + 1)) = .error e ∧
        CliStream.splitAction args rows = (W, some e)) := by
  have expand : ∀ rows, splitAction args rows = (customReader rows args.column).bind fun x =>
      (x.2.2.mapM (splitLine args x.2.1)).bind fun written => .ok (splitHeaders args x.1 x.2.1 :: written.flatten) := fun _ => rfl
  cases hc : customReader rows args.column with
  | error e =>
      have e1 : splitAction args rows = .error e := by rw [expand, hc]; rfl
      have e2 : CliStream.splitAction args rows = ([], some e) := by simp [CliStream.splitAction, hc]
      refine ⟨fun W h => by rw [e1] at h; simp at h, fun e' h => Or.inl ?_⟩
      rw [e1] at h
      obtain rfl : e = e' := by simpa using h
      refine ⟨?_, e2⟩
      rw [expand, customReader_take, hc]
      rfl
  | ok x =>
      obtain ⟨headers, position, reader⟩ := x
      obtain ⟨l1, l2⟩ := loop_spec (splitLine args position) reader
      have run : CliStream.splitAction args rows = (splitHeaders args headers position :: (CliStream.loop (splitLine args position) reader).1,
          (CliStream.loop (splitLine args position) reader).2) := by simp [CliStream.splitAction, hc]
      have cutAt : ∀ k, splitAction args (rows.take (k + 1)) = ((reader.take k).mapM (splitLine args position)).bind fun written =>
          .ok (splitHeaders args headers position :: written.flatten) := by
        intro k
        rw [expand, customReader_take, hc]
        rfl
      have whole : splitAction args rows = (reader.mapM (splitLine args position)).bind fun written =>
          .ok (splitHeaders args headers position :: written.flatten) := by
        rw [expand, hc]
        rfl
      have hlen : rows.length = reader.length + 1 := by
        cases rows with
        | nil => simp [customReader] at hc
        | cons h r =>
            unfold customReader at hc
            simp only at hc
            cases hi : h.idxOf? args.column with
            | none => rw [hi] at hc; simp at hc
            | some i => rw [hi] at hc; simp at hc; simp [hc.2.2]
      refine ⟨fun W h => ?_, fun e h => Or.inr ?_⟩
      · rw [whole] at h
        cases hr : reader.mapM (splitLine args position) with
        | error e => rw [hr] at h; simp [Except.bind] at h
        | ok ws =>
            rw [hr] at h
            rw [run, l1 ws hr]
            simpa [Except.bind] using h
      · rw [whole] at h
        cases hr : reader.mapM (splitLine args position) with
        | ok ws => rw [hr] at h; simp [Except.bind] at h
        | error e' =>
            rw [hr] at h
            obtain rfl : e' = e := by simpa [Except.bind] using h
            obtain ⟨k, hk, ⟨ws, h1, h2⟩, h3⟩ := l2 e' hr
            refine ⟨k + 1, splitHeaders args headers position :: ws.flatten, by omega, by omega, ?_, ?_, ?_⟩
            · rw [cutAt, h1]
              rfl
            · rw [cutAt, h3]
              rfl
            · rw [run, h2]

theorem loop_stops {ρ : Type _} {R : List Str → List ρ → Prop} (f : List Str → Py (List ρ)) (before after : List (List Str)) (line : List Str)
    {e : PyErr} (hb : ∀ l ∈ before, ∃ w, f l = .ok w ∧ R l w) (he : f line = .error e) :
    ∃ outs, CliStream.loop f (before ++ line :: after) = (outs.flatten, some e) ∧ List.Forall₂ R before outs := by
  induction before with
  | nil => exact ⟨[], by simp [CliStream.loop, he], .nil⟩
  | cons l before ih =>
      obtain ⟨w, h1, h2⟩ := hb l (by simp)
      obtain ⟨outs, h3, h4⟩ := ih fun x hx => hb x (by simp [hx])
      refine ⟨w :: outs, ?_, .cons h2 h4⟩
      simp [CliStream.loop, h1, h3]

/-- **C133** for a row without the column, when there is no target column: the rows before it are split, and nothing else is written. -/
theorem split_written_short (args : SplitArgs) (ht : args.target_column.getD [] = []) (hsep : args.separator ≠ []) {headers : List Str} {i : Nat}
    (hi : Spec.FirstAt headers args.column i) {before after : List (List Str)} {short : List Str} (hb : ∀ line ∈ before, i < line.length)
    (hs : short.length ≤ i) :
    ∃ outs : List (List (List Str)), CliStream.splitAction args (headers :: (before ++ short :: after)) =
        (newHeaders args headers i :: outs.flatten, some .indexError) ∧ List.Forall₂ (InPlace args.separator i) before outs := by
  have hc : customReader (headers :: (before ++ short :: after)) args.column = .ok (headers, i, before ++ short :: after) := by
    rcases customReader_cases (headers :: (before ++ short :: after)) args.column with ⟨h, _⟩ | ⟨h', r', h, hn, _⟩ | ⟨h', r', j, h, hj, hr⟩
    · simp at h
    · simp only [List.cons.injEq] at h
      obtain ⟨rfl, rfl⟩ := h
      exact absurd (List.mem_of_getElem? hi.1) hn
    · simp only [List.cons.injEq] at h
      obtain ⟨rfl, rfl⟩ := h
      rw [hr, firstAt_unique hi hj]
  obtain ⟨outs, h1, h2⟩ := loop_stops (R := InPlace args.separator i) (e := .indexError) (splitLine args i) before after short (by
    intro line hl
    have hlt := hb line hl
    obtain ⟨ps, hps, hsp⟩ := pySplit_spec hsep line[i]
    by_cases hc : line[i] = []
    · refine ⟨[line], ?_, line[i], List.getElem?_eq_getElem hlt, Or.inl ⟨hc, rfl⟩⟩
      simp [splitLine, hlt, hc]
    · refine ⟨_, ?_, line[i], List.getElem?_eq_getElem hlt, Or.inr ⟨hc, ps, hsp, rfl⟩⟩
      simp only [splitLine, List.getElem?_eq_getElem hlt]
      rw [if_neg (by simpa using hc), hps, ← writeValues_inPlace i args.target_column ht ps line]
      rfl) (by simp [splitLine, hs])
  refine ⟨outs, ?_, h2⟩
  unfold CliStream.splitAction
  rw [hc]
  simp only
  rw [h1, splitHeaders_eq]

/-- The rows which a command that ends well has written, headers first. -/
def rowsOf (x : List Str × List (List Cell)) : List (List Cell) := x.1.map Cell.str :: x.2

/-- **C133**: and so does `fog transform`, which writes nothing when a name of operation is unknown. -/
theorem transform_written (lib : Library) (args : TransformArgs) (rows : List (List Str)) :
    (∀ W, transformAction lib args rows = .ok W → CliStream.transformAction lib args rows = (rowsOf W, none)) ∧
    (∀ e, transformAction lib args rows = .error e →
      (transformAction lib args (rows.take 1) = .error e ∧ CliStream.transformAction lib args rows = ([], some e)) ∨
      ∃ k W, 0 < k ∧ k < rows.length ∧ transformAction lib args (rows.take k) = .ok W ∧
        transformAction lib args (rows.take (k + 1)) = .error e ∧ CliStream.transformAction lib args rows = (rowsOf W, some e)) := by
  have expand : ∀ rows, transformAction lib args rows = (operationChain args).bind fun chain => (customReader rows args.column).bind fun x =>
      (x.2.2.mapM (transformLine lib args chain x.2.1)).bind fun written => .ok (transformHeaders args x.1 x.2.1, written) := fun _ => rfl
  cases ho : operationChain args with
  | error e =>
      have e1 : ∀ rows, transformAction lib args rows = .error e := fun rows => by rw [expand, ho]; rfl
      refine ⟨fun W h => by rw [e1] at h; simp at h, fun e' h => Or.inl ?_⟩
      rw [e1] at h
      obtain rfl : e = e' := by simpa using h
      exact ⟨e1 _, by simp [CliStream.transformAction, ho]⟩
  | ok chain =>
  cases hc : customReader rows args.column with
  | error e =>
      have e1 : transformAction lib args rows = .error e := by rw [expand, ho, hc]; rfl
      have e2 : CliStream.transformAction lib args rows = ([], some e) := by simp [CliStream.transformAction, ho, hc]
      refine ⟨fun W h => by rw [e1] at h; simp at h, fun e' h => Or.inl ?_⟩
      rw [e1] at h
      obtain rfl : e = e' := by simpa using h
      refine ⟨?_, e2⟩
      rw [expand, ho, customReader_take, hc]
      rfl
  | ok x =>
      obtain ⟨headers, position, reader⟩ := x
      have single : ∀ l : List (List Str), l.mapM (fun line => (transformLine lib args chain position line).map fun row => [row]) =
          (l.mapM (transformLine lib args chain position)).map fun ws => ws.map fun row => [row] := by
        intro l
        induction l with
        | nil => rfl
        | cons line l ih =>
            rw [List.mapM_cons, List.mapM_cons, ih]
            cases transformLine lib args chain position line with
            | error e => rfl
            | ok w => cases l.mapM (transformLine lib args chain position) <;> rfl
      have flat : ∀ ws : List (List Cell), (ws.map fun row => [row]).flatten = ws := by
        intro ws
        induction ws with
        | nil => rfl
        | cons w ws ih =>
            rw [List.map_cons, List.flatten_cons, ih]
            rfl
      obtain ⟨l1, l2⟩ := loop_spec (fun line => (transformLine lib args chain position line).map fun row => [row]) reader
      have run : CliStream.transformAction lib args rows = ((transformHeaders args headers position).map Cell.str ::
          (CliStream.loop (fun line => (transformLine lib args chain position line).map fun row => [row]) reader).1,
          (CliStream.loop (fun line => (transformLine lib args chain position line).map fun row => [row]) reader).2) := by
        simp [CliStream.transformAction, ho, hc]
      have cutAt : ∀ k, transformAction lib args (rows.take (k + 1)) =
          ((reader.take k).mapM (transformLine lib args chain position)).bind fun written =>
          .ok (transformHeaders args headers position, written) := by
        intro k
        rw [expand, ho, customReader_take, hc]
        rfl
      have whole : transformAction lib args rows = (reader.mapM (transformLine lib args chain position)).bind fun written =>
          .ok (transformHeaders args headers position, written) := by
        rw [expand, ho, hc]
        rfl
      have hlen : rows.length = reader.length + 1 := by
        cases rows with
        | nil => simp [customReader] at hc
        | cons h r =>
            unfold customReader at hc
            simp only at hc
            cases hi : h.idxOf? args.column with
            | none => rw [hi] at hc; simp at hc
            | some i => rw [hi] at hc; simp at hc; simp [hc.2.2]
      refine ⟨fun W h => ?_, fun e h => Or.inr ?_⟩
      · rw [whole] at h
        cases hr : reader.mapM (transformLine lib args chain position) with
        | error e => rw [hr] at h; simp [Except.bind] at h
        | ok ws =>
            rw [hr] at h
            obtain rfl : (transformHeaders args headers position, ws) = W := by simpa [Except.bind] using h
            rw [run, l1 _ (by rw [single, hr]; rfl), flat]
            rfl
      · rw [whole] at h
        cases hr : reader.mapM (transformLine lib args chain position) with
        | ok ws => rw [hr] at h; simp [Except.bind] at h
        | error e' =>
            rw [hr] at h
            obtain rfl : e' = e := by simpa [Except.bind] using h
            obtain ⟨k, hk, ⟨ws, h1, h2⟩, h3⟩ := l2 e' (by rw [single, hr]; rfl)
            rw [single] at h1 h3
            cases hk1 : (reader.take k).mapM (transformLine lib args chain position) with
            | error e => rw [hk1] at h1; simp [Except.map] at h1
            | ok ws' =>
                cases hk2 : (reader.take (k + 1)).mapM (transformLine lib args chain position) with
                | ok ws'' => rw [hk2] at h3; simp [Except.map] at h3
                | error e2 =>
                    rw [hk1] at h1
                    rw [hk2] at h3
                    obtain rfl : e2 = e' := by simpa [Except.map] using h3
                    obtain rfl : ws'.map (fun row => [row]) = ws := by simpa [Except.map] using h1
                    refine ⟨k + 1, (transformHeaders args headers position, ws'), by omega, by omega, ?_, ?_, ?_⟩
                    · rw [cutAt, hk1]
                      rfl
                    · rw [cutAt, hk2]
                      rfl
                    · rw [run, h2, flat]
                      rfl

-- A third row without the column: two rows and the headers are written.
example : CliStream.splitAction ⟨"b".toList, "|".toList, none, none⟩
    [["a".toList, "b".toList], ["1".toList, "x|y".toList], ["2".toList], ["3".toList, "z".toList]] =
    ([["a".toList, "b".toList], ["1".toList, "x".toList], ["1".toList, "y".toList]], some .indexError) := by decide +kernel

end Fog.Props
