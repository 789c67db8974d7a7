import Verif.Props.Cli
import Verif.Spec.TomlDocument

/-!
# C87: the TOML report can be read back
-/

namespace Fog.Props

open Fog.Cli Fog.Spec Fog.Spec.Toml

/-! ### Strings -/

/-- A string which is read back (C58). -/
def Readable (s : Str) : Prop := ∀ c ∈ s, c = '"' ∨ c = '\n' ∨ Plain c

theorem readString_close (text : Str) : readString ('"' :: text) = some ([], text) := by
  rw [readString.eq_def]
  simp

theorem readString_short {d x : Char} (h : short d = some x) (text : Str) :
    readString ('\\' :: d :: text) = (readString text).map fun r => (x :: r.1, r.2) := by
  rw [readString.eq_def]
  simp [h]

theorem readString_char {c : Char} (h : Plain c) (text : Str) : readString (c :: text) = (readString text).map fun r => (c :: r.1, r.2) := by
  rw [readString.eq_def]
  simp only
  rw [if_neg h.1, if_neg h.2.1, if_pos h]

theorem readString_escape {s : Str} (h : Readable s) (rest : Str) :
    readString (escapeString s ++ '"' :: rest) = some (s, rest) := by
  induction s with
  | nil => exact readString_close rest
  | cons c s ih =>
      have ih := ih fun d hd => h d (List.mem_cons_of_mem _ hd)
      rw [escapeString_cons]
      rcases h c (by simp) with rfl | rfl | hc
      · rw [show esc '"' = ['\\', '"'] by decide]
        show readString ('\\' :: '"' :: (escapeString s ++ '"' :: rest)) = _
        rw [readString_short (x := '"') (by decide), ih]
        rfl
      · rw [show esc '\n' = ['\\', 'n'] by decide]
        show readString ('\\' :: 'n' :: (escapeString s ++ '"' :: rest)) = _
        rw [readString_short (x := '\n') (by decide), ih]
        rfl
      · by_cases hn : c = '\n'
        · subst hn
          exact absurd hc (by decide)
        · rw [esc_plain hc.1 hn]
          show readString (c :: (escapeString s ++ '"' :: rest)) = _
          rw [readString_char hc, ih]
          rfl

theorem readString_plain {s : Str} (h : ∀ c ∈ s, Plain c) (rest : Str) : readString (s ++ '"' :: rest) = some (s, rest) := by
  induction s with
  | nil => exact readString_close rest
  | cons c s ih =>
      rw [List.cons_append, readString_char (h c (by simp)), ih fun d hd => h d (List.mem_cons_of_mem _ hd)]
      rfl

/-! ### Bare words -/

theorem takeWhile_bare {p : Char → Bool} {w : Str} (hw : ∀ c ∈ w, p c = true) {c : Char} (hc : p c = false) (rest : Str) :
    (w ++ c :: rest).takeWhile p = w ∧ (w ++ c :: rest).dropWhile p = c :: rest := by
  induction w with
  | nil => simp [hc]
  | cons x w ih =>
      have hx := hw x (by simp)
      have := ih fun d hd => hw d (List.mem_cons_of_mem _ hd)
      simp [hx, this]

theorem decimal_bare (n : Nat) : ∀ c ∈ decimal n, bareChar c = true := by
  intro c hc
  have := Nat.isDigit_of_mem_toDigits (by decide) (by decide) hc
  simp [bareChar, Char.isAlphanum, this]

theorem readBare_decimal (n : Nat) : readBare (decimal n) = some (.int n) := by
  unfold readBare
  rw [if_neg (show decimal n ≠ [] from Nat.toDigits_ne_nil), if_pos]
  · rw [decimal, Nat.ofDigitChars_ten_toDigits]
  · rw [List.all_eq_true]
    intro c hc
    exact Nat.isDigit_of_mem_toDigits (by decide) (by decide) hc

theorem decimal_cons (n : Nat) : ∃ c w, decimal n = c :: w ∧ c.isDigit = true := by
  rcases h : decimal n with _ | ⟨c, w⟩
  · exact absurd h Nat.toDigits_ne_nil
  · exact ⟨c, w, rfl, Nat.isDigit_of_mem_toDigits (b := 10) (n := n) (by decide) (by decide) (by rw [decimal] at h; rw [h]; simp)⟩

theorem readValue_other {n : Nat} {c : Char} (h : c ≠ '"') (h' : c ≠ '[') (text : Str) :
    readValue (n + 1) (c :: text) = (readBare ((c :: text).takeWhile bareChar)).map fun v => (v, (c :: text).dropWhile bareChar) := by
  rw [readValue.eq_def]
  simp only
  split
  · next e => cases e; exact absurd rfl h
  · next e => cases e; exact absurd rfl h'
  · rfl

theorem readValue_open {n : Nat} (text : Str) :
    readValue (n + 1) ('[' :: text) = (readItems n (text.dropWhile blank)).map fun r => (.arr r.1, r.2) := by
  rw [readValue.eq_def]
  simp only

theorem readItems_close {n : Nat} (text : Str) : readItems (n + 1) (']' :: text) = some ([], text) := by
  rw [readItems.eq_def]
  simp only

theorem readItems_item {n : Nat} {c : Char} (h : c ≠ ']') {text rest : Str} {v : Value} (hv : readValue n (c :: text) = some (v, rest)) :
    readItems (n + 1) (c :: text) = match rest.dropWhile blank with
      | ',' :: text => (readItems n (text.dropWhile blank)).map fun r => (v :: r.1, r.2)
      | ']' :: text => some ([v], text)
      | _ => none := by
  rw [readItems.eq_def]
  simp only
  split
  · next e => cases e; exact absurd rfl h
  · rw [hv]
    rfl

/-- Reading a bare word. -/
theorem readValue_bare {n : Nat} {w : Str} (hw : ∀ c ∈ w, bareChar c = true) {v : Value} (hv : readBare w = some v) {c : Char}
    (hc : bareChar c = false) (rest : Str) : readValue (n + 1) (w ++ c :: rest) = some (v, c :: rest) := by
  obtain ⟨h1, h2⟩ := takeWhile_bare hw hc rest
  have hne : w ≠ [] := by
    rintro rfl
    simp [readBare] at hv
  obtain ⟨x, w', rfl⟩ := List.exists_cons_of_ne_nil hne
  have hx := hw x (by simp)
  rw [List.cons_append, readValue_other (by rintro rfl; exact absurd hx (by decide)) (by rintro rfl; exact absurd hx (by decide)),
    ← List.cons_append, h1, h2, hv]
  rfl

theorem readValue_decimal {n k : Nat} {c : Char} (hc : bareChar c = false) (rest : Str) :
    readValue (n + 1) (decimal k ++ c :: rest) = some (.int k, c :: rest) :=
  readValue_bare (decimal_bare k) (readBare_decimal k) hc rest

theorem readValue_string {n : Nat} {text s rest : Str} (h : readString text = some (s, rest)) :
    readValue (n + 1) ('"' :: text) = some (.str s, rest) := by
  rw [readValue.eq_def]
  simp only
  rw [h]
  rfl

/-! ### Rows of the array of values -/

theorem dropWhile_blank_cons {c : Char} (hc : blank c = false) (rest : Str) : (c :: rest).dropWhile blank = c :: rest := by
  simp [hc]

theorem dropWhile_blank_spaces (k : Nat) (rest : Str) : (List.replicate k ' ' ++ rest).dropWhile blank = rest.dropWhile blank := by
  induction k with
  | zero => rfl
  | succ k ih => rw [List.replicate_succ, List.cons_append, List.dropWhile_cons, if_pos (by decide), ih]

/-- `["value"]`. -/
theorem readValue_single_string {n : Nat} {s : Str} (h : Readable s) (rest : Str) :
    readValue (n + 3) ('[' :: '"' :: (escapeString s ++ '"' :: ']' :: rest)) = some (.arr [.str s], rest) := by
  rw [readValue_open, dropWhile_blank_cons (by decide), readItems_item (by decide) (readValue_string (readString_escape h _)),
    dropWhile_blank_cons (by decide)]
  rfl

/-- `[count]`. -/
theorem readValue_single_int {n k : Nat} (rest : Str) :
    readValue (n + 3) ('[' :: (decimal k ++ ']' :: rest)) = some (.arr [.int k], rest) := by
  obtain ⟨c, w, hcw, hd⟩ := decimal_cons k
  have hcb : blank c = false := by
    rw [Bool.eq_false_iff]
    intro hb
    simp only [blank, Bool.or_eq_true, beq_iff_eq] at hb
    rcases hb with rfl | rfl <;> exact absurd hd (by decide)
  have hr := readValue_decimal (n := n) (k := k) (c := ']') (by decide) rest
  rw [hcw, List.cons_append] at hr
  rw [readValue_open, hcw, List.cons_append, dropWhile_blank_cons hcb, readItems_item (by rintro rfl; exact absurd hd (by decide)) hr,
    dropWhile_blank_cons (by decide)]
  rfl

/-- The value written for a string and its number of rows. -/
def rowValue (v : Str × Nat) : Value := .arr [.arr [.str v.1], .arr [.int v.2]]

/-- `[["value"],   [count]]`. -/
theorem readValue_row {n pad k : Nat} {s : Str} (h : Readable s) (rest : Str) :
    readValue (n + 7) ('[' :: '[' :: '"' :: (escapeString s ++ '"' :: ']' :: ',' :: (List.replicate pad ' ' ++ ' ' :: '[' ::
    (decimal k ++ ']' :: ']' :: rest)))) = some (rowValue (s, k), rest) := by
  rw [readValue_open, dropWhile_blank_cons (by decide), readItems_item (by decide) (readValue_single_string h _),
    dropWhile_blank_cons (by decide)]
  simp only
  rw [dropWhile_blank_spaces, List.dropWhile_cons, if_pos (by decide), dropWhile_blank_cons (by decide),
    readItems_item (by decide) (readValue_single_int _), dropWhile_blank_cons (by decide)]
  rfl

/-- The lines of the values. -/
def rowsText (max : Nat) (vs : List (Str × Nat)) : Str := vs.flatMap fun v =>
  printLine ("  [[\"".toList ++ escapeString v.1 ++ "\"],".toList ++ List.replicate (max - v.1.length) ' ' ++ " [".toList ++ decimal v.2 ++
    "]],".toList)

theorem rowsText_cons (max : Nat) (v : Str × Nat) (vs : List (Str × Nat)) (rest : Str) :
    rowsText max (v :: vs) ++ rest = ' ' :: ' ' :: '[' :: '[' :: '"' :: (escapeString v.1 ++ '"' :: ']' :: ',' ::
      (List.replicate (max - v.1.length) ' ' ++ ' ' :: '[' :: (decimal v.2 ++ ']' :: ']' :: ',' :: '\n' :: (rowsText max vs ++ rest)))) := by
  rw [rowsText, List.flatMap_cons, ← rowsText, printLine, show "  [[\"".toList = [' ', ' ', '[', '[', '"'] by decide,
    show "\"],".toList = ['"', ']', ','] by decide, show " [".toList = [' ', '['] by decide, show "]],".toList = [']', ']', ','] by decide]
  simp

theorem readItems_rows (max : Nat) (rest : Str) : ∀ (vs : List (Str × Nat)) (n : Nat), (∀ v ∈ vs, Readable v.1) → vs.length + 8 ≤ n →
    readItems n ((rowsText max vs ++ ']' :: rest).dropWhile blank) = some (vs.map rowValue, rest)
  | [], n, _, hn => by
      obtain ⟨n, rfl⟩ : ∃ m, n = m + 1 := ⟨n - 1, by simp at hn; omega⟩
      rw [rowsText, List.flatMap_nil, List.nil_append, dropWhile_blank_cons (by decide), readItems_close]
      rfl
  | v :: vs, n, hv, hn => by
      obtain ⟨n, rfl⟩ : ∃ m, n = m + 8 := ⟨n - 8, by simp at hn; omega⟩
      have ih := readItems_rows max rest vs (n + 7) (fun x hx => hv x (List.mem_cons_of_mem _ hx)) (by simp at hn; omega)
      rw [rowsText_cons, List.dropWhile_cons, if_pos (by decide), List.dropWhile_cons, if_pos (by decide), dropWhile_blank_cons (by decide),
        readItems_item (by decide) (readValue_row (hv v (by simp)) _), dropWhile_blank_cons (by decide)]
      simp only
      rw [List.dropWhile_cons, if_pos (by decide), ih]
      rfl

/-! ### Statements -/

theorem readStatements_blank (n : Nat) {c : Char} (hc : blank c = true) (text : Str) :
    readStatements n (c :: text) = readStatements n text := by
  cases n with
  | zero => rfl
  | succ n => rw [readStatements, readStatements, List.dropWhile_cons, if_pos hc]

/-- A key. -/
def Key (key : Str) : Prop := key ≠ [] ∧ ∀ c ∈ key, bareChar c = true

instance (key : Str) : Decidable (Key key) := by unfold Key; infer_instance

theorem Key.cons {key : Str} (h : Key key) : ∃ c w, key = c :: w ∧ blank c = false ∧ c ≠ '[' := by
  obtain ⟨c, w, rfl⟩ := List.exists_cons_of_ne_nil h.1
  have hc := h.2 c (by simp)
  refine ⟨c, w, rfl, ?_, by rintro rfl; exact absurd hc (by decide)⟩
  rw [Bool.eq_false_iff]
  intro hb
  simp only [blank, Bool.or_eq_true, beq_iff_eq] at hb
  rcases hb with rfl | rfl <;> exact absurd hc (by decide)

theorem read_table {n : Nat} {name : Str} (h : Key name) (rest : Str) :
    readStatements (n + 1) ('[' :: (name ++ ']' :: '\n' :: rest)) = (readStatements n rest).map (.table name :: ·) := by
  obtain ⟨c, w, rfl, -, hb⟩ := h.cons
  obtain ⟨h1, h2⟩ := takeWhile_bare h.2 (c := ']') (by decide) ('\n' :: rest)
  rw [readStatements, dropWhile_blank_cons (by decide)]
  split
  · next e => cases e
  · next e => injection e with _ e; injection e with e _; exact absurd e hb
  · next e =>
    injection e with _ e
    subst e
    rw [h1, h2]
    rfl
  · next h => exact absurd rfl (h _)

theorem read_element {n : Nat} {name : Str} (h : Key name) (rest : Str) :
    readStatements (n + 1) ('[' :: '[' :: (name ++ ']' :: ']' :: '\n' :: rest)) = (readStatements n rest).map (.element name :: ·) := by
  obtain ⟨h1, h2⟩ := takeWhile_bare h.2 (c := ']') (by decide) (']' :: '\n' :: rest)
  rw [readStatements, dropWhile_blank_cons (by decide)]
  simp only
  rw [h1, h2]
  rfl

theorem read_pair {n : Nat} {key : Str} (h : Key key) {text rest : Str} {v : Value}
    (hv : readValue n (text.dropWhile (· == ' ')) = some (v, '\n' :: rest)) :
    readStatements (n + 1) (key ++ ' ' :: '=' :: text) = (readStatements n rest).map (.pair key v :: ·) := by
  obtain ⟨c, w, rfl, hb, ho⟩ := h.cons
  obtain ⟨h1, h2⟩ := takeWhile_bare h.2 (c := ' ') (by decide) ('=' :: text)
  rw [readStatements, List.cons_append, dropWhile_blank_cons hb]
  split
  · next e => cases e
  · next e => injection e with e _; exact absurd e ho
  · next e => injection e with e _; exact absurd e ho
  · rw [← List.cons_append, h1, h2, if_neg h.1, List.dropWhile_cons, if_pos (by decide), List.dropWhile_cons, if_neg (by decide)]
    simp only
    rw [hv]
    rfl

theorem dropWhile_space_cons {c : Char} (hc : c ≠ ' ') (rest : Str) : (c :: rest).dropWhile (· == ' ') = c :: rest := by
  simp [hc]

theorem read_bare_line {n : Nat} {line key w : Str} (hl : line = key ++ [' ', '=', ' ']) (h : Key key) (hw : Key w) {v : Value}
    (hv : readBare w = some v) (rest : Str) :
    readStatements (n + 2) (printLine (line ++ w) ++ rest) = (readStatements (n + 1) rest).map (.pair key v :: ·) := by
  subst hl
  obtain ⟨c, w', hcw, hb, -⟩ := hw.cons
  have e : printLine (key ++ [' ', '=', ' '] ++ w) ++ rest = key ++ ' ' :: '=' :: ' ' :: (w ++ '\n' :: rest) := by simp [printLine]
  rw [e]
  apply read_pair h
  rw [List.dropWhile_cons, if_pos (by decide), hcw, List.cons_append, dropWhile_space_cons (by rintro rfl; exact absurd hb (by decide)),
    ← List.cons_append, ← hcw, readValue_bare hw.2 hv (by decide)]

theorem key_decimal (n : Nat) : Key (decimal n) := ⟨Nat.toDigits_ne_nil, decimal_bare n⟩

theorem read_int_line {n k : Nat} {line key : Str} (hl : line = key ++ [' ', '=', ' ']) (h : Key key) (rest : Str) :
    readStatements (n + 2) (printLine (line ++ decimal k) ++ rest) = (readStatements (n + 1) rest).map (.pair key (.int k) :: ·) :=
  read_bare_line hl h (key_decimal k) (readBare_decimal k) rest

theorem read_string_line {n : Nat} {line key text s : Str} (hl : line = key ++ [' ', '=', ' ', '"']) (h : Key key) (rest : Str)
    (hs : readString (text ++ '"' :: '\n' :: rest) = some (s, '\n' :: rest)) :
    readStatements (n + 2) (printLine (line ++ text ++ "\"".toList) ++ rest) = (readStatements (n + 1) rest).map (.pair key (.str s) :: ·) := by
  subst hl
  have e : printLine (key ++ [' ', '=', ' ', '"'] ++ text ++ "\"".toList) ++ rest =
      key ++ ' ' :: '=' :: ' ' :: '"' :: (text ++ '"' :: '\n' :: rest) := by
    rw [show "\"".toList = ['"'] by decide]
    simp [printLine]
  rw [e]
  apply read_pair h
  rw [List.dropWhile_cons, if_pos (by decide), dropWhile_space_cons (by decide), readValue_string hs]

/-- The statements written for the cluster `i`, where `sorted` holds its values by decreasing number of rows. -/
def clusterStatements (rows : Str → Nat) (x : List Str × Nat) : List Statement := [
  .element "cluster".toList,
  .pair "id".toList (.int x.2),
  .pair "nb_values".toList (.int x.1.length),
  .pair "nb_rows".toList (.int (x.1.map rows).sum),
  .pair "harmonized".toList (.str (x.1.headD [])),
  .pair "values".toList (.arr (x.1.map fun v => rowValue (v, rows v))),
  .pair "harmonize".toList (.bool false)]

theorem length_rowsText (max : Nat) (vs : List (Str × Nat)) : vs.length ≤ (rowsText max vs).length := by
  induction vs with
  | nil => simp
  | cons v vs ih =>
      have := congrArg List.length (rowsText_cons max v vs [])
      simp only [List.append_nil, List.length_cons, List.length_append] at this
      rw [this, List.length_cons]
      omega

/-- The report of a cluster whose values, by decreasing number of rows, are `sorted`. -/
def sortedReport (rows : Str → Nat) (max i : Nat) (sorted : List Str) : ClusterReport where
  id := i
  nb_values := sorted.length
  nb_rows := (sorted.map rows).sum
  harmonized := escapeString (sorted.headD [])
  values := sorted.map fun v => (escapeString v, max - v.length, rows v)

theorem clusterText_rows (rows : Str → Nat) (max i : Nat) (sorted : List Str) (rest : Str) :
    clusterText (sortedReport rows max i sorted) ++ rest = '[' :: '[' :: ("cluster".toList ++ ']' :: ']' :: '\n' ::
      (printLine ("id = ".toList ++ decimal i) ++ (printLine ("nb_values = ".toList ++ decimal sorted.length) ++
      (printLine ("nb_rows = ".toList ++ decimal (sorted.map rows).sum) ++
      (printLine ("harmonized = \"".toList ++ escapeString (sorted.headD []) ++ "\"".toList) ++
      ("values".toList ++ ' ' :: '=' :: ' ' :: ' ' :: '[' :: '\n' :: (rowsText max (sorted.map fun v => (v, rows v)) ++ ']' :: '\n' ::
      (printLine ("harmonize = ".toList ++ "false".toList) ++ '\n' :: rest))))))))  := by
  unfold clusterText sortedReport
  simp only
  rw [show "[[cluster]]".toList = '[' :: '[' :: ("cluster".toList ++ [']', ']']) by decide,
    show "values =  [".toList = "values".toList ++ [' ', '=', ' ', ' ', '['] by decide, show "]".toList = [']'] by decide,
    show "harmonize = false".toList = "harmonize = ".toList ++ "false".toList by decide]
  simp only [rowsText, List.flatMap_map, printLine, List.append_assoc, List.cons_append, List.nil_append]

theorem readable_headD {sorted : List Str} (h : ∀ v ∈ sorted, Readable v) : Readable (sorted.headD []) := by
  cases sorted with
  | nil => intro c hc; cases hc
  | cons v sorted => exact h v (by simp)

theorem read_cluster (rows : Str → Nat) (max i : Nat) {sorted : List Str} (h : ∀ v ∈ sorted, Readable v) (rest : Str) {n : Nat}
    (hn : sorted.length + 9 ≤ n) : readStatements (n + 7) (clusterText (sortedReport rows max i sorted) ++ rest) =
      (readStatements n rest).map (clusterStatements rows (sorted, i) ++ ·) := by
  obtain ⟨n, rfl⟩ : ∃ m, n = m + 1 := ⟨n - 1, by omega⟩
  rw [clusterText_rows, read_element (by decide), read_int_line (key := "id".toList) (by decide) (by decide),
    read_int_line (key := "nb_values".toList) (by decide) (by decide), read_int_line (key := "nb_rows".toList) (by decide) (by decide),
    read_string_line (key := "harmonized".toList) (by decide) (by decide) _ (readString_escape (readable_headD h) _)]
  rw [read_pair (key := "values".toList) (by decide) (v := .arr (sorted.map fun v => rowValue (v, rows v)))
    (rest := printLine ("harmonize = ".toList ++ "false".toList) ++ '\n' :: rest)]
  · rw [read_bare_line (key := "harmonize".toList) (w := "false".toList) (v := .bool false) (by decide) (by decide) (by decide) (by rfl),
      readStatements_blank _ (by decide)]
    cases readStatements (n + 1) rest <;> rfl
  · rw [List.dropWhile_cons, if_pos (by decide), List.dropWhile_cons, if_pos (by decide), dropWhile_space_cons (by decide),
      readValue_open, List.dropWhile_cons, if_pos (by decide), readItems_rows]
    · simp [Function.comp_def]
    · intro v hv
      obtain ⟨x, hx, rfl⟩ := List.mem_map.mp hv
      exact h x hx
    · simp
      omega

theorem length_clusterText (rows : Str → Nat) (max i : Nat) (sorted : List Str) :
    sorted.length + 20 ≤ (clusterText (sortedReport rows max i sorted)).length := by
  have e := congrArg List.length (clusterText_rows rows max i sorted [])
  have h := length_rowsText max (sorted.map fun v => (v, rows v))
  rw [List.length_map] at h
  have h1 : "cluster".toList.length = 7 := by decide
  have h2 : "harmonize = ".toList.length = 12 := by decide
  simp only [List.append_nil, List.length_cons, List.length_append, printLine, h1, h2] at e
  omega

theorem read_clusters (rows : Str → Nat) : ∀ (l : List (Nat × List Str × Nat)) (n : Nat), (∀ x ∈ l, ∀ v ∈ x.2.1, Readable v) →
    (l.flatMap fun x => clusterText (sortedReport rows x.1 x.2.2 x.2.1)).length < n →
    readStatements n (l.flatMap fun x => clusterText (sortedReport rows x.1 x.2.2 x.2.1)) =
      some (l.flatMap fun x => clusterStatements rows x.2)
  | [], n, _, hn => by
      obtain ⟨n, rfl⟩ : ∃ m, n = m + 1 := ⟨n - 1, by omega⟩
      rfl
  | (max, sorted, i) :: l, n, h, hn => by
      have hlen := length_clusterText rows max i sorted
      rw [List.flatMap_cons, List.length_append] at hn
      simp only at hn
      obtain ⟨n, rfl⟩ : ∃ m, n = m + 7 := ⟨n - 7, by omega⟩
      rw [List.flatMap_cons, List.flatMap_cons, read_cluster rows max i (h (max, sorted, i) (by simp)) _ (by simp only; omega),
        read_clusters rows l n (fun x hx => h x (by simp [hx])) (by omega)]
      rfl

/-- The text of a date or of a float: word characters, one of which is neither a letter nor a digit. -/
def BareText (w : Str) : Prop := (∀ c ∈ w, bareChar c = true) ∧ ∃ c ∈ w, c.isAlphanum = false

theorem BareText.key {w : Str} (h : BareText w) : Key w := by
  obtain ⟨c, hc, -⟩ := h.2
  exact ⟨List.ne_nil_of_mem hc, h.1⟩

theorem BareText.read {w : Str} (h : BareText w) : readBare w = some (.bare w) := by
  obtain ⟨c, hc, hn⟩ := h.2
  unfold readBare
  rw [if_neg h.key.1, if_neg, if_neg, if_neg]
  · rintro rfl
    exact absurd (List.all_eq_true.mp (show ("false".toList).all Char.isAlphanum = true by decide) c hc) (by simp [hn])
  · rintro rfl
    exact absurd (List.all_eq_true.mp (show ("true".toList).all Char.isAlphanum = true by decide) c hc) (by simp [hn])
  · intro ha
    have := List.all_eq_true.mp ha c hc
    simp [Char.isAlphanum, this] at hn

theorem clusterReport_sorted (values : Dict Str Nat) (i : Nat) {cluster : List Str} (hne : cluster ≠ []) :
    ∃ sorted max, sorted.Perm cluster ∧ sorted.Pairwise (fun v w => count values w ≤ count values v) ∧
      clusterReport values i cluster = .ok (sortedReport (count values) max i sorted) := by
  have hperm := List.mergeSort_perm cluster fun a b => decide (count values b ≤ count values a)
  have hsorted := List.pairwise_mergeSort (le := fun a b => decide (count values b ≤ count values a))
    (by intro a b c; simp only [decide_eq_true_eq]; omega) (by intro a b; simp only [Bool.or_eq_true, decide_eq_true_eq]; omega) cluster
  unfold clusterReport
  generalize cluster.mergeSort (fun a b => decide (count values b ≤ count values a)) = sorted at hperm hsorted
  cases sorted with
  | nil => exact absurd hperm.symm.eq_nil hne
  | cons first rest =>
      cases hmax : (cluster.map List.length).max? with
      | none => simp [List.max?_eq_none_iff] at hmax; exact absurd hmax hne
      | some m =>
          refine ⟨first :: rest, m, hperm, by simpa only [decide_eq_true_eq] using hsorted, ?_⟩
          simp only [sortedReport]
          rw [hperm.length_eq, List.Perm.sum_nat (hperm.map (count values))]
          rfl

theorem clusterReports_sorted (values : Dict Str Nat) : ∀ (clusters : List (List Str)) (n : Nat), (∀ c ∈ clusters, c ≠ []) →
    ∃ l : List (Nat × List Str × Nat), (clusters.zipIdx n).mapM (fun x => clusterReport values x.2 x.1) =
        .ok (l.map fun x => sortedReport (count values) x.1 x.2.2 x.2.1) ∧
      l.map Prod.snd = (l.map fun x => x.2.1).zipIdx n ∧
      List.Forall₂ (fun c s => s.Perm c ∧ s.Pairwise (fun v w => count values w ≤ count values v)) clusters (l.map fun x => x.2.1)
  | [], n, _ => ⟨[], rfl, rfl, .nil⟩
  | c :: clusters, n, h => by
      obtain ⟨sorted, max, h1, h2, h3⟩ := clusterReport_sorted values n (h c (by simp))
      obtain ⟨l, h4, h5, h6⟩ := clusterReports_sorted values clusters (n + 1) fun x hx => h x (by simp [hx])
      refine ⟨(max, sorted, n) :: l, ?_, ?_, .cons ⟨h1, h2⟩ h6⟩
      · rw [List.zipIdx_cons, List.mapM_cons, h4]
        simp only
        rw [h3]
        rfl
      · rw [List.map_cons, List.map_cons, List.zipIdx_cons, h5]

/-- **C87**: a TOML reader finds in the report what was written: the date, the algorithm, the statistics and, for each cluster, its number, its
size, its number of rows, its most frequent value and all of its values, by decreasing number of rows. The values may hold quotes and newlines,
but no backslash and no other control character. -/
theorem toml_report_read {date algorithm took : Str} (hd : BareText date) (ha : ∀ c ∈ algorithm, Plain c) (ht : BareText took) (lines : Nat)
    (values : Dict Str Nat) {clusters : List (List Str)} (hne : ∀ c ∈ clusters, c ≠ [])
    (hr : ∀ c ∈ clusters, ∀ v ∈ c, Readable v) :
    ∃ text sorted, printTomlReport date algorithm took lines values clusters = .ok text ∧
      List.Forall₂ (fun c s => s.Perm c ∧ s.Pairwise (fun v w => count values w ≤ count values v)) clusters sorted ∧
      Toml.read text = some ([
        .table "info".toList,
        .pair "date".toList (.bare date),
        .pair "algorithm".toList (.str algorithm),
        .table "stats".toList,
        .pair "lines".toList (.int lines),
        .pair "nb_distinct_values".toList (.int values.length),
        .pair "nb_clusters".toList (.int clusters.length),
        .pair "took".toList (.bare took)] ++ sorted.zipIdx.flatMap (clusterStatements (count values))) := by
  obtain ⟨l, h1, h2, h3⟩ := clusterReports_sorted values clusters 0 hne
  have hl : ∀ x ∈ l, ∀ v ∈ x.2.1, Readable v := by
    intro x hx v hv
    obtain ⟨j, hj⟩ := List.getElem?_of_mem (List.mem_map.mpr ⟨x, hx, rfl⟩ : x.2.1 ∈ l.map fun x => x.2.1)
    obtain ⟨c, hc, hp⟩ := forall₂_getElem? h3 hj
    exact hr c (List.mem_of_getElem? hc) v (hp.1.mem_iff.mp hv)
  unfold printTomlReport
  rw [h1]
  refine ⟨_, _, rfl, h3, ?_⟩
  rw [← h2, List.flatMap_map, List.flatMap_map]
  unfold Toml.read
  rw [show "[info]".toList = '[' :: ("info".toList ++ [']']) by decide, show "[stats]".toList = '[' :: ("stats".toList ++ [']']) by decide]
  have hc := read_clusters (count values) l
  generalize (l.flatMap fun x => clusterText (sortedReport (count values) x.1 x.2.2 x.2.1)) = body at hc
  generalize hb : (l.flatMap fun x => clusterStatements (count values) x.2) = stmts at hc
  have key : ∀ N text, body.length + 12 < N → text = '[' :: ("info".toList ++ ']' :: '\n' :: (printLine ("date = ".toList ++ date) ++
      (printLine ("algorithm = \"".toList ++ algorithm ++ "\"".toList) ++ '\n' :: '[' :: ("stats".toList ++ ']' :: '\n' ::
      (printLine ("lines = ".toList ++ decimal lines) ++ (printLine ("nb_distinct_values = ".toList ++ decimal values.length) ++
      (printLine ("nb_clusters = ".toList ++ decimal clusters.length) ++ (printLine ("took = ".toList ++ took) ++ '\n' :: body)))))))) →
      readStatements N text = some ([
        .table "info".toList,
        .pair "date".toList (.bare date),
        .pair "algorithm".toList (.str algorithm),
        .table "stats".toList,
        .pair "lines".toList (.int lines),
        .pair "nb_distinct_values".toList (.int values.length),
        .pair "nb_clusters".toList (.int clusters.length),
        .pair "took".toList (.bare took)] ++ stmts) := by
    rintro N text hN rfl
    obtain ⟨n, rfl⟩ : ∃ m, N = m + 9 := ⟨N - 9, by omega⟩
    rw [read_table (by decide), read_bare_line (key := "date".toList) (by decide) (by decide) hd.key hd.read,
      read_string_line (key := "algorithm".toList) (by decide) (by decide) _ (readString_plain ha _), readStatements_blank _ (by decide),
      read_table (by decide), read_int_line (key := "lines".toList) (by decide) (by decide),
      read_int_line (key := "nb_distinct_values".toList) (by decide) (by decide),
      read_int_line (key := "nb_clusters".toList) (by decide) (by decide),
      read_bare_line (key := "took".toList) (by decide) (by decide) ht.key ht.read, readStatements_blank _ (by decide),
      hc _ hl (by omega)]
    rfl
  apply key
  · have h1 : "info".toList.length = 4 := by decide
    have h2 : "stats".toList.length = 5 := by decide
    simp only [List.append_nil, List.length_cons, List.length_append, printLine, h1, h2]
    omega
  · simp only [printLine, List.append_assoc, List.cons_append, List.nil_append]

example : BareText "2026-11-16T07:20:43".toList ∧ (∀ c ∈ "fingerprint_collision".toList, Plain c) ∧ BareText "0.001250".toList ∧
    (∀ c ∈ [["the \"cat\"".toList, "the\ncat".toList]], c ≠ []) ∧
    ∀ c ∈ [["the \"cat\"".toList, "the\ncat".toList]], ∀ v ∈ c, Readable v := by
  refine ⟨⟨by decide, '-', by decide, by decide⟩, by decide, ⟨by decide, '.', by decide, by decide⟩, by decide, ?_⟩
  unfold Readable
  decide

theorem clusterReport_single (values : Dict Str Nat) (i : Nat) (v : Str) :
    clusterReport values i [v] = .ok (sortedReport (count values) v.length i [v]) := by
  simp [clusterReport, sortedReport]

/-- A cluster of one value, `C:\q`: the text of the report is not a TOML document. -/
theorem toml_report_invalid : ∃ text, printTomlReport "2026-11-16T07:20:43".toList "omission".toList "0.5".toList 2
      [("C:\\q".toList, 2)] [["C:\\q".toList]] = .ok text ∧ (Toml.read text).isNone = true := by
  unfold printTomlReport
  simp only [List.zipIdx_cons, List.zipIdx_nil, List.mapM_cons, List.mapM_nil, clusterReport_single]
  exact ⟨_, rfl, by decide +kernel⟩

/-- A cluster of one value, a backslash then `n`: a reader finds a newline. -/
theorem toml_report_other : ∃ text, printTomlReport "2026-11-16T07:20:43".toList "omission".toList "0.5".toList 2
      [("\\n".toList, 2)] [["\\n".toList]] = .ok text ∧
    ((Toml.read text).getD []).filterMap (fun | .pair k (.str s) => some (k, s) | _ => none) =
      [("algorithm".toList, "omission".toList), ("harmonized".toList, "\n".toList)] := by
  unfold printTomlReport
  simp only [List.zipIdx_cons, List.zipIdx_nil, List.mapM_cons, List.mapM_nil, clusterReport_single]
  exact ⟨_, rfl, by decide +kernel⟩

end Fog.Props
