import Verif.Model.Cli
import Verif.Spec.Split
import Verif.Props.KeyCollision
import Verif.Lemmas.PyMonad
import Mathlib.Data.List.Infix

/-!
# C57, C58, C69, C70: the command line
-/

namespace Fog.Props

open Fog.Cli Fog.Spec

/-! ### Reading -/

theorem customReader_ok {rows : List (List Str)} {column : Str} {x : List Str × Nat × List (List Str)}
    (h : customReader rows column = .ok x) :
    rows = x.1 :: x.2.2 ∧ x.1[x.2.1]? = some column := by
  unfold customReader at h
  split at h
  · simp at h
  · split at h
    · simp at h
    · next i hi =>
        injection h with h
        subst h
        refine ⟨rfl, ?_⟩
        rw [List.idxOf?_eq_some_iff] at hi
        obtain ⟨hlt, he, _⟩ := hi
        simp only
        rw [List.getElem?_eq_getElem hlt]
        simpa using he

/-- Reading fails exactly on an empty file or when no header is the column. -/
theorem customReader_total (headers : List Str) (reader : List (List Str)) (column : Str) (h : column ∈ headers) :
    ∃ i, customReader (headers :: reader) column = .ok (headers, i, reader) ∧ headers[i]? = some column := by
  cases hx : customReader (headers :: reader) column with
  | error e =>
      exfalso
      simp only [customReader] at hx
      split at hx
      · next hi => rw [List.idxOf?_eq_none_iff] at hi; exact hi h
      · simp at hx
  | ok x =>
      have := customReader_ok hx
      obtain ⟨hs, i, r⟩ := x
      simp only [List.cons.injEq] at this
      obtain ⟨⟨rfl, rfl⟩, hi⟩ := this
      exact ⟨i, rfl, hi⟩

/-! ### Splitting -/

theorem cut_skip (sep : Str) (k : Nat) (cur s : Str) : cut sep k cur s = cut sep 0 cur (s.drop k) := by
  induction s generalizing k with
  | nil => cases k <;> simp [cut]
  | cons c s ih =>
      cases k with
      | zero => rfl
      | succ k => rw [cut, List.drop_succ_cons, ih]

theorem splitBy_cut {sep : Str} (hsep : sep ≠ []) : ∀ (n : Nat) (cur s : Str), s.length ≤ n →
    (∀ a b, cur ++ s = a ++ sep ++ b → cur.length ≤ a.length) → SplitBy sep (cur ++ s) (cut sep 0 cur s) := by
  have hpos : 0 < sep.length := List.length_pos_iff.mpr hsep
  intro n
  induction n with
  | zero =>
      intro cur s hs H
      have : s = [] := List.length_eq_zero_iff.mp (by omega)
      subst this
      rw [cut, List.append_nil]
      refine SplitBy.last ?_
      rintro ⟨a, b, hab⟩
      have h1 := H a b (by simpa using hab.symm)
      have h2 := congrArg List.length hab
      simp only [List.length_append] at h2
      omega
  | succ n ih =>
      intro cur s hs H
      cases s with
      | nil => exact ih cur [] (by simp) H
      | cons c s =>
          rw [cut]
          by_cases hp : sep.isPrefixOf (c :: s) = true
          · rw [if_pos hp, cut_skip]
            rw [List.isPrefixOf_iff_prefix] at hp
            obtain ⟨t, ht⟩ := hp
            have hd : s.drop (sep.length - 1) = t := by
              have : (c :: s).drop sep.length = t := by rw [← ht]; simp
              obtain ⟨m, hm⟩ : ∃ m, sep.length = m + 1 := ⟨sep.length - 1, by omega⟩
              rw [hm] at this ⊢
              simpa using this
            have hlen : t.length ≤ n := by
              have := congrArg List.length ht
              simp only [List.length_append, List.length_cons] at this hs
              omega
            rw [hd, ← ht, ← List.append_assoc]
            refine SplitBy.cut ?_ (ih [] t hlen (fun a b _ => by simp))
            intro a b hab
            have h1 := H a (b ++ t) (by
              rw [← ht, ← List.append_assoc, hab]
              simp)
            have h2 := congrArg List.length hab
            simp only [List.length_append] at h2
            exact List.length_eq_zero_iff.mp (by omega)
          · rw [if_neg hp]
            have e : cur ++ c :: s = (cur ++ [c]) ++ s := by simp
            rw [e]
            refine ih _ _ (by simp only [List.length_cons] at hs; omega) ?_
            intro a b hab
            rw [← e] at hab
            have h1 := H a b hab
            rw [List.length_append, List.length_singleton]
            rcases Nat.lt_or_ge cur.length a.length with h | h
            · exact h
            · exfalso
              have hla : cur.length = a.length := Nat.le_antisymm h1 h
              rw [List.append_assoc] at hab
              have := (List.append_inj hab hla).2
              apply hp
              rw [List.isPrefixOf_iff_prefix, this]
              exact List.prefix_append _ _

theorem pySplit_spec {sep : Str} (hsep : sep ≠ []) (s : Str) : ∃ ps, pySplit sep s = .ok ps ∧ SplitBy sep s ps := by
  refine ⟨_, if_neg hsep, ?_⟩
  exact splitBy_cut hsep s.length [] s (Nat.le_refl _) (fun a b _ => by simp)

/-- Cutting is a function. -/
theorem splitBy_unique {sep s : Str} (hsep : sep ≠ []) {ps qs : List Str} (h : SplitBy sep s ps) (h' : SplitBy sep s qs) : ps = qs := by
  induction h generalizing qs with
  | last hn =>
      cases h' with
      | last => rfl
      | cut => exact absurd ⟨_, _, rfl⟩ hn
  | @cut p s ps hp hs ih =>
      generalize he : p ++ sep ++ s = w at h'
      cases h' with
      | last hn => exact absurd ⟨p, s, he⟩ hn
      | @cut q t qs hq ht =>
          have aux : ∀ {p q s t : Str}, p ++ sep ++ s = q ++ sep ++ t → (∀ a b, q ++ sep = a ++ sep ++ b → b = []) → ¬ p.length < q.length := by
            intro p q s t he hq hlt
            have h1 : p <+: q := by
              have h2 : p <+: q ++ sep ++ t := he ▸ ⟨sep ++ s, by simp⟩
              have h3 : q <+: q ++ sep ++ t := ⟨sep ++ t, by simp⟩
              exact List.prefix_of_prefix_length_le h2 h3 (Nat.le_of_lt hlt)
            have h4 : p ++ sep <+: q ++ sep := by
              have h2 : p ++ sep <+: q ++ sep ++ t := he ▸ ⟨s, by simp⟩
              have h3 : q ++ sep <+: q ++ sep ++ t := ⟨t, by simp⟩
              exact List.prefix_of_prefix_length_le h2 h3 (by simp; omega)
            obtain ⟨b, hb⟩ := h4
            have := hq p b hb.symm
            subst this
            have := congrArg List.length hb
            simp only [List.length_append, List.length_nil] at this
            omega
          have hl : p.length = q.length :=
            Nat.le_antisymm (Nat.not_lt.mp (aux he.symm hp)) (Nat.not_lt.mp (aux he hq))
          rw [List.append_assoc, List.append_assoc] at he
          obtain ⟨hpq, hst⟩ := List.append_inj he hl
          have hst := List.append_cancel_left hst
          subst hpq hst
          rw [ih ht]

theorem splitBy_ne_nil {sep s : Str} {ps : List Str} (h : SplitBy sep s ps) : ps ≠ [] := by
  cases h <;> simp

/-- The separator between the pieces gives the string back. -/
theorem splitBy_join {sep s : Str} {ps : List Str} (h : SplitBy sep s ps) : sep.intercalate ps = s := by
  induction h with
  | last => simp [List.intercalate]
  | @cut p s ps _ hs ih =>
      cases ps with
      | nil => exact absurd rfl (splitBy_ne_nil hs)
      | cons q ps =>
          rw [← ih]
          simp [List.intercalate]

/-- There is a single piece exactly when the separator is not there. -/
theorem splitBy_single {sep s : Str} {ps : List Str} (h : SplitBy sep s ps) : ps.length = 1 ↔ ¬ sep <:+: s := by
  cases h with
  | last hn => simpa using hn
  | @cut p s ps _ hs =>
      have := List.length_pos_iff.mpr (splitBy_ne_nil hs)
      simp only [List.length_cons]
      constructor
      · intro h; omega
      · intro h; exact absurd ⟨p, s, rfl⟩ h

/-- What is written for a line by splitting in place. -/
def InPlace (sep : Str) (i : Nat) (line : List Str) (out : List (List Str)) : Prop :=
  ∃ cell, line[i]? = some cell ∧ ((cell = [] ∧ out = [line]) ∨ (cell ≠ [] ∧ ∃ ps, SplitBy sep cell ps ∧ out = ps.map fun p => line.set i p))

/-- What is written for a line when there is a target column: the values accumulate. -/
def Growing (sep : Str) (i : Nat) (line : List Str) (out : List (List Str)) : Prop :=
  ∃ cell, line[i]? = some cell ∧
    ((cell = [] ∧ out = [line]) ∨ (cell ≠ [] ∧ ∃ ps, SplitBy sep cell ps ∧ out = ps.inits.tail.map fun ps => line ++ ps))

theorem writeValues_inPlace (i : Nat) (target : Option Str) (ht : target.getD [] = []) (ps : List Str) : ∀ line,
    writeValues i target line ps = ps.map fun p => line.set i p := by
  induction ps with
  | nil => intro line; rfl
  | cons p ps ih =>
      intro line
      simp only [writeValues, ht, ne_eq, not_true_eq_false, if_false, ih, List.map_cons, List.set_set]

theorem writeValues_growing (i : Nat) (target : Option Str) (ht : target.getD [] ≠ []) (ps : List Str) : ∀ line,
    writeValues i target line ps = ps.inits.tail.map fun ps => line ++ ps := by
  induction ps with
  | nil => intro line; rfl
  | cons p ps ih =>
      intro line
      simp only [writeValues, if_pos ht, ih, List.inits_cons, List.tail_cons]
      have : ps.inits = [] :: ps.inits.tail := by cases ps <;> rfl
      rw [this]
      simp [Function.comp_def]

/-- The headers of the result: one more for a target column, and the new name of the column. -/
def newHeaders (args : SplitArgs) (headers : List Str) (i : Nat) : List Str :=
  match args.rename_column with
  | none => headers ++ args.target_column.toList
  | some r => (headers ++ args.target_column.toList).set i r

theorem splitHeaders_eq (args : SplitArgs) (headers : List Str) (i : Nat) : splitHeaders args headers i = newHeaders args headers i := by
  unfold splitHeaders newHeaders
  cases args.target_column <;> cases args.rename_column <;> simp

/-- **C57** partial: without a target column, the rows written for a row are this row with the column replaced by each of its values in turn
(the row itself when the column is empty), under the headers. -/
theorem split_in_place_partial (args : SplitArgs) (ht : args.target_column.getD [] = []) (hsep : args.separator ≠ []) {headers : List Str}
    {reader : List (List Str)} (hcol : args.column ∈ headers) (hrows : ∀ line ∈ reader, headers.length ≤ line.length) :
    ∃ (i : Nat) (outs : List (List (List Str))), headers[i]? = some args.column ∧
      splitAction args (headers :: reader) = .ok (newHeaders args headers i :: outs.flatten) ∧
      List.Forall₂ (InPlace args.separator i) reader outs := by
  obtain ⟨i, hr, hi⟩ := customReader_total headers reader args.column hcol
  have hlt : i < headers.length := (List.getElem?_eq_some_iff.mp hi).1
  obtain ⟨outs, ho, hf⟩ := mapM_forall₂ (R := InPlace args.separator i) (splitLine args i) reader (by
    intro line hl
    have : i < line.length := Nat.lt_of_lt_of_le hlt (hrows line hl)
    obtain ⟨ps, hps, hsp⟩ := pySplit_spec hsep line[i]
    by_cases hc : line[i] = []
    · refine ⟨[line], ?_, line[i], List.getElem?_eq_getElem this, Or.inl ⟨hc, rfl⟩⟩
      simp [splitLine, this, hc]
    · refine ⟨_, ?_, line[i], List.getElem?_eq_getElem this, Or.inr ⟨hc, ps, hsp, rfl⟩⟩
      simp only [splitLine, List.getElem?_eq_getElem this]
      rw [if_neg (by simpa using hc), hps, ← writeValues_inPlace i args.target_column ht ps line]
      rfl)
  refine ⟨i, outs, hi, ?_, hf⟩
  unfold splitAction
  rw [hr]
  change (do let written ← reader.mapM (splitLine args i); pure (splitHeaders args headers i :: written.flatten)) = _
  rw [ho, ← splitHeaders_eq]
  rfl

/-- What is really written when there is a target column. -/
theorem split_target (args : SplitArgs) (ht : args.target_column.getD [] ≠ []) (hsep : args.separator ≠ []) {headers : List Str}
    {reader : List (List Str)} (hcol : args.column ∈ headers) (hrows : ∀ line ∈ reader, headers.length ≤ line.length) :
    ∃ (i : Nat) (outs : List (List (List Str))), headers[i]? = some args.column ∧
      splitAction args (headers :: reader) = .ok (newHeaders args headers i :: outs.flatten) ∧
      List.Forall₂ (Growing args.separator i) reader outs := by
  obtain ⟨i, hr, hi⟩ := customReader_total headers reader args.column hcol
  have hlt : i < headers.length := (List.getElem?_eq_some_iff.mp hi).1
  obtain ⟨outs, ho, hf⟩ := mapM_forall₂ (R := Growing args.separator i) (splitLine args i) reader (by
    intro line hl
    have : i < line.length := Nat.lt_of_lt_of_le hlt (hrows line hl)
    obtain ⟨ps, hps, hsp⟩ := pySplit_spec hsep line[i]
    by_cases hc : line[i] = []
    · refine ⟨[line], ?_, line[i], List.getElem?_eq_getElem this, Or.inl ⟨hc, rfl⟩⟩
      simp [splitLine, this, hc]
    · refine ⟨_, ?_, line[i], List.getElem?_eq_getElem this, Or.inr ⟨hc, ps, hsp, rfl⟩⟩
      simp only [splitLine, List.getElem?_eq_getElem this]
      rw [if_neg (by simpa using hc), hps, ← writeValues_growing i args.target_column ht ps line]
      rfl)
  refine ⟨i, outs, hi, ?_, hf⟩
  unfold splitAction
  rw [hr]
  change (do let written ← reader.mapM (splitLine args i); pure (splitHeaders args headers i :: written.flatten)) = _
  rw [ho, ← splitHeaders_eq]
  rfl

theorem length_newHeaders (args : SplitArgs) (headers : List Str) (i : Nat) :
    (newHeaders args headers i).length = headers.length + if args.target_column.isSome then 1 else 0 := by
  unfold newHeaders
  cases args.target_column <;> cases args.rename_column <;> simp

/-- **C57** partial: without a target column, the rows written are as long as the headers when the rows read are. -/
theorem split_rectangular_partial (args : SplitArgs) (ht : args.target_column = none) (hsep : args.separator ≠ []) {headers : List Str}
    {reader : List (List Str)} (hcol : args.column ∈ headers) (hrows : ∀ line ∈ reader, line.length = headers.length) :
    ∃ hs out, splitAction args (headers :: reader) = .ok (hs :: out) ∧ ∀ row ∈ out, row.length = hs.length := by
  obtain ⟨i, outs, _, he, hf⟩ := split_in_place_partial args (by simp [ht]) hsep hcol (fun l h => by rw [hrows l h])
  refine ⟨_, _, he, ?_⟩
  rw [length_newHeaders, ht]
  simp only [Option.isSome_none, Bool.false_eq_true, if_false, Nat.add_zero]
  clear he
  intro row hrow
  obtain ⟨out, ho, hr⟩ := List.mem_flatten.mp hrow
  induction hf with
  | nil => simp at ho
  | @cons line out' reader outs h _ ih =>
      rcases List.mem_cons.mp ho with rfl | ho
      · have hl := hrows line (by simp)
        obtain ⟨cell, _, ⟨_, rfl⟩ | ⟨_, ps, _, rfl⟩⟩ := h
        · rw [List.mem_singleton.mp hr, hl]
        · obtain ⟨p, _, rfl⟩ := List.mem_map.mp hr
          rw [List.length_set, hl]
      · exact ih (fun l h => hrows l (by simp [h])) (List.mem_flatten.mpr ⟨out, ho, hr⟩) ho

/-- **C57** is false with a target column: the rows written are as long as the headers exactly when every row has a single value, not empty. -/
theorem split_target_rectangular_iff (args : SplitArgs) (ht : args.target_column.getD [] ≠ []) (hsep : args.separator ≠ [])
    {headers : List Str} {reader : List (List Str)} (hcol : args.column ∈ headers) (hrows : ∀ line ∈ reader, line.length = headers.length) :
    ∃ (i : Nat) (hs : List Str) (out : List (List Str)), headers[i]? = some args.column ∧ splitAction args (headers :: reader) = .ok (hs :: out) ∧
      ((∀ row ∈ out, row.length = hs.length) ↔ ∀ line ∈ reader, ∀ cell, line[i]? = some cell → cell ≠ [] ∧ ¬ args.separator <:+: cell) := by
  obtain ⟨i, outs, hi, he, hf⟩ := split_target args ht hsep hcol (fun l h => by rw [hrows l h])
  refine ⟨i, _, _, hi, he, ?_⟩
  rw [length_newHeaders]
  have hs : args.target_column.isSome := by
    cases h : args.target_column with
    | none => simp [h] at ht
    | some => rfl
  rw [if_pos hs]
  clear he
  induction hf with
  | nil => simp
  | @cons line out reader outs h _ ih =>
      have ih := ih (fun l h => hrows l (by simp [h]))
      have hl := hrows line (by simp)
      rw [List.flatten_cons, List.forall_mem_append, List.forall_mem_cons]
      refine and_congr ?_ ih
      have : (∀ row ∈ out, row.length = headers.length + 1) ↔ ∀ cell, line[i]? = some cell → cell ≠ [] ∧ ¬ args.separator <:+: cell := by
        obtain ⟨cell, hc, ⟨he, rfl⟩ | ⟨hne, ps, hps, rfl⟩⟩ := h
        · simp only [List.mem_singleton, forall_eq, hl, hc, Option.some.injEq, forall_eq']
          constructor
          · intro h; omega
          · intro h; exact absurd he h.1
        · simp only [hc, Option.some.injEq, forall_eq', ← splitBy_single hps]
          constructor
          · intro h
            refine ⟨hne, ?_⟩
            have hlast := h (line ++ ps) (by
              refine List.mem_map.mpr ⟨ps, ?_, rfl⟩
              have hn := splitBy_ne_nil hps
              cases ps with
              | nil => exact absurd rfl hn
              | cons p ps => simp [List.inits_cons])
            rw [List.length_append, hl] at hlast
            omega
          · rintro ⟨_, h1⟩
            obtain ⟨p, rfl⟩ := List.length_eq_one_iff.mp h1
            simp [hl]
      exact this

/-- **C57** is false: the second row has both values, the third row lacks its cell. -/
theorem split_grows : splitAction ⟨"a".toList, "|".toList, some "t".toList, none⟩
    [["a".toList], ["x|y".toList], [[]]] =
      .ok [["a".toList, "t".toList], ["x|y".toList, "x".toList], ["x|y".toList, "x".toList, "y".toList], [[]]] := by rfl

/-- An empty name of target column adds a header but no cell. -/
theorem split_empty_target : splitAction ⟨"a".toList, "|".toList, some [], none⟩ [["a".toList], ["x|y".toList]] =
    .ok [["a".toList, []], ["x".toList], ["y".toList]] := by rfl

example : splitAction ⟨"b".toList, "--".toList, none, some "c".toList⟩
    [["a".toList, "b".toList], ["1".toList, "x---y".toList], ["2".toList, []]] =
      .ok [["a".toList, "c".toList], ["1".toList, "x".toList], ["1".toList, "-y".toList], ["2".toList, []]] := by rfl

/-! ### Escaping -/

/-- Escaping, character by character. -/
def esc (c : Char) : Str := if c = '"' then ['\\', '"'] else if c = '\n' then ['\\', 'n'] else [c]

theorem escapeString_eq (s : Str) : escapeString s = s.flatMap esc := by
  unfold escapeString replaceChar
  rw [List.flatMap_assoc]
  congr 1
  funext c
  unfold esc
  by_cases h : c = '"'
  · subst h; decide
  · simp [h]

theorem escapeString_cons (c : Char) (s : Str) : escapeString (c :: s) = esc c ++ escapeString s := by
  simp [escapeString_eq]

theorem esc_plain {c : Char} (h : c ≠ '"') (h' : c ≠ '\n') : esc c = [c] := by simp [esc, h, h']

theorem escapeString_n (s : Str) : 'n' :: escapeString s = escapeString ('n' :: s) := by
  rw [escapeString_cons]; rfl

/-- What begins an escaped string. -/
theorem escapeString_cases {s : Str} {c : Char} {t : Str} (h : escapeString s = c :: t) :
    (∃ s', s = '"' :: s' ∧ c = '\\' ∧ t = '"' :: escapeString s') ∨ (∃ s', s = '\n' :: s' ∧ c = '\\' ∧ t = 'n' :: escapeString s') ∨
    (∃ s', s = c :: s' ∧ c ≠ '"' ∧ c ≠ '\n' ∧ t = escapeString s') := by
  cases s with
  | nil => simp [escapeString_eq] at h
  | cons d s =>
      rw [escapeString_cons] at h
      by_cases h1 : d = '"'
      · subst h1
        have h : '\\' :: '"' :: escapeString s = c :: t := h
        injection h with h2 h3
        exact Or.inl ⟨s, rfl, h2.symm, h3.symm⟩
      · by_cases h2 : d = '\n'
        · subst h2
          have h : '\\' :: 'n' :: escapeString s = c :: t := h
          injection h with h2 h3
          exact Or.inr (Or.inl ⟨s, rfl, h2.symm, h3.symm⟩)
        · rw [esc_plain h1 h2] at h
          have h : d :: escapeString s = c :: t := h
          injection h with h3 h4
          subst h3
          exact Or.inr (Or.inr ⟨s, rfl, h1, h2, h4.symm⟩)

theorem hex_ne {c : Char} (h : Toml.Hex c) : c ≠ '"' ∧ c ≠ '\n' ∧ c ≠ '\\' := by
  refine ⟨?_, ?_, ?_⟩ <;> rintro rfl <;> revert h <;> unfold Toml.Hex <;> decide

/-- Hexadecimal digits are not changed by escaping. -/
theorem escapeString_hex {ds : Str} (hd : ∀ d ∈ ds, Toml.Hex d) : ∀ {s t : Str}, escapeString s = ds ++ t →
    ∃ s', s = ds ++ s' ∧ t = escapeString s' := by
  induction ds with
  | nil => intro s t h; exact ⟨s, rfl, h.symm⟩
  | cons d ds ih =>
      intro s t h
      have hx := hex_ne (hd d (by simp))
      rcases escapeString_cases h with ⟨s', _, hc, _⟩ | ⟨s', _, hc, _⟩ | ⟨s', rfl, _, _, ht⟩
      · exact absurd hc hx.2.2
      · exact absurd hc hx.2.2
      · obtain ⟨s'', rfl, h'⟩ := ih (fun x hx => hd x (by simp [hx])) ht.symm
        exact ⟨s'', rfl, h'⟩

theorem reads_cons {c : Char} {text u : Str} (h : Toml.Reads (c :: text) u) :
    ∃ x s, u = x :: s ∧ ((Toml.Plain c ∧ x = c ∧ Toml.Reads text s) ∨
      (c = '\\' ∧ ∃ d text', text = d :: text' ∧ Toml.short d = some x ∧ Toml.Reads text' s) ∨
      (c = '\\' ∧ ∃ d ds text', text = d :: (ds ++ text') ∧ (d = 'u' ∨ d = 'U') ∧ (∀ d ∈ ds, Toml.Hex d) ∧ Toml.Reads text' s)) := by
  generalize he : c :: text = e at h
  cases h with
  | nil => simp at he
  | @plain c' text' s hp hr =>
      injection he with h1 h2
      subst h1 h2
      exact ⟨_, s, rfl, Or.inl ⟨hp, rfl, hr⟩⟩
  | @short d x text' s hx hr =>
      injection he with h1 h2
      exact ⟨x, s, rfl, Or.inr (Or.inl ⟨h1, d, text', h2, hx, hr⟩)⟩
  | @long d x ds text' s hu hd hr =>
      have he : c :: text = '\\' :: d :: (ds ++ text') := he
      injection he with h1 h2
      exact ⟨x, s, rfl, Or.inr (Or.inr ⟨h1, d, ds, text', h2, hu.imp And.left And.left, hd, hr⟩)⟩

theorem reads_quote {t u : Str} : ¬ Toml.Reads ('"' :: t) u := by
  intro h
  obtain ⟨x, s, _, ⟨hp, _⟩ | ⟨hc, _⟩ | ⟨hc, _⟩⟩ := reads_cons h
  · exact hp.1 rfl
  · exact absurd hc (by decide)
  · exact absurd hc (by decide)

/-- What is read is never longer than what was escaped. -/
theorem reads_length {e u : Str} (h : Toml.Reads e u) : ∀ s, e = escapeString s → u.length ≤ s.length := by
  induction h with
  | nil => intro s _; simp
  | @plain c text u hc _ ih =>
      intro s hs
      rcases escapeString_cases hs.symm with ⟨s', _, hb, _⟩ | ⟨s', _, hb, _⟩ | ⟨s', rfl, _, _, ht⟩
      · exact absurd hb hc.2.1
      · exact absurd hb hc.2.1
      · simpa using ih s' ht
  | @short c x text u hx hr ih =>
      intro s hs
      rcases escapeString_cases hs.symm with ⟨s', rfl, _, ht⟩ | ⟨s', rfl, _, ht⟩ | ⟨s', rfl, _, _, ht⟩
      · injection ht with _ ht
        simpa using ih s' ht
      · injection ht with _ ht
        simpa using ih s' ht
      · rcases escapeString_cases ht.symm with ⟨s'', rfl, rfl, h2⟩ | ⟨s'', rfl, rfl, h2⟩ | ⟨s'', rfl, _, _, h2⟩
        · rw [h2] at hr; exact absurd hr reads_quote
        · rw [escapeString_n] at h2
          have := ih _ h2
          simp only [List.length_cons] at this ⊢
          omega
        · have := ih _ h2
          simp only [List.length_cons] at this ⊢
          omega
  | @long c x ds text u hu hd hr ih =>
      intro s hs
      have hcn : c ≠ '"' ∧ c ≠ 'n' ∧ c ≠ '\\' := by
        rcases hu with ⟨rfl, _⟩ | ⟨rfl, _⟩ <;> decide
      have hs : escapeString s = '\\' :: c :: (ds ++ text) := hs.symm
      rcases escapeString_cases hs with ⟨s', _, _, ht⟩ | ⟨s', _, _, ht⟩ | ⟨s', rfl, _, _, ht⟩
      · injection ht with ht _; exact absurd ht hcn.1
      · injection ht with ht _; exact absurd ht hcn.2.1
      · rcases escapeString_cases ht.symm with ⟨s'', _, hb, _⟩ | ⟨s'', _, hb, _⟩ | ⟨s'', rfl, _, _, ht⟩
        · exact absurd hb hcn.2.2
        · exact absurd hb hcn.2.2
        · obtain ⟨s3, rfl, h3⟩ := escapeString_hex hd ht.symm
          have := ih _ h3
          simp only [List.length_cons, List.length_append] at this ⊢
          omega

/-- **C58** partial: a string is read back from what is written exactly when all its characters are quotes, newlines, or characters which
may stand for themselves: no backslash, and no control character but tabs and newlines. -/
theorem toml_read_back_iff_partial (s : Str) : Toml.Reads (escapeString s) s ↔ ∀ c ∈ s, c = '"' ∨ c = '\n' ∨ Toml.Plain c := by
  induction s with
  | nil => simpa [escapeString_eq] using Toml.Reads.nil
  | cons c s ih =>
      rw [List.forall_mem_cons, ← ih, escapeString_cons]
      by_cases h1 : c = '"'
      · subst h1
        simp only [true_or, true_and]
        change Toml.Reads ('\\' :: '"' :: escapeString s) _ ↔ _
        constructor
        · intro h
          obtain ⟨x, s', hu, ⟨hp, _⟩ | ⟨_, d, t, ht, hx, hr⟩ | ⟨_, d, ds, t, ht, hd, _⟩⟩ := reads_cons h
          · exact absurd rfl hp.2.1
          · injection ht with _ ht
            injection hu with _ hu
            rw [ht, hu]; exact hr
          · injection ht with ht _
            rcases hd with rfl | rfl <;> exact absurd ht (by decide)
        · intro h; exact .short rfl h
      · by_cases h2 : c = '\n'
        · subst h2
          simp only [true_or, or_true, true_and]
          change Toml.Reads ('\\' :: 'n' :: escapeString s) _ ↔ _
          constructor
          · intro h
            obtain ⟨x, s', hu, ⟨hp, _⟩ | ⟨_, d, t, ht, hx, hr⟩ | ⟨_, d, ds, t, ht, hd, _⟩⟩ := reads_cons h
            · exact absurd rfl hp.2.1
            · injection ht with _ ht
              injection hu with _ hu
              rw [ht, hu]; exact hr
            · injection ht with ht _
              rcases hd with rfl | rfl <;> exact absurd ht (by decide)
          · intro h; exact .short rfl h
        · rw [esc_plain h1 h2]
          simp only [h1, h2, false_or]
          change Toml.Reads (c :: escapeString s) _ ↔ _
          constructor
          · intro h
            obtain ⟨x, s', hu, ⟨hp, _, hr⟩ | ⟨_, d, t, ht, hx, hr⟩ | ⟨_, d, ds, t, ht, hd, hds, hr⟩⟩ := reads_cons h
            · injection hu with _ hu
              rw [hu]
              rw [← hu] at hr ⊢
              exact ⟨hp, hr⟩
            · exfalso
              injection hu with hu1 hu
              subst hu
              rename_i hc
              subst hc
              rcases escapeString_cases ht with ⟨s', rfl, rfl, h3⟩ | ⟨s', rfl, rfl, h3⟩ | ⟨s', rfl, _, _, h3⟩
              · rw [h3] at hr; exact reads_quote hr
              · rw [h3] at hr
                obtain ⟨y, _, hy, ⟨_, hy', _⟩ | ⟨hc, _⟩ | ⟨hc, _⟩⟩ := reads_cons hr
                · injection hy with hy _
                  rw [← hy] at hy'
                  exact absurd hy' (by decide)
                · exact absurd hc (by decide)
                · exact absurd hc (by decide)
              · have := reads_length hr s' h3
                simp only [List.length_cons] at this
                omega
            · exfalso
              injection hu with hu1 hu
              subst hu
              have hcn : d ≠ '\\' := by
                rcases hd with rfl | rfl <;> decide
              rcases escapeString_cases ht with ⟨s', _, hb, _⟩ | ⟨s', _, hb, _⟩ | ⟨s', rfl, _, _, ht⟩
              · exact hcn hb
              · exact hcn hb
              · obtain ⟨s'', rfl, h3⟩ := escapeString_hex hds ht.symm
                have := reads_length hr s'' h3
                simp only [List.length_cons, List.length_append] at this
                omega
          · rintro ⟨hp, h⟩
            exact .plain hp h

/-- **C58** partial: strings without backslashes are escaped to different texts. -/
theorem escape_injective_partial {s t : Str} (hs : '\\' ∉ s) (ht : '\\' ∉ t) (h : escapeString s = escapeString t) : s = t := by
  induction s generalizing t with
  | nil =>
      cases t with
      | nil => rfl
      | cons d t =>
          exfalso
          have : escapeString (d :: t) ≠ [] := by
            rw [escapeString_cons]; unfold esc; split <;> (try split) <;> simp
          exact this h.symm
  | cons c s ih =>
      simp only [List.mem_cons, not_or] at hs
      have hs' : ∀ x t', t = x :: t' → '\\' ≠ x ∧ '\\' ∉ t' := by
        rintro x t' rfl
        simpa [not_or] using ht
      rw [escapeString_cons] at h
      by_cases h1 : c = '"'
      · subst h1
        rcases escapeString_cases (c := '\\') (t := '"' :: escapeString s) h.symm with ⟨t', rfl, _, he⟩ | ⟨t', rfl, _, he⟩ | ⟨t', rfl, _, _, he⟩
        · injection he with _ he
          rw [ih hs.2 (hs' _ _ rfl).2 he]
        · injection he with he _; exact absurd he (by decide)
        · exact absurd rfl (hs' _ _ rfl).1
      · by_cases h2 : c = '\n'
        · subst h2
          rcases escapeString_cases (c := '\\') (t := 'n' :: escapeString s) h.symm with ⟨t', rfl, _, he⟩ | ⟨t', rfl, _, he⟩ | ⟨t', rfl, _, _, he⟩
          · injection he with he _; exact absurd he (by decide)
          · injection he with _ he
            rw [ih hs.2 (hs' _ _ rfl).2 he]
          · exact absurd rfl (hs' _ _ rfl).1
        · rw [esc_plain h1 h2] at h
          rcases escapeString_cases (c := c) (t := escapeString s) h.symm with ⟨t', _, hc, _⟩ | ⟨t', _, hc, _⟩ | ⟨t', rfl, _, _, he⟩
          · exact absurd hc.symm hs.1
          · exact absurd hc.symm hs.1
          · rw [ih hs.2 (hs' _ _ rfl).2 he]

/-- **C58** is false: a newline, and a backslash followed by `n`, are written in the same way. -/
theorem escape_not_injective : escapeString ['\n'] = escapeString ['\\', 'n'] ∧ (['\n'] : Str) ≠ ['\\', 'n'] := by decide

/-- A path with a backslash makes a file which cannot be read. -/
theorem escape_unreadable : ∀ s, ¬ Toml.Reads (escapeString "C:\\q".toList) s := by
  intro s h
  change Toml.Reads ['C', ':', '\\', 'q'] s at h
  obtain ⟨_, _, _, ⟨_, _, h⟩ | ⟨hc, _⟩ | ⟨hc, _⟩⟩ := reads_cons h
  · obtain ⟨_, _, _, ⟨_, _, h⟩ | ⟨hc, _⟩ | ⟨hc, _⟩⟩ := reads_cons h
    · obtain ⟨x, _, _, ⟨h, _⟩ | ⟨_, d, t, ht, hx, _⟩ | ⟨_, d, ds, t, ht, hd, _⟩⟩ := reads_cons h
      · exact h.2.1 rfl
      · injection ht with ht _
        rw [← ht] at hx
        simp [Toml.short] at hx
      · injection ht with ht _
        rcases hd with rfl | rfl <;> exact absurd ht (by decide)
    · exact absurd hc (by decide)
    · exact absurd hc (by decide)
  · exact absurd hc (by decide)
  · exact absurd hc (by decide)

example : Toml.Reads (escapeString "say \"é\"\n".toList) "say \"é\"\n".toList :=
  (toml_read_back_iff_partial _).mpr (by simp [Toml.Plain])

/-! ### Transforming -/

/-- The names of the operations. -/
def opName : Operation → Str
  | .fingerprint => "fingerprint".toList
  | .len => "len".toList
  | .lower => "lower".toList
  | .squeeze => "squeeze".toList
  | .strip => "strip".toList
  | .unidecode => "unidecode".toList
  | .upper => "upper".toList

/-- What the operations do to a string, `len` apart. -/
def opFn (lib : Library) : Operation → Str → Str
  | .fingerprint => lib.fingerprint
  | .len => id
  | .lower => lib.lower
  | .squeeze => lib.squeeze
  | .strip => lib.strip
  | .unidecode => lib.unidecode
  | .upper => lib.upper

/-- The value given by operations in turn, where only the last one may be `len`. -/
def opResult (lib : Library) (ops : List Operation) (s : Str) : Cell :=
  let t := ops.foldl (fun t o => opFn lib o t) s
  if ops.getLast? = some .len then .int t.length else .str t

theorem splitBy_intercalate {sep : Char} {l : List Str} (hl : l ≠ []) (hn : ∀ p ∈ l, sep ∉ p) : SplitBy [sep] ([sep].intercalate l) l := by
  induction l with
  | nil => exact absurd rfl hl
  | cons p l ih =>
      cases l with
      | nil =>
          rw [show [sep].intercalate [p] = p by simp [List.intercalate]]
          refine SplitBy.last ?_
          rintro ⟨a, b, h⟩
          exact hn p (by simp) (by rw [← h]; simp)
      | cons q l =>
          rw [show [sep].intercalate (p :: q :: l) = p ++ [sep] ++ [sep].intercalate (q :: l) by simp [List.intercalate]]
          refine SplitBy.cut ?_ (ih (by simp) (fun x hx => hn x (by simp [hx])))
          intro a b h
          rcases List.eq_nil_or_concat b with rfl | ⟨b', x, rfl⟩
          · rfl
          · exfalso
            have h' : p ++ [sep] = (a ++ [sep] ++ b') ++ [x] := by simpa using h
            have := (List.append_inj' h' rfl).1
            exact hn p (by simp) (by rw [this]; simp)

theorem cut_names (ops : List Operation) (hops : ops ≠ []) :
    (cut [','] 0 [] ([','].intercalate (ops.map opName))).mapM operation = .ok ops := by
  have h1 : SplitBy [','] ([','].intercalate (ops.map opName)) (ops.map opName) := by
    refine splitBy_intercalate (by simpa using hops) ?_
    intro p hp
    obtain ⟨o, _, rfl⟩ := List.mem_map.mp hp
    cases o <;> decide
  have h2 := splitBy_cut (sep := [',']) (by simp) _ [] ([','].intercalate (ops.map opName)) (Nat.le_refl _) (fun a b _ => by simp)
  rw [List.nil_append] at h2
  rw [splitBy_unique (by simp) h2 h1]
  have : ∀ l : List Operation, (l.map opName).mapM operation = .ok l := by
    intro l
    induction l with
    | nil => rfl
    | cons o l ih =>
        rw [List.map_cons, List.mapM_cons, ih]
        have : operation (opName o) = .ok o := by cases o <;> rfl
        rw [this]
        rfl
  exact this ops

theorem chain_result (lib : Library) (ops : List Operation) (hlen : Operation.len ∉ ops.dropLast) (s : Str) :
    ops.foldlM (fun v op => apply lib op v) (.str s) = .ok (opResult lib ops s) := by
  induction ops generalizing s with
  | nil => rfl
  | cons o ops ih =>
      rw [List.foldlM_cons]
      cases ops with
      | nil => cases o <;> rfl
      | cons o' ops =>
          simp only [List.dropLast_cons₂, List.mem_cons, not_or] at hlen
          have ho : apply lib o (.str s) = .ok (.str (opFn lib o s)) := by
            cases o
            case len => exact absurd rfl hlen.1
            all_goals rfl
          rw [ho]
          change (o' :: ops).foldlM (fun v op => apply lib op v) (.str (opFn lib o s)) = _
          rw [ih hlen.2]
          simp [opResult]

theorem eraseIdx_insert {α : Type _} (l : List α) (x : α) {i : Nat} (hi : i ≤ l.length) :
    (l.take i ++ [x] ++ l.drop i).eraseIdx i = l ∧ (l.take i ++ [x] ++ l.drop i)[i]? = some x ∧
      (l.take i ++ [x] ++ l.drop i).length = l.length + 1 := by
  have hlen : (l.take i).length = i := by simp [hi]
  refine ⟨?_, ?_, ?_⟩
  · rw [List.append_assoc, List.eraseIdx_append_of_length_le (by rw [hlen]), hlen]
    simp
  · rw [List.append_assoc, List.getElem?_append_right (by rw [hlen]), hlen]
    simp
  · simp only [List.length_append, List.length_take, List.length_drop, List.length_singleton]
    omega

/-- The new column is at this place. -/
def newPlace (args : TransformArgs) (n i : Nat) : Nat := if args.after then i + 1 else n

theorem transform_of {lib : Library} {args : TransformArgs} {headers : List Str} {reader : List (List Str)} {chain : List Operation}
    {f : Str → Cell}
    (hchain : operationChain args = .ok chain)
    (hnew : ∀ v, newValue lib args.eval chain v = .ok (f v))
    (hcol : args.column ∈ headers) (hrows : ∀ line ∈ reader, line.length = headers.length) :
    ∃ (i : Nat) (hs : List Str) (out : List (List Cell)), headers[i]? = some args.column ∧
      transformAction lib args (headers :: reader) = .ok (hs, out) ∧
      (∀ t, args.target_column = some t →
        hs.length = headers.length + 1 ∧ hs[newPlace args headers.length i]? = some t ∧ hs.eraseIdx (newPlace args headers.length i) = headers) ∧
      (args.target_column = none → hs = headers) ∧
      List.Forall₂ (fun line row => row.length = hs.length ∧ ∃ cell, line[i]? = some cell ∧
        (args.target_column ≠ none → row[newPlace args headers.length i]? = some (f cell) ∧
          row.eraseIdx (newPlace args headers.length i) = line.map Cell.str) ∧
        (args.target_column = none → row[i]? = some (f cell) ∧ ∀ j ≠ i, row[j]? = (line[j]?).map Cell.str)) reader out := by
  obtain ⟨i, hr, hi⟩ := customReader_total headers reader args.column hcol
  have hlt : i < headers.length := (List.getElem?_eq_some_iff.mp hi).1
  have hh : (∀ t, args.target_column = some t → (transformHeaders args headers i).length = headers.length + 1 ∧
      (transformHeaders args headers i)[newPlace args headers.length i]? = some t ∧
      (transformHeaders args headers i).eraseIdx (newPlace args headers.length i) = headers) ∧
      (args.target_column = none → transformHeaders args headers i = headers) := by
    unfold transformHeaders newPlace
    constructor
    · intro t ht
      rw [ht]
      simp only
      cases args.after
      · have := eraseIdx_insert headers t (Nat.le_refl headers.length)
        simp only [List.take_length, List.drop_length, List.append_nil] at this
        exact ⟨this.2.2, this.2.1, this.1⟩
      · have := eraseIdx_insert headers t (i := i + 1) hlt
        exact ⟨this.2.2, this.2.1, this.1⟩
    · intro ht
      rw [ht]
  obtain ⟨out, ho, hf⟩ := mapM_forall₂ (R := fun line row => row.length = (transformHeaders args headers i).length ∧
      ∃ cell, line[i]? = some cell ∧
        (args.target_column ≠ none → row[newPlace args headers.length i]? = some (f cell) ∧
          row.eraseIdx (newPlace args headers.length i) = line.map Cell.str) ∧
        (args.target_column = none → row[i]? = some (f cell) ∧ ∀ j ≠ i, row[j]? = (line[j]?).map Cell.str))
      (transformLine lib args chain i) reader (by
    intro line hl
    have hlen := hrows line hl
    have hil : i < line.length := by omega
    have hmap : (line.map Cell.str).length = headers.length := by simp [hlen]
    have hline : transformLine lib args chain i line = (match args.target_column with
        | some _ =>
            if args.after then pure ((line.map Cell.str).take (i + 1) ++ [f line[i]] ++ (line.map Cell.str).drop (i + 1))
            else pure (line.map Cell.str ++ [f line[i]])
        | none => pure ((line.map Cell.str).set i (f line[i]))) := by
      unfold transformLine
      rw [List.getElem?_eq_getElem hil]
      simp only
      rw [hnew]
      rfl
    rw [hline]
    cases ht : args.target_column with
    | none =>
        refine ⟨_, rfl, ?_, line[i], List.getElem?_eq_getElem hil, by simp, fun _ => ⟨?_, ?_⟩⟩
        · rw [hh.2 ht]; simp [hlen]
        · rw [List.getElem?_set_self (by omega)]
        · intro j hj
          rw [List.getElem?_set_ne (fun h => hj h.symm), List.getElem?_map]
    | some t =>
        rw [(hh.1 t ht).1]
        unfold newPlace
        cases args.after
        · have := eraseIdx_insert (line.map Cell.str) (f line[i]) (Nat.le_refl _)
          simp only [List.take_length, List.drop_length, List.append_nil] at this
          rw [hmap] at this
          exact ⟨_, rfl, this.2.2, line[i], List.getElem?_eq_getElem hil, fun _ => ⟨this.2.1, this.1⟩, by simp⟩
        · have := eraseIdx_insert (line.map Cell.str) (f line[i]) (i := i + 1) (by omega)
          rw [hmap] at this
          exact ⟨_, rfl, this.2.2, line[i], List.getElem?_eq_getElem hil, fun _ => ⟨this.2.1, this.1⟩, by simp⟩)
  refine ⟨i, transformHeaders args headers i, out, hi, ?_, hh.1, hh.2, hf⟩
  unfold transformAction
  rw [hchain, hr]
  change (do let written ← reader.mapM (transformLine lib args chain i); pure (transformHeaders args headers i, written)) = _
  rw [ho]
  rfl

/-- **C69**: each row is written as long as the headers, with the value given by the operations under the target header (or under the column
when there is no target), and is otherwise unchanged. Only the last operation may be `len`. -/
theorem transform_rows (lib : Library) (args : TransformArgs) (heval : args.eval = none) {ops : List Operation} (hops : ops ≠ [])
    (hargs : args.operations = [','].intercalate (ops.map opName)) (hlen : Operation.len ∉ ops.dropLast)
    {headers : List Str} {reader : List (List Str)} (hcol : args.column ∈ headers)
    (hrows : ∀ line ∈ reader, line.length = headers.length) :
    ∃ (i : Nat) (hs : List Str) (out : List (List Cell)), headers[i]? = some args.column ∧
      transformAction lib args (headers :: reader) = .ok (hs, out) ∧
      (∀ t, args.target_column = some t →
        hs.length = headers.length + 1 ∧ hs[newPlace args headers.length i]? = some t ∧ hs.eraseIdx (newPlace args headers.length i) = headers) ∧
      (args.target_column = none → hs = headers) ∧
      List.Forall₂ (fun line row => row.length = hs.length ∧ ∃ cell, line[i]? = some cell ∧
        (args.target_column ≠ none → row[newPlace args headers.length i]? = some (opResult lib ops cell) ∧
          row.eraseIdx (newPlace args headers.length i) = line.map Cell.str) ∧
        (args.target_column = none → row[i]? = some (opResult lib ops cell) ∧ ∀ j ≠ i, row[j]? = (line[j]?).map Cell.str)) reader out := by
  refine transform_of (chain := ops) ?_ ?_ hcol hrows
  · unfold operationChain
    rw [heval]
    simp only
    rw [hargs, cut_names ops hops]
  · intro v
    unfold newValue
    rw [heval]
    exact chain_result lib ops hlen v

/-- **C69** with `--eval`, for an expression which does not raise. -/
theorem transform_eval_rows (lib : Library) (args : TransformArgs) {e : Str → Py Cell} (heval : args.eval = some e) {f : Str → Cell}
    (hf : ∀ v, e v = .ok (f v)) {headers : List Str} {reader : List (List Str)} (hcol : args.column ∈ headers)
    (hrows : ∀ line ∈ reader, line.length = headers.length) :
    ∃ (i : Nat) (hs : List Str) (out : List (List Cell)), headers[i]? = some args.column ∧
      transformAction lib args (headers :: reader) = .ok (hs, out) ∧
      (∀ t, args.target_column = some t →
        hs.length = headers.length + 1 ∧ hs[newPlace args headers.length i]? = some t ∧ hs.eraseIdx (newPlace args headers.length i) = headers) ∧
      (args.target_column = none → hs = headers) ∧
      List.Forall₂ (fun line row => row.length = hs.length ∧ ∃ cell, line[i]? = some cell ∧
        (args.target_column ≠ none → row[newPlace args headers.length i]? = some (f cell) ∧
          row.eraseIdx (newPlace args headers.length i) = line.map Cell.str) ∧
        (args.target_column = none → row[i]? = some (f cell) ∧ ∀ j ≠ i, row[j]? = (line[j]?).map Cell.str)) reader out := by
  refine transform_of (chain := []) ?_ ?_ hcol hrows
  · unfold operationChain; rw [heval]
  · intro v
    unfold newValue
    rw [heval]
    exact hf v

/-- `len` before another operation raises on any cell. -/
theorem transform_len_raises (lib : Library) (o : Operation) (ops : List Operation) (s : Str) :
    ∃ err, newValue lib none (.len :: o :: ops) s = .error err := by
  cases o <;> exact ⟨_, rfl⟩

/-- Nothing but strings, for the examples. -/
def plainLibrary : Library := ⟨id, List.map Char.toLower, id, id, id, List.map Char.toUpper⟩

example : transformAction plainLibrary ⟨"a".toList, "lower,len".toList, some "n".toList, true, none⟩
    [["a".toList, "b".toList], ["Ab".toList, "c".toList]] =
      .ok (["a".toList, "n".toList, "b".toList], [[.str "Ab".toList, .int 2, .str "c".toList]]) := by rfl

example : ("lower,len".toList : Str) = [','].intercalate ([Operation.lower, .len].map opName) ∧ Operation.len ∉ [Operation.lower, .len].dropLast := by
  decide

/-! ### Clustering -/

theorem columnCounter_spec (i : Nat) {reader : List (List Str)} (h : ∀ line ∈ reader, i < line.length) :
    ∃ values, counter i reader = .ok values ∧ values.keys = firsts (reader.filterMap (·[i]?)) ∧
      ∀ v, count values v = (reader.filterMap (·[i]?)).count v := by
  unfold counter
  induction reader using KeyCollision.snoc_ind with
  | nil => exact ⟨[], rfl, rfl, fun v => rfl⟩
  | snoc reader line ih =>
      obtain ⟨values, hv, hk, hc⟩ := ih (fun l hl => h l (by simp [hl]))
      have hi : i < line.length := h line (by simp)
      refine ⟨values.update line[i] 0 (· + 1), ?_, ?_, ?_⟩
      · rw [List.foldlM_append, hv]
        simp [bind, Except.bind, pure, Except.pure, hi]
      · rw [List.filterMap_append]
        simp only [List.filterMap_cons, List.filterMap_nil, List.getElem?_eq_getElem hi]
        rw [KeyCollision.firsts_append_singleton, Dict.keys_update, hk]
        by_cases hm : line[i] ∈ reader.filterMap (·[i]?)
        · rw [if_pos hm, if_pos (KeyCollision.mem_firsts.mpr hm)]
        · rw [if_neg hm, if_neg (fun h => hm (KeyCollision.mem_firsts.mp h))]
      · intro v
        rw [List.filterMap_append]
        simp only [List.filterMap_cons, List.filterMap_nil, List.getElem?_eq_getElem hi]
        rw [List.count_append, ← hc v]
        unfold count
        rw [Dict.get?_update]
        by_cases hv : line[i] = v
        · rw [if_pos hv, hv]; simp
        · rw [if_neg hv, List.count_eq_zero.mpr (by simpa using fun h => hv h.symm)]; simp

/-- The report of the values which have the key `k`, in a column. -/
def Reports (fingerprint : Str → Str) (column : List Str) (k : Str) (r : ClusterReport) : Prop :=
  ∃ values : List Str, values.Nodup ∧ (∀ v, v ∈ values ↔ v ∈ column ∧ fingerprint v = k) ∧
    r.nb_values = values.length ∧ r.nb_rows = column.countP (fun v => decide (fingerprint v = k)) ∧
    r.values.map (fun x => (x.1, x.2.2)) = values.map (fun v => (escapeString v, column.count v)) ∧
    values.Pairwise (fun v w => column.count w ≤ column.count v) ∧ values.head?.map escapeString = some r.harmonized

theorem sum_counts (column : List Str) (fingerprint : Str → Str) (k : Str) {values : List Str} (hn : values.Nodup)
    (hm : ∀ v, v ∈ values ↔ v ∈ column ∧ fingerprint v = k) :
    (values.map fun v => column.count v).sum = column.countP (fun v => decide (fingerprint v = k)) := by
  have key : ∀ values : List Str, values.Nodup → (values.map fun v => column.count v).sum = column.countP (fun v => decide (v ∈ values)) := by
    intro values hn
    induction values with
    | nil => simp
    | cons v values ih =>
        rw [List.nodup_cons] at hn
        rw [List.map_cons, List.sum_cons, ih hn.2, List.count_eq_countP]
        clear ih hm
        induction column with
        | nil => simp
        | cons c column ih =>
            simp only [List.countP_cons, List.mem_cons]
            have ih := ih
            simp only [List.mem_cons, Bool.decide_or] at ih ⊢
            rw [← Nat.add_assoc, ← ih]
            by_cases h1 : c = v
            · subst h1
              simp [hn.1]
              omega
            · simp [h1]
  rw [key values hn]
  apply List.countP_congr
  intro v hv
  simp [hm, hv]

theorem clusterReport_spec {values : Dict Str Nat} {column : List Str} (hc : ∀ v, count values v = column.count v) {fingerprint : Str → Str}
    {k : Str} (i : Nat) {cluster : List Str} (hne : cluster ≠ []) (hn : cluster.Nodup) (hm : ∀ v, v ∈ cluster ↔ v ∈ column ∧ fingerprint v = k) :
    ∃ r, clusterReport values i cluster = .ok r ∧ Reports fingerprint column k r := by
  have hperm := List.mergeSort_perm cluster fun a b => decide (count values b ≤ count values a)
  have hsorted := List.pairwise_mergeSort (le := fun a b => decide (count values b ≤ count values a))
    (by intro a b c; simp only [decide_eq_true_eq]; omega) (by intro a b; simp only [Bool.or_eq_true, decide_eq_true_eq]; omega) cluster
  unfold clusterReport
  generalize cluster.mergeSort (fun a b => decide (count values b ≤ count values a)) = sorted at hperm hsorted
  cases sorted with
  | nil => exact absurd hperm.symm.eq_nil hne
  | cons first rest =>
      cases hmax : (cluster.map List.length).max? with
      | none => simp [List.max?_eq_none_iff] at hmax; exact absurd hmax hne
      | some m =>
          refine ⟨_, rfl, first :: rest, hperm.nodup_iff.mpr hn, ?_, ?_, ?_, ?_, ?_, ?_⟩
          · intro v; rw [hperm.mem_iff, hm]
          · exact hperm.length_eq.symm
          · rw [← sum_counts column fingerprint k hn hm]
            simp only [← hc]
          · simp only [List.map_map, Function.comp_def, hc]
          · simpa only [decide_eq_true_eq, hc] using hsorted
          · rfl

/-- **C70**: the clusters of the report are exactly the sets of at least two different values of the column which have the same fingerprint,
not empty: each is given once, with the number of rows of each value, by decreasing number of rows, and the total of them. -/
theorem cluster_report (ord : Str → List Str → List Str) (fingerprint : Str → Str) (column : Str) {headers : List Str}
    {reader : List (List Str)} (hcol : column ∈ headers) (hrows : ∀ line ∈ reader, headers.length ≤ line.length) :
    ∃ (i : Nat) (report : Report) (ks : List Str), headers[i]? = some column ∧
      clusterAction ord fingerprint column (headers :: reader) = .ok report ∧
      report.lines = reader.length ∧ report.nb_clusters = ks.length ∧
      report.nb_distinct_values = (firsts (reader.filterMap (·[i]?))).length ∧
      ks.Nodup ∧ (∀ k, k ∈ ks ↔ k ≠ [] ∧ ∃ v w, v ∈ reader.filterMap (·[i]?) ∧ w ∈ reader.filterMap (·[i]?) ∧ v ≠ w ∧
        fingerprint v = k ∧ fingerprint w = k) ∧
      List.Forall₂ (Reports fingerprint (reader.filterMap (·[i]?))) ks report.clusters := by
  obtain ⟨i, hr, hi⟩ := customReader_total headers reader column hcol
  have hlt : i < headers.length := (List.getElem?_eq_some_iff.mp hi).1
  obtain ⟨values, hv, hk, hc⟩ := columnCounter_spec i (fun line hl => Nat.lt_of_lt_of_le hlt (hrows line hl))
  have hcoll := key_collision_single ord (fun k : Str => decide (k ≠ [])) values.keys fingerprint none 2 none true
  rw [hk] at hcoll
  generalize hcolumn : reader.filterMap (·[i]?) = col at *
  have hfilter : ((firsts (((firsts col).map fingerprint).filter fun k => decide (k ≠ []))).map fun k =>
        (firsts col).filter fun item => decide (fingerprint item = k)).filter
          (fun c => decide (2 ≤ c.length ∧ ∀ m ∈ (none : Option Nat), c.length ≤ m)) =
      ((firsts (((firsts col).map fingerprint).filter fun k => decide (k ≠ []))).filter fun k =>
        decide (2 ≤ ((firsts col).filter fun item => decide (fingerprint item = k)).length)).map fun k =>
          (firsts col).filter fun item => decide (fingerprint item = k) := by
    rw [List.filter_map]
    congr 1
    apply List.filter_congr
    intro k _
    simp [Function.comp_def]
  rw [hfilter] at hcoll
  generalize hks : ((firsts (((firsts col).map fingerprint).filter fun k => decide (k ≠ []))).filter fun k =>
        decide (2 ≤ ((firsts col).filter fun item => decide (fingerprint item = k)).length)) = ks at hcoll
  have hreports : ∀ (ks : List Str) (n : Nat), (∀ k ∈ ks, 2 ≤ ((firsts col).filter fun item => decide (fingerprint item = k)).length) →
      ∃ reports, ((ks.map fun k => (firsts col).filter fun item => decide (fingerprint item = k)).zipIdx n).mapM
        (fun x => clusterReport values x.2 x.1) = .ok reports ∧ List.Forall₂ (Reports fingerprint col) ks reports := by
    intro ks
    induction ks with
    | nil => intro n _; exact ⟨[], rfl, .nil⟩
    | cons k ks ih =>
        intro n h2
        obtain ⟨reports, h3, h4⟩ := ih (n + 1) (fun x hx => h2 x (by simp [hx]))
        have h2 := h2 k (by simp)
        obtain ⟨r, h5, h6⟩ := clusterReport_spec hc (fingerprint := fingerprint) (k := k) n
          (cluster := (firsts col).filter fun item => decide (fingerprint item = k))
          (by intro h; rw [h] at h2; simp at h2) ((KeyCollision.nodup_firsts col).filter _)
          (by intro v; simp [KeyCollision.mem_firsts])
        refine ⟨r :: reports, ?_, .cons h6 h4⟩
        rw [List.map_cons, List.zipIdx_cons, List.mapM_cons, h3]
        simp only
        rw [h5]
        rfl
  obtain ⟨reports, h3, h4⟩ := hreports ks 0 (by
    intro k hk
    rw [← hks] at hk
    exact of_decide_eq_true (List.mem_filter.mp hk).2)
  refine ⟨i, ?_⟩
  rw [hcolumn]
  refine ⟨⟨reader.length, values.length, (ks.map fun k => (firsts col).filter fun item => decide (fingerprint item = k)).length, reports⟩, ks, hi, ?_, rfl,
    ?_, ?_, ?_, ?_, ?_⟩
  · unfold clusterAction
    rw [hr]
    change (do let values ← counter i reader; _) = _
    rw [hv]
    change (do let clusters ← KeyCollision.keyCollision ord (fun k : Str => decide (k ≠ [])) values.keys (some fingerprint) none 2 none true; _) = _
    rw [hk, hcoll]
    change (do let reports ← List.mapM (fun x : List Str × Nat => clusterReport values x.2 x.1) _; _) = _
    rw [h3]
    rfl
  · simp
  · simp only
    rw [← hk]; simp [Dict.keys]
  · rw [← hks]; exact (KeyCollision.nodup_firsts _).filter _
  · intro k
    rw [← hks]
    simp only [List.mem_filter, KeyCollision.mem_firsts, decide_eq_true_eq, List.mem_map]
    have hnd : ((firsts col).filter fun item => decide (fingerprint item = k)).Nodup := (KeyCollision.nodup_firsts col).filter _
    have hmem : ∀ v, v ∈ ((firsts col).filter fun item => decide (fingerprint item = k)) ↔ v ∈ col ∧ fingerprint v = k := by
      intro v; simp [KeyCollision.mem_firsts]
    constructor
    · rintro ⟨⟨_, hne⟩, h2⟩
      refine ⟨hne, ?_⟩
      match hl : ((firsts col).filter fun item => decide (fingerprint item = k)), h2 with
      | v :: w :: l, _ =>
          rw [hl] at hnd hmem
          have hv := (hmem v).mp (by simp)
          have hw := (hmem w).mp (by simp)
          refine ⟨v, w, hv.1, hw.1, ?_, hv.2, hw.2⟩
          rintro rfl
          simp at hnd
    · rintro ⟨hne, v, w, hv, hw, hvw, hkv, hkw⟩
      refine ⟨⟨⟨v, hv, hkv⟩, hne⟩, ?_⟩
      have h1 := (hmem v).mpr ⟨hv, hkv⟩
      have h2 := (hmem w).mpr ⟨hw, hkw⟩
      match hl : ((firsts col).filter fun item => decide (fingerprint item = k)) with
      | [] => rw [hl] at h1; simp at h1
      | [x] =>
          rw [hl] at h1 h2
          exact absurd ((List.mem_singleton.mp h1).trans (List.mem_singleton.mp h2).symm) hvw
      | x :: y :: l => simp
  · exact h4

/-- Three values of which two have the same key, one of them on two rows. -/
example : (clusterAction (fun _ l => l) (List.map Char.toLower) "a".toList
    [["a".toList], ["x".toList], ["X".toList], ["y".toList], ["X".toList]]).toOption.map
      (fun report => report.clusters.map fun r => (r.nb_rows, r.harmonized)) = some [(3, "X".toList)] := by
  have hk : KeyCollision.keyCollision (fun _ l => l) (fun k : Str => decide (k ≠ [])) ["x".toList, "X".toList, "y".toList]
      (some (List.map Char.toLower)) none 2 none true = .ok [["x".toList, "X".toList]] := by rfl
  have hc : counter 0 [["x".toList], ["X".toList], ["y".toList], ["X".toList]] =
      .ok [("x".toList, 1), ("X".toList, 2), ("y".toList, 1)] := by rfl
  have hs : ["x".toList, "X".toList].mergeSort (fun a b => decide
      (count [("x".toList, 1), ("X".toList, 2), ("y".toList, 1)] b ≤ count [("x".toList, 1), ("X".toList, 2), ("y".toList, 1)] a)) =
      ["X".toList, "x".toList] := by
    simp [List.mergeSort, List.MergeSort.Internal.splitInTwo, count, Dict.get?, List.merge]
  unfold clusterAction
  rw [show customReader [["a".toList], ["x".toList], ["X".toList], ["y".toList], ["X".toList]] "a".toList =
    .ok (["a".toList], 0, [["x".toList], ["X".toList], ["y".toList], ["X".toList]]) by rfl]
  simp only [bind, Except.bind, hc]
  rw [show Dict.keys [("x".toList, 1), ("X".toList, 2), ("y".toList, 1)] = ["x".toList, "X".toList, "y".toList] by rfl, hk]
  simp only [List.zipIdx_cons, List.zipIdx_nil, List.mapM_cons, List.mapM_nil, clusterReport, hs]
  decide +kernel

end Fog.Props
