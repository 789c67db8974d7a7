import Verif.Props.Cli
import Verif.Lemmas.Faults

/-!
# C91: when the commands of the command line raise, and what
-/

namespace Fog.Props

open Fog.Cli Fog.Spec

theorem customReader_cases (rows : List (List Str)) (column : Str) :
    (rows = [] ∧ customReader rows column = .error .attributeError) ∨
    (∃ headers reader, rows = headers :: reader ∧ column ∉ headers ∧ customReader rows column = .error .valueError) ∨
    (∃ headers reader i, rows = headers :: reader ∧ FirstAt headers column i ∧ customReader rows column = .ok (headers, i, reader)) := by
  cases rows with
  | nil => exact Or.inl ⟨rfl, rfl⟩
  | cons headers reader =>
      right
      cases h : headers.idxOf? column with
      | none =>
          left
          refine ⟨headers, reader, rfl, ?_, ?_⟩
          · rwa [List.idxOf?_eq_none_iff] at h
          · simp [customReader, h]
      | some i =>
          right
          refine ⟨headers, reader, i, rfl, ?_, by simp [customReader, h]⟩
          rw [List.idxOf?_eq_some_iff] at h
          obtain ⟨hlt, he, hlow⟩ := h
          refine ⟨by rw [List.getElem?_eq_getElem hlt]; simpa using he, ?_⟩
          intro j hj hc
          have hjl : j < headers.length := Nat.lt_trans hj hlt
          rw [List.getElem?_eq_getElem hjl] at hc
          have := hlow j hj
          simp at hc
          simp [hc] at this

theorem firstAt_unique {α : Type} {l : List α} {x : α} {i j : Nat} (hi : FirstAt l x i) (hj : FirstAt l x j) : i = j := by
  rcases Nat.lt_trichotomy i j with h | h | h
  · exact absurd hi.1 (hj.2 i h)
  · exact h
  · exact absurd hj.1 (hi.2 j h)

/-- The faults common to the commands: what is wrong with the file, then with the first bad row. -/
def FileFault (column : Str) (rowFault : Nat → List Str → PyErr → Prop) (rows : List (List Str)) (e : PyErr) : Prop :=
  (rows = [] ∧ e = .attributeError) ∨
  ∃ headers reader, rows = headers :: reader ∧
    ((column ∉ headers ∧ e = .valueError) ∨ ∃ i, FirstAt headers column i ∧ FirstFault (rowFault i) reader e)

theorem fileFault_iff {γ δ : Type} (column : Str) (rows : List (List Str)) (f : Nat → List Str → Py γ)
    (g : List Str → Nat → List γ → δ) (rowFault : Nat → List Str → PyErr → Prop)
    (hf : ∀ i line e, f i line = .error e ↔ rowFault i line e) (e : PyErr) :
    (do let (headers, position, reader) ← customReader rows column
        let written ← reader.mapM (f position)
        pure (g headers position written) : Py δ) = .error e ↔ FileFault column rowFault rows e := by
  have hF : ∀ i, (fun x e => f i x = .error e) = rowFault i := by
    intro i; funext x e; exact propext (hf i x e)
  rcases customReader_cases rows column with ⟨rfl, h⟩ | ⟨headers, reader, rfl, hc, h⟩ | ⟨headers, reader, i, rfl, hi, h⟩
  · rw [h]
    constructor
    · intro he
      injection he with he
      exact Or.inl ⟨rfl, he.symm⟩
    · rintro (⟨_, rfl⟩ | ⟨_, _, h', _⟩)
      · rfl
      · simp at h'
  · rw [h]
    constructor
    · intro he
      injection he with he
      exact Or.inr ⟨headers, reader, rfl, Or.inl ⟨hc, he.symm⟩⟩
    · rintro (⟨h', _⟩ | ⟨hs, r, h', h''⟩)
      · simp at h'
      · simp only [List.cons.injEq] at h'
        obtain ⟨rfl, rfl⟩ := h'
        rcases h'' with ⟨_, rfl⟩ | ⟨i, hi, _⟩
        · rfl
        · exact absurd (List.mem_of_getElem? hi.1) hc
  · rw [h]
    have key : (do let written ← reader.mapM (f i)
                   pure (g headers i written) : Py δ) = .error e ↔ reader.mapM (f i) = .error e := by
      cases reader.mapM (f i) with
      | error e' =>
          constructor
          · intro h'; injection h' with h'; rw [h']
          · intro h'; injection h' with h'; rw [h']; rfl
      | ok w =>
          constructor
          · intro h'; cases h'
          · intro h'; cases h'
    refine Iff.trans key ?_
    rw [mapM_error_iff, hF]
    constructor
    · intro he
      exact Or.inr ⟨headers, reader, rfl, Or.inr ⟨i, hi, he⟩⟩
    · rintro (⟨h', _⟩ | ⟨hs, r, h', h''⟩)
      · simp at h'
      · simp only [List.cons.injEq] at h'
        obtain ⟨rfl, rfl⟩ := h'
        rcases h'' with ⟨hc, _⟩ | ⟨j, hj, he⟩
        · exact absurd (List.mem_of_getElem? hi.1) hc
        · rw [firstAt_unique hi hj]
          exact he

/-- **C91**: `fog split` raises exactly on an empty file (`AttributeError`), when no header is the column (`ValueError`), or at the first
row which has no such cell (`IndexError`), or has a value to cut when the separator is empty (`ValueError`). -/
theorem split_raises_iff (args : SplitArgs) (rows : List (List Str)) (e : PyErr) :
    splitAction args rows = .error e ↔
      FileFault args.column (fun i row e =>
        (row.length ≤ i ∧ e = .indexError) ∨
        (∃ value, row[i]? = some value ∧ value ≠ [] ∧ args.separator = [] ∧ e = .valueError)) rows e := by
  refine fileFault_iff args.column rows (splitLine args) (fun h p w => splitHeaders args h p :: w.flatten) _ ?_ e
  intro i line e
  unfold splitLine
  cases hl : line[i]? with
  | none =>
      have hlen : line.length ≤ i := List.getElem?_eq_none_iff.mp hl
      simp [hlen, eq_comm]
  | some v =>
      have hlen : ¬ line.length ≤ i := fun h => by rw [List.getElem?_eq_none h] at hl; simp at hl
      by_cases hv : v = []
      · simp [hv, hlen]
      · by_cases hs : args.separator = []
        · simp [hv, hlen, hs, pySplit, Except.map, eq_comm]
        · simp [hv, hlen, hs, pySplit, Except.map]

/-- What an operation raises when it is given a number. -/
def onNumber (o : Operation) : PyErr := if opName o ∈ takesAnything then .typeError else .attributeError

theorem apply_int (lib : Library) (o : Operation) (n : Nat) : apply lib o (.int n) = .error (onNumber o) := by
  cases o <;> rfl

theorem chain_raises_iff (lib : Library) (ops : List Operation) (s : Str) (e : PyErr) :
    ops.foldlM (fun v op => apply lib op v) (.str s) = .error e ↔
      ∃ pre o post, ops = pre ++ .len :: o :: post ∧ .len ∉ pre ∧ e = onNumber o := by
  induction ops generalizing s with
  | nil =>
      constructor
      · intro h; cases h
      · rintro ⟨pre, o, post, h, _⟩; simp at h
  | cons a ops ih =>
      rw [List.foldlM_cons]
      by_cases ha : a = .len
      · subst ha
        change (ops.foldlM (fun v op => apply lib op v) (.int s.length) : Py Cell) = .error e ↔ _
        cases ops with
        | nil =>
            constructor
            · intro h; cases h
            · rintro ⟨pre, o, post, h, hp, _⟩
              cases pre with
              | nil => simp at h
              | cons p pre => simp at h
        | cons o ops =>
            rw [List.foldlM_cons, apply_int]
            constructor
            · intro h
              injection h with h
              exact ⟨[], o, ops, rfl, by simp, h.symm⟩
            · rintro ⟨pre, o', post, h, hp, rfl⟩
              cases pre with
              | nil =>
                  simp only [List.nil_append, List.cons.injEq, true_and] at h
                  obtain ⟨rfl, rfl⟩ := h
                  rfl
              | cons p pre =>
                  simp only [List.cons_append, List.cons.injEq] at h
                  exact absurd (by simp [h.1]) hp
      · have hap : apply lib a (.str s) = .ok (.str (opFn lib a s)) := by
          cases a
          case len => exact absurd rfl ha
          all_goals rfl
        rw [hap]
        change (ops.foldlM (fun v op => apply lib op v) (.str (opFn lib a s)) : Py Cell) = .error e ↔ _
        rw [ih]
        constructor
        · rintro ⟨pre, o, post, rfl, hp, he⟩
          exact ⟨a :: pre, o, post, rfl, by simp [hp, Ne.symm ha], he⟩
        · rintro ⟨pre, o, post, h, hp, he⟩
          cases pre with
          | nil =>
              simp only [List.nil_append, List.cons.injEq] at h
              exact absurd h.1 ha
          | cons p pre =>
              simp only [List.cons_append, List.cons.injEq] at h
              exact ⟨pre, o, post, h.2, by simp at hp; exact hp.2, he⟩

theorem operation_ok_iff (n : Str) (o : Operation) : operation n = .ok o ↔ n = opName o := by
  constructor
  · intro h
    unfold operation at h
    repeat' split at h
    all_goals first
      | (injection h with h; subst h; assumption)
      | cases h
  · rintro rfl
    cases o <;> rfl

theorem operation_error_iff (n : Str) (e : PyErr) : operation n = .error e ↔ n ∉ operationNames ∧ e = .keyError := by
  unfold operation operationNames
  constructor
  · intro h
    repeat' split at h
    all_goals first
      | (injection h with h
         subst h
         refine ⟨?_, rfl⟩
         simp only [List.mem_cons, List.not_mem_nil, or_false, not_or]
         refine ⟨?_, ?_, ?_, ?_, ?_, ?_, ?_⟩ <;> assumption)
      | cases h
  · rintro ⟨h, rfl⟩
    simp only [List.mem_cons, List.not_mem_nil, or_false, not_or] at h
    obtain ⟨h1, h2, h3, h4, h5, h6, h7⟩ := h
    rw [if_neg h1, if_neg h2, if_neg h3, if_neg h4, if_neg h5, if_neg h6, if_neg h7]

theorem mapM_operation_ok {names : List Str} {ops : List Operation} (h : names.mapM operation = .ok ops) : names = ops.map opName := by
  induction names generalizing ops with
  | nil => cases h; rfl
  | cons n names ih =>
      rw [List.mapM_cons] at h
      cases hn : operation n with
      | error e => rw [hn] at h; cases h
      | ok o =>
          rw [hn] at h
          cases hl : names.mapM operation with
          | error e =>
              have h' : (do let bs ← names.mapM operation; pure (o :: bs) : Py (List Operation)) = .ok ops := h
              rw [hl] at h'; cases h'
          | ok os =>
              have h' : (do let bs ← names.mapM operation; pure (o :: bs) : Py (List Operation)) = .ok ops := h
              rw [hl] at h'
              injection h' with h'
              subst h'
              rw [List.map_cons, ← ih hl, (operation_ok_iff n o).mp hn]

theorem opName_injective : ∀ a b : Operation, opName a = opName b → a = b := by
  intro a b h
  have h1 := (operation_ok_iff (opName a) a).mpr rfl
  have h2 := (operation_ok_iff (opName a) b).mpr h
  rw [h1] at h2
  injection h2

/-- **C91**: `fog transform`, without `--eval`, raises exactly when the text of the operations, cut at commas, has an unknown name
(`KeyError`, whatever the file); otherwise on an empty file, when no header is the column, or at the first row, which either has no such
cell (`IndexError`), or meets a `len` followed by another operation: `TypeError` if it is `len` or `squeeze`, `AttributeError` else. -/
theorem transform_raises_iff (lib : Library) (args : TransformArgs) (heval : args.eval = none) {names : List Str}
    (hnames : SplitBy [','] args.operations names) (rows : List (List Str)) (e : PyErr) :
    transformAction lib args rows = .error e ↔
      ((∃ n ∈ names, n ∉ operationNames) ∧ e = .keyError) ∨
      ((∀ n ∈ names, n ∈ operationNames) ∧ FileFault args.column (fun i row e =>
        (row.length ≤ i ∧ e = .indexError) ∨
        (i < row.length ∧ ∃ pre next post, names = pre ++ "len".toList :: next :: post ∧ "len".toList ∉ pre ∧
          e = if next ∈ takesAnything then .typeError else .attributeError)) rows e) := by
  have hcut : cut [','] 0 [] args.operations = names := by
    have h2 := splitBy_cut (sep := [',']) (by simp) _ [] args.operations (Nat.le_refl _) (fun a b _ => by simp)
    rw [List.nil_append] at h2
    exact splitBy_unique (by simp) h2 hnames
  have hchain : operationChain args = names.mapM operation := by
    unfold operationChain
    rw [heval]
    simp only
    rw [hcut]
  unfold transformAction
  rw [hchain]
  cases hm : names.mapM operation with
  | error e' =>
      obtain ⟨before, n, after, hn, _, hf⟩ := (mapM_error_iff operation names e').mp hm
      rw [operation_error_iff] at hf
      have hbad : ∃ n ∈ names, n ∉ operationNames := ⟨n, by simp [hn], hf.1⟩
      rw [hf.2]
      constructor
      · intro h
        injection h with h
        exact Or.inl ⟨hbad, h.symm⟩
      · rintro (⟨_, rfl⟩ | ⟨h, _⟩)
        · rfl
        · obtain ⟨n, h1, h2⟩ := hbad
          exact absurd (h n h1) h2
  | ok ops =>
      have hops := mapM_operation_ok hm
      have hgood : ∀ n ∈ names, n ∈ operationNames := by
        intro n hn
        rw [hops] at hn
        obtain ⟨o, _, rfl⟩ := List.mem_map.mp hn
        cases o <;> decide
      have hno : ¬ ∃ n ∈ names, n ∉ operationNames := fun ⟨n, h1, h2⟩ => h2 (hgood n h1)
      have := fileFault_iff args.column rows (transformLine lib args ops) (fun h p w => (transformHeaders args h p, w))
        (fun i row e => (row.length ≤ i ∧ e = .indexError) ∨
          (i < row.length ∧ ∃ pre next post, names = pre ++ "len".toList :: next :: post ∧ "len".toList ∉ pre ∧
            e = if next ∈ takesAnything then .typeError else .attributeError)) ?_ e
      · refine Iff.trans this ?_
        constructor
        · intro h; exact Or.inr ⟨hgood, h⟩
        · rintro (⟨h, _⟩ | ⟨_, h⟩)
          · exact absurd h hno
          · exact h
      · intro i line e
        unfold transformLine
        cases hl : line[i]? with
        | none =>
            have hlen : line.length ≤ i := List.getElem?_eq_none_iff.mp hl
            have hlen' : ¬ i < line.length := by omega
            simp [hlen, hlen', eq_comm]
        | some v =>
            have hlen : i < line.length := by
              rcases Nat.lt_or_ge i line.length with h | h
              · exact h
              · rw [List.getElem?_eq_none h] at hl; simp at hl
            have hlen' : ¬ line.length ≤ i := by omega
            simp only [hlen, hlen', false_and, true_and, false_or]
            have hnv : newValue lib args.eval ops v = ops.foldlM (fun v op => apply lib op v) (.str v) := by
              unfold newValue; rw [heval]
            rw [hnv]
            have hstep : ∀ (x : Py Cell) (k : Cell → Py (List Cell)), (∀ c, ∃ r, k c = .ok r) →
                ((x >>= k) = .error e ↔ x = .error e) := by
              intro x k hk
              cases x with
              | error e' =>
                  change ((.error e' : Py (List Cell)) = .error e ↔ _)
                  constructor
                  · intro h; injection h with h; rw [h]
                  · intro h; injection h with h; rw [h]
              | ok c =>
                  obtain ⟨r, hr⟩ := hk c
                  change (k c = .error e ↔ _)
                  rw [hr]
                  simp
            rw [hstep, chain_raises_iff]
            · constructor
              · rintro ⟨pre, o, post, rfl, hp, rfl⟩
                refine ⟨pre.map opName, opName o, post.map opName, ?_, ?_, rfl⟩
                · rw [hops, List.map_append, List.map_cons, List.map_cons]; rfl
                · intro hm'
                  obtain ⟨o', ho', heq⟩ := List.mem_map.mp hm'
                  have := opName_injective o' .len heq
                  exact hp (this ▸ ho')
              · rintro ⟨pre, next, post, hn, hp, he⟩
                rw [hops] at hn
                obtain ⟨pre', rest, rfl, hpre, hrest⟩ := List.map_eq_append_iff.mp hn
                obtain ⟨l, rest', rfl, hl', hrest'⟩ := List.map_eq_cons_iff.mp hrest
                obtain ⟨o, post', rfl, ho, _⟩ := List.map_eq_cons_iff.mp hrest'
                have := opName_injective l .len hl'
                subst this
                have hmem : Operation.len ∈ pre' → opName .len ∈ pre := fun h => hpre ▸ List.mem_map.mpr ⟨_, h, rfl⟩
                refine ⟨pre', o, post', rfl, fun h => hp (hmem h), ?_⟩
                rw [he, ← ho]; rfl
            · intro c
              cases args.target_column with
              | none => exact ⟨_, rfl⟩
              | some t =>
                  simp only
                  split <;> exact ⟨_, rfl⟩

/-- **C91** with `--eval`: the text of the operations is not cut; the rows raise what the expression raises. -/
theorem transform_eval_raises_iff (lib : Library) (args : TransformArgs) {f : Str → Py Cell} (heval : args.eval = some f)
    (rows : List (List Str)) (e : PyErr) :
    transformAction lib args rows = .error e ↔
      FileFault args.column (fun i row e =>
        (row.length ≤ i ∧ e = .indexError) ∨ (∃ value, row[i]? = some value ∧ f value = .error e)) rows e := by
  have hchain : operationChain args = .ok [] := by
    unfold operationChain
    rw [heval]
  unfold transformAction
  rw [hchain]
  refine fileFault_iff args.column rows (transformLine lib args []) (fun h p w => (transformHeaders args h p, w)) _ ?_ e
  intro i line e
  unfold transformLine
  cases hl : line[i]? with
  | none =>
      have hlen : line.length ≤ i := List.getElem?_eq_none_iff.mp hl
      simp [hlen, eq_comm]
  | some v =>
      have hlen : ¬ line.length ≤ i := fun h => by rw [List.getElem?_eq_none h] at hl; simp at hl
      have hnv : newValue lib args.eval [] v = f v := by
        unfold newValue; rw [heval]
      simp only [hnv, hlen, false_and, false_or, Option.some.injEq, exists_eq_left']
      cases hfv : f v with
      | error e' =>
          constructor
          · intro h; injection h with h; rw [h]
          · intro h; injection h with h; rw [h]; rfl
      | ok c =>
          constructor
          · intro h
            exfalso
            cases ht : args.target_column with
            | none => rw [ht] at h; cases h
            | some t =>
                rw [ht] at h
                simp only at h
                change (if args.after = true then _ else _ : Py (List Cell)) = _ at h
                split at h <;> cases h
          · intro h; cases h

/-- The second row is too short: an `IndexError`, after a row which is fine. -/
example : splitAction ⟨"b".toList, "|".toList, none, none⟩ [["a".toList, "b".toList], ["x".toList, "y|z".toList], ["x".toList]] =
    .error .indexError := by
  rw [split_raises_iff]
  refine Or.inr ⟨_, _, rfl, Or.inr ⟨1, ⟨rfl, ?_⟩, ⟨[["x".toList, "y|z".toList]], ["x".toList], [], rfl, ?_, Or.inl ⟨by decide, rfl⟩⟩⟩⟩
  · intro j hj
    obtain rfl : j = 0 := by omega
    decide
  · intro y hy e'
    simp only [List.mem_singleton] at hy
    subst hy
    rintro (⟨h, _⟩ | ⟨_, _, _, h, _⟩)
    · exact absurd h (by decide)
    · exact absurd h (by decide)

example : SplitBy [','] "lower,len,upper".toList ["lower".toList, "len".toList, "upper".toList] :=
  splitBy_intercalate (l := ["lower".toList, "len".toList, "upper".toList]) (by simp) (by decide)

example : transformAction plainLibrary ⟨"a".toList, "lower,len,upper".toList, none, false, none⟩ [["a".toList], ["Ab".toList]] =
    .error .attributeError := by rfl

end Fog.Props
