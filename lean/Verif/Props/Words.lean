import Verif.Model.Words
import Verif.Lemmas.Pairwise
import Mathlib.Data.List.Chain

/-!
# C52, C53: hashtags and words
-/

namespace Fog.Props

open Words

/-! ### Slices -/

section
variable {α : Type _}

theorem slice_append_slice (s : List α) {i j k : Nat} (h1 : i ≤ j) (h2 : j ≤ k) : slice s i j ++ slice s j k = slice s i k := by
  apply List.ext_getElem?
  intro n
  simp only [slice, List.getElem?_append, List.getElem?_drop, List.getElem?_take, List.length_drop, List.length_take]
  grind

theorem slice_one (s : List α) {j : Nat} {c : α} (h : s[j]? = some c) : slice s j (j + 1) = [c] := by
  apply List.ext_getElem?
  intro n
  simp only [slice, List.getElem?_drop, List.getElem?_take]
  grind

theorem slice_cons (s : List α) {j k : Nat} {c : α} (h : s[j]? = some c) (hk : j < k) : slice s j k = c :: slice s (j + 1) k := by
  rw [← slice_append_slice s (Nat.le_succ j) hk, slice_one s h]
  rfl

theorem slice_all (s : List α) {j k : Nat} (hk : s.length ≤ k) : slice s j k = s.drop j := by
  rw [slice, List.take_of_length_le hk]

theorem slice_takeWhile (s : List α) (p : α → Bool) (j : Nat) :
    slice s j (j + ((s.drop j).takeWhile p).length) = (s.drop j).takeWhile p := by
  rw [slice, List.drop_take, Nat.add_sub_cancel_left]
  exact (List.prefix_iff_eq_take.mp (List.takeWhile_prefix p)).symm

theorem slice_append_drop (s : List α) {i j : Nat} (h : i ≤ j) : slice s i j ++ s.drop j = s.drop i := by
  rcases Nat.le_total j s.length with hj | hj
  · rw [← slice_all s (j := j) (Nat.le_refl _), slice_append_slice s h hj, slice_all s (Nat.le_refl _)]
  · rw [slice_all s hj, List.drop_eq_nil_of_le (by omega : s.length ≤ j), List.append_nil]

theorem drop_cons {s rest : List α} {i : Nat} {c : α} (h : s.drop i = c :: rest) :
    s[i]? = some c ∧ s.drop (i + 1) = rest ∧ i < s.length := by
  have h1 : s[i]? = some c := by
    have := List.getElem?_drop (xs := s) (i := i) (j := 0)
    rw [h] at this
    simpa using this.symm
  refine ⟨h1, ?_, (List.getElem?_eq_some_iff.mp h1).1⟩
  rw [← List.drop_drop, h]
  rfl

end

variable (u : Unicode)

/-- The characters of the tokens, in order. -/
def chars (ts : List Token) : List Char := ts.flatMap fun t => t.2

theorem chars_append (a b : List Token) : chars (a ++ b) = chars a ++ chars b := by simp [chars]

theorem chars_cons (a : Token) (b : List Token) : chars (a :: b) = a.2 ++ chars b := rfl

theorem chars_map (f : List Char → Kind) (l : List (List Char)) : chars (l.map fun t => (f t, t)) = l.flatten := by
  induction l with
  | nil => rfl
  | cons a l ih => rw [List.map_cons, chars_cons, ih]; rfl

/-! ### Hashtags -/

theorem hashtagLoop_spec (s : List Char) : ∀ (rest : List Char) (st : HState) (offset i : Nat), s.drop i = rest → offset < i →
    (st = .upperNext → offset + 1 < i) → i ≤ s.length →
    chars (hashtagLoop u s st offset i rest) = s.drop offset ∧ (∀ t ∈ hashtagLoop u s st offset i rest, t.2 ≠ []) := by
  have ne : ∀ {a b : Nat}, a < b → b ≤ s.length → slice s a b ≠ [] := by
    intro a b h1 h2 h
    have := congrArg List.length h
    rw [Pairwise.length_slice, List.length_nil] at this
    omega
  intro rest
  induction rest with
  | nil =>
      intro st offset i hr ho _ hl
      have : i = s.length := by
        have := congrArg List.length hr
        simp at this
        omega
      unfold hashtagLoop
      refine ⟨by simp [chars], ?_⟩
      intro t ht
      rw [List.mem_singleton] at ht
      subst ht
      simp only [ne_eq, List.drop_eq_nil_iff]
      omega
  | cons c rest ih =>
      intro st offset i hr ho hu hl
      obtain ⟨hc, hr', hi⟩ := drop_cons hr
      have cont : ∀ (st' : HState), (st' = .upperNext → offset + 1 < i + 1) →
          chars (hashtagLoop u s st' offset (i + 1) rest) = s.drop offset ∧ (∀ t ∈ hashtagLoop u s st' offset (i + 1) rest, t.2 ≠ []) :=
        fun st' h => ih st' offset (i + 1) hr' (by omega) h (by omega)
      have cut : ∀ (st' : HState) (k : Kind) (m : Nat), offset < m → m ≤ i → (st' = .upperNext → m + 1 < i + 1) →
          chars ((k, slice s offset m) :: hashtagLoop u s st' m (i + 1) rest) = s.drop offset ∧
            (∀ t ∈ (k, slice s offset m) :: hashtagLoop u s st' m (i + 1) rest, t.2 ≠ []) := by
        intro st' k m h1 h2 h3
        obtain ⟨e1, e2⟩ := ih st' m (i + 1) hr' (by omega) h3 (by omega)
        refine ⟨?_, ?_⟩
        · rw [chars_cons, e1]
          exact slice_append_drop s (by omega)
        · intro t ht
          rcases List.mem_cons.mp ht with rfl | ht
          · exact ne h1 (by omega)
          · exact e2 t ht
      cases st with
      | lower =>
          rw [hashtagLoop]
          split
          · exact cut _ _ i ho (Nat.le_refl _) (by simp)
          · split
            · exact cut _ _ i ho (Nat.le_refl _) (by simp)
            · exact cont _ (by simp)
      | upperStart =>
          rw [hashtagLoop]
          split
          · exact cont _ (by simp)
          · split
            · exact cont _ (by omega)
            · split
              · exact cut _ _ i ho (Nat.le_refl _) (by simp)
              · exact cont _ (by simp)
      | upperNext =>
          have := hu rfl
          rw [hashtagLoop]
          split
          · exact cut _ _ (i - 1) (by omega) (by omega) (by simp)
          · split
            · exact cut _ _ i ho (Nat.le_refl _) (by simp)
            · exact cont _ (by omega)
      | number =>
          rw [hashtagLoop]
          split
          · exact cont _ (by simp)
          · split
            · exact cut _ _ i ho (Nat.le_refl _) (by simp)
            · exact cut _ _ i ho (Nat.le_refl _) (by simp)

theorem hashtagLoop_kinds (hl : ∀ c, u.isLower c = true → u.isDigit c = false) (hup : ∀ c, u.isUpper c = true → u.isDigit c = false)
    (s : List Char) : ∀ (rest : List Char) (st : HState) (offset i : Nat), s.drop i = rest → offset < i →
    (st = .upperNext → offset + 1 < i) → i ≤ s.length → (∀ c ∈ slice s offset i, u.isDigit c = decide (st = .number)) →
    ∀ t ∈ hashtagLoop u s st offset i rest, (t.1 = .number ∨ t.1 = .word) ∧ ∀ c ∈ t.2, u.isDigit c = decide (t.1 = .number) := by
  intro rest
  induction rest with
  | nil =>
      intro st offset i hr ho _ hle hs t ht
      have : i = s.length := by
        have := congrArg List.length hr
        simp at this
        omega
      unfold hashtagLoop at ht
      rw [List.mem_singleton] at ht
      subst ht
      rw [slice_all s (by omega)] at hs
      by_cases hst : st = .number
      · simpa [hst] using hs
      · simpa [hst] using hs
  | cons c rest ih =>
      intro st offset i hr ho hu hle hs
      obtain ⟨hc, hr', hi⟩ := drop_cons hr
      have snoc : ∀ m, m ≤ i → slice s m (i + 1) = slice s m i ++ [c] := by
        intro m hm
        rw [← slice_append_slice s hm (Nat.le_succ i), slice_one s hc]
      have cont : ∀ (st' : HState), (st' = .upperNext → offset + 1 < i + 1) → decide (st' = .number) = decide (st = .number) →
          u.isDigit c = decide (st' = .number) → ∀ t ∈ hashtagLoop u s st' offset (i + 1) rest,
          (t.1 = .number ∨ t.1 = .word) ∧ ∀ c ∈ t.2, u.isDigit c = decide (t.1 = .number) := by
        intro st' h h1 h2
        refine ih st' offset (i + 1) hr' (by omega) h (by omega) ?_
        intro x hx
        rw [snoc offset (by omega)] at hx
        rcases List.mem_append.mp hx with hx | hx
        · rw [hs x hx, h1]
        · rw [List.mem_singleton] at hx
          rw [hx, h2]
      have cut : ∀ (st' : HState) (k : Kind) (m : Nat), (k = .number ∨ k = .word) → decide (st = .number) = decide (k = .number) →
          offset < m → m ≤ i → (m = i ∨ decide (st' = .number) = decide (st = .number)) → (st' = .upperNext → m + 1 < i + 1) →
          u.isDigit c = decide (st' = .number) →
          ∀ t ∈ (k, slice s offset m) :: hashtagLoop u s st' m (i + 1) rest,
          (t.1 = .number ∨ t.1 = .word) ∧ ∀ c ∈ t.2, u.isDigit c = decide (t.1 = .number) := by
        intro st' k m hk hkst h1 h2 hm h3 h4 t ht
        rcases List.mem_cons.mp ht with rfl | ht
        · refine ⟨hk, ?_⟩
          intro x hx
          rw [hs x ?_, hkst]
          rw [← slice_append_slice s (by omega : offset ≤ m) h2]
          exact List.mem_append_left _ hx
        · refine ih st' m (i + 1) hr' (by omega) h3 (by omega) ?_ t ht
          intro x hx
          rw [snoc m h2] at hx
          rcases List.mem_append.mp hx with hx | hx
          · rcases hm with rfl | hm
            · rw [show slice s m m = [] by simp [slice]] at hx
              simp at hx
            · rw [hm, ← hs x ?_]
              rw [← slice_append_slice s (by omega : offset ≤ m) h2]
              exact List.mem_append_right _ hx
          · rw [List.mem_singleton] at hx
            rw [hx, h4]
      cases st with
      | lower =>
          rw [hashtagLoop]
          split
          · next h => exact cut _ _ i (by simp) (by simp) ho (Nat.le_refl _) (by simp) (by simp) (by simp [hup c h])
          · split
            · next h => exact cut _ _ i (by simp) (by simp) ho (Nat.le_refl _) (by simp) (by simp) (by simp [h])
            · next h => exact cont _ (by simp) (by simp) (by simpa using h)
      | upperStart =>
          rw [hashtagLoop]
          split
          · next h => exact cont _ (by simp) (by simp) (by simp [hl c h])
          · split
            · next h => exact cont _ (by omega) (by simp) (by simp [hup c h])
            · split
              · next h => exact cut _ _ i (by simp) (by simp) ho (Nat.le_refl _) (by simp) (by simp) (by simp [h])
              · next h => exact cont _ (by simp) (by simp) (by simpa using h)
      | upperNext =>
          have := hu rfl
          rw [hashtagLoop]
          split
          · next h => exact cut _ _ (i - 1) (by simp) (by simp) (by omega) (by omega) (by simp) (by simp) (by simp [hl c h])
          · split
            · next h => exact cut _ _ i (by simp) (by simp) ho (Nat.le_refl _) (by simp) (by simp) (by simp [h])
            · next h => exact cont _ (by omega) (by simp) (by simpa using h)
      | number =>
          rw [hashtagLoop]
          split
          · next h => exact cont _ (by simp) (by simp) (by simp [h])
          · next h =>
              split
              · exact cut _ _ i (by simp) (by simp) ho (Nat.le_refl _) (by simp) (by simp) (by simpa using h)
              · exact cut _ _ i (by simp) (by simp) ho (Nat.le_refl _) (by simp) (by simp) (by simpa using h)

/-- **C52**: the pieces of a hashtag of at least two characters are not empty and concatenate to the hashtag without its sigil. -/
theorem split_hashtag_lossless {s : List Char} (h : 2 ≤ s.length) :
    ∃ ts, splitHashtag u s = .ok ts ∧ (ts.flatMap fun t => t.2) = s.drop 1 ∧ ∀ t ∈ ts, t.2 ≠ [] := by
  unfold splitHashtag
  rw [List.getElem?_eq_getElem (by omega : 1 < s.length)]
  refine ⟨_, rfl, ?_⟩
  exact hashtagLoop_spec u s _ _ 1 2 rfl (by omega) (by split <;> simp) h

/-- **C52**: the pieces which are numbers are made of digits, the pieces which are words have no digit. -/
theorem split_hashtag_kinds (hl : ∀ c, u.isLower c = true → u.isDigit c = false) (hup : ∀ c, u.isUpper c = true → u.isDigit c = false)
    {s : List Char} {ts : List Token} (h : splitHashtag u s = .ok ts) :
    ∀ t ∈ ts, (t.1 = .number ∨ t.1 = .word) ∧ ∀ c ∈ t.2, u.isDigit c = decide (t.1 = .number) := by
  unfold splitHashtag at h
  cases hc : s[1]? with
  | none => rw [hc] at h; simp at h
  | some c =>
      rw [hc] at h
      simp only [Except.ok.injEq] at h
      subst h
      have hlt := (List.getElem?_eq_some_iff.mp hc).1
      refine hashtagLoop_kinds u hl hup s _ _ 1 2 rfl (by omega) (by split <;> simp) (by omega) ?_
      rw [slice_one s hc]
      intro x hx
      rw [List.mem_singleton] at hx
      subst hx
      by_cases hd : u.isDigit x = true <;> simp [hd]

/-- A hashtag of one character makes it raise. -/
theorem split_hashtag_short (c : Char) : splitHashtag u [c] = .error .indexError := rfl

/-! ### Words -/

/-- Spans which increase and are within a length. -/
def Spans (len : Nat) : Nat → List (Nat × Nat) → Prop
  | _, [] => True
  | last, (a, b) :: ms => last ≤ a ∧ a ≤ b ∧ b ≤ len ∧ Spans len b ms

/-- What is assumed of the tables and of the regular expressions. -/
structure Sound : Prop where
  point_upper : u.isUpper '.' = false
  point_digit : u.isDigit '.' = false
  comma_digit : u.isDigit ',' = false
  alnum : ∀ c, u.isAlpha c = true → u.isAlnum c = true
  smiley : ∀ s m, u.smiley s = some m → 1 ≤ m ∧ m ≤ s.length
  emojis : ∀ s, Spans s.length 0 (u.emojis s)

/-- The characters which must be in a token: all but white space, control characters, hyphens and the sigils of hashtags. -/
def visible (c : Char) : Bool := !(u.isSpace c || isJunk c || c == '-' || c == '#' || c == '$')

/-- No upper case letter is followed by a point then by what continues a word. -/
def NoAcronym (s : List Char) : Prop :=
  ∀ i c d, s[i]? = some c → s[i + 1]? = some '.' → s[i + 2]? = some d → u.isUpper c = true →
    u.isAlnum d = false ∧ d ∉ IDENTIFIER_PARTS ∧ d ≠ '·'

theorem withHolesFrom_chars (s : List Char) : ∀ (ms : List (Nat × Nat)) (last : Nat), Spans s.length last ms →
    chars (withHolesFrom s ms last) = s.drop last := by
  have single : ∀ l : List Char, chars (l.map fun c => (Kind.punct, [c])) = l := by
    intro l
    induction l with
    | nil => rfl
    | cons c l ih => rw [List.map_cons, chars_cons, ih]; rfl
  intro ms
  induction ms with
  | nil => intro last _; exact single _
  | cons m ms ih =>
      obtain ⟨a, b⟩ := m
      intro last h
      obtain ⟨h1, h2, _, h4⟩ := h
      rw [withHolesFrom, chars_append, chars_cons, ih b h4, single]
      change slice s last a ++ (slice s a b ++ s.drop b) = _
      rw [slice_append_drop s h2, slice_append_drop s h1]

theorem joinEmojis_chars : ∀ ts : List Token, chars (joinEmojis ts) = chars ts
  | [] => rfl
  | [t] => rfl
  | t :: t' :: ts => by
      rw [joinEmojis]
      split
      · rw [chars_cons, chars_cons, chars_cons, joinEmojis_chars ts]
        simp
      · rw [chars_cons, chars_cons, joinEmojis_chars (t' :: ts)]

theorem punctEmoji_chars (hu : Sound u) (s : List Char) : chars (punctEmoji u s) = s := by
  unfold punctEmoji withHoles
  rw [joinEmojis_chars, withHolesFrom_chars s _ 0 (hu.emojis s), List.drop_zero]

theorem splitOn_flatten (sep : Char) (s : List Char) : ∀ cur, (splitOn sep cur s).flatten = cur ++ s.filter (· ≠ sep) := by
  induction s with
  | nil => intro cur; simp [splitOn]
  | cons c s ih =>
      intro cur
      rw [splitOn]
      by_cases h : c = sep
      · simp [h, ih]
      · simp [h, ih]

theorem splitOn_length (sep : Char) (s : List Char) : ∀ cur, (splitOn sep cur s).length = s.count sep + 1 := by
  induction s with
  | nil => intro cur; simp [splitOn]
  | cons c s ih =>
      intro cur
      rw [splitOn]
      by_cases h : c = sep
      · simp [h, ih]
      · simp [h, ih]

theorem pointSplit_flatten (s : List Char) : ∀ cur, (pointSplit cur s).flatten = cur ++ s := by
  induction s with
  | nil => intro cur; simp [pointSplit]
  | cons c s ih =>
      intro cur
      rw [pointSplit]
      by_cases h : c = '.'
      · simp [h, ih]
      · simp [h, ih]

theorem pointSplit_ne_nil (s : List Char) : ∀ cur, pointSplit cur s ≠ [] := by
  induction s with
  | nil => intro cur; simp [pointSplit]
  | cons c s ih =>
      intro cur
      rw [pointSplit]
      split
      · simp
      · exact ih _

theorem pointSplit_last (s : List Char) : ∀ cur, s.getLast? = some '.' → (pointSplit cur s).getLast? = some [] := by
  induction s with
  | nil => intro cur h; simp at h
  | cons c s ih =>
      intro cur h
      rw [pointSplit]
      cases s with
      | nil =>
          simp only [List.getLast?_singleton, Option.some.injEq] at h
          simp [h, pointSplit]
      | cons d s =>
          rw [List.getLast?_cons_cons] at h
          split
          · obtain ⟨x, xs, hx⟩ : ∃ x xs, pointSplit [] (d :: s) = x :: xs := by
              cases hp : pointSplit [] (d :: s) with
              | nil => exact absurd hp (pointSplit_ne_nil _ _)
              | cons x xs => exact ⟨x, xs, rfl⟩
            have := ih [] h
            rw [hx] at this
            rw [hx, List.getLast?_cons_cons, List.getLast?_cons_cons, this]
          · exact ih _ h

theorem pointSplit_dropLast {s : List Char} (h : s.getLast? = some '.') : (pointSplit [] s).dropLast.flatten = s := by
  have h1 := pointSplit_flatten s []
  have h2 := pointSplit_last s [] h
  have h3 := List.dropLast_append_getLast? _ h2
  rw [← h3] at h1
  simpa using h1

theorem regular_chars (split : Bool) (kind : Kind) {before : List Char}
    (hh : kind = .hashtag → 2 ≤ before.length ∧ ∀ c, before.head? = some c → visible u c = false) :
    ∃ ts, regular u split kind before = .ok ts ∧ (chars ts).filter (visible u) = before.filter (visible u) := by
  have whole : (chars [(kind, before)]).filter (visible u) = before.filter (visible u) := by simp [chars]
  have hyphen : (before.filter (· ≠ '-')).filter (visible u) = before.filter (visible u) := by
    rw [List.filter_filter]
    apply List.filter_congr
    intro c _
    by_cases h : c = '-'
    · simp [h, visible]
    · simp [h]
  unfold regular
  simp only
  split
  · split
    · refine ⟨_, rfl, ?_⟩
      rw [← hyphen]
      congr 1
      have := splitOn_flatten '-' before []
      rw [List.nil_append] at this
      rw [← this]
      exact chars_map (fun _ => kind) _
    · split
      · next h1 =>
          have hl := splitOn_length '-' before []
          rw [h1] at hl
          have hf := splitOn_flatten '-' before []
          rw [List.nil_append] at hf
          match hs : splitOn '-' [] before with
          | [] => rw [hs] at hl; simp at hl
          | [_] => rw [hs] at hl; simp at hl
          | _ :: _ :: _ :: _ => rw [hs] at hl; simp at hl
          | [a, b] =>
              simp only
              split
              · refine ⟨_, rfl, ?_⟩
                rw [← hyphen]
                congr 1
                rw [← hf, hs]
                simp [chars]
              · exact ⟨_, rfl, whole⟩
      · exact ⟨_, rfl, whole⟩
  · split
    · next h2 =>
        obtain ⟨hl, hv⟩ := hh h2.1
        obtain ⟨ts, h1, h3, _⟩ := split_hashtag_lossless u hl
        refine ⟨ts, h1, ?_⟩
        change (ts.flatMap fun t => t.2).filter _ = _
        rw [h3]
        cases before with
        | nil => simp at hl
        | cons c before =>
            have := hv c rfl
            simp [List.filter_cons, this]
    · exact ⟨_, rfl, whole⟩

theorem finish_chars (split : Bool) (s : List Char) (kind : Kind) {i j : Nat} (hij : i < j) (hj : j ≤ s.length)
    (hh : kind = .hashtag → 2 ≤ (slice s i j).length ∧ ∀ c, (slice s i j).head? = some c → visible u c = false) :
    ∃ ts next, finish u split s kind (slice s i j) i j = .ok (ts, next) ∧ j ≤ next ∧ next ≤ s.length ∧
      (chars ts).filter (visible u) = (slice s i next).filter (visible u) := by
  have reg : ∃ ts next, (do
      let ts ← regular u split kind (slice s i j)
      pure (ts, j) : Py (List Token × Nat)) = .ok (ts, next) ∧ j ≤ next ∧ next ≤ s.length ∧
      (chars ts).filter (visible u) = (slice s i next).filter (visible u) := by
    obtain ⟨ts, h1, h2⟩ := regular_chars u split kind hh
    exact ⟨ts, j, by rw [h1]; rfl, Nat.le_refl _, hj, h2⟩
  unfold finish
  simp only
  cases hq : s[j]? with
  | none => exact reg
  | some q =>
      have hjl := (List.getElem?_eq_some_iff.mp hq).1
      generalize hk : j + 1 + ((s.drop (j + 1)).takeWhile fun n => u.isAlnum n || SIGILS.contains n).length = k
      have hkj : j + 1 ≤ k := by omega
      have hkl : k ≤ s.length := by
        have := (List.takeWhile_prefix (fun n => u.isAlnum n || SIGILS.contains n) (l := s.drop (j + 1))).length_le
        rw [List.length_drop] at this
        omega
      have e1 : slice s i (j + 1) = slice s i j ++ [q] := by
        rw [← slice_append_slice s (by omega : i ≤ j) (Nat.le_succ j), slice_one s hq]
      have e2 : slice s i k = slice s i j ++ q :: slice s (j + 1) k := by
        rw [← slice_append_slice s (by omega : i ≤ j) (by omega : j ≤ k), slice_cons s hq (by omega)]
      simp only
      split
      · cases ha : slice s (j + 1) k with
        | nil =>
            refine ⟨_, _, rfl, by omega, hkl, ?_⟩
            rw [e2, ha]
            simp [chars]
        | cons a as =>
            rw [ha] at e2
            simp only
            split
            · refine ⟨_, _, rfl, by omega, by omega, ?_⟩
              rw [e1]; simp [chars]
            · split
              · refine ⟨_, _, rfl, by omega, hkl, ?_⟩
                rw [e2]; simp [chars]
              · split
                · refine ⟨_, _, rfl, by omega, hkl, ?_⟩
                  simp [chars]
                · split
                  · refine ⟨_, _, rfl, by omega, hkl, ?_⟩
                    rw [e2]; simp [chars]
                  · refine ⟨_, _, rfl, by omega, by omega, ?_⟩
                    rw [e1]; simp [chars]
      · split
        · next h =>
            refine ⟨_, _, rfl, by omega, by omega, ?_⟩
            rw [e1, h.2.1]; simp [chars]
        · exact reg

theorem emit_chars (split : Bool) (s : List Char) (kind : Kind) (acronym : Bool) {i j : Nat} (hij : i < j) (hj : j ≤ s.length)
    (hh : kind = .hashtag → 2 ≤ (slice s i j).length ∧ ∀ c, (slice s i j).head? = some c → c = '#' ∨ c = '$')
    (ha : acronym = true → (slice s i j).getLast? = some '.') :
    ∃ ts next, emit u split s kind acronym i j = .ok (ts, next) ∧ j ≤ next ∧ next ≤ s.length ∧
      (chars ts).filter (visible u) = (slice s i next).filter (visible u) := by
  have hi : i < s.length := by omega
  have hq : s[i]? = some s[i] := List.getElem?_eq_getElem hi
  have hs := slice_cons s hq hij
  have hap : ('#' ∉ APOSTROPHES ∧ '$' ∉ APOSTROPHES) := by decide
  unfold emit
  rw [hs]
  simp only
  by_cases hquoted : s[i] ∈ APOSTROPHES ∧ u.lower (slice s (i + 1) j) ∉ ENGLISH_ARCHAIC_CONTRACTIONS
  · simp only [hquoted, if_true, true_and, not_false_eq_true]
    by_cases hij' : i + 1 = j
    · simp only [hij', if_true]
      refine ⟨_, _, rfl, Nat.le_refl _, hj, ?_⟩
      rw [← hij', slice_one s hq]
      simp [chars]
    · simp only [hij', if_false]
      cases acronym with
      | true =>
          have hlast := ha rfl
          have hne : slice s (i + 1) j ≠ [] := by
            intro h
            have := congrArg List.length h
            rw [Pairwise.length_slice, List.length_nil] at this
            omega
          rw [hs] at hlast
          have hlast' : (slice s (i + 1) j).getLast? = some '.' := by
            cases hsl : slice s (i + 1) j with
            | nil => exact absurd hsl hne
            | cons a b => rw [hsl, List.getLast?_cons_cons] at hlast; exact hlast
          simp only [if_true]
          split
          · refine ⟨_, _, rfl, Nat.le_refl _, hj, ?_⟩
            rw [hs]
            simp [chars]
          · refine ⟨_, _, rfl, Nat.le_refl _, hj, ?_⟩
            rw [hs, chars_append]
            have : chars ((pointSplit [] (slice s (i + 1) j)).dropLast.map
                (fun t => (if t ≠ ['.'] then Kind.word else Kind.punct, t))) = slice s (i + 1) j := by
              rw [chars_map (fun t => if t ≠ ['.'] then Kind.word else Kind.punct), pointSplit_dropLast hlast']
            rw [this]
            rfl
      | false =>
          simp only [Bool.false_eq_true, if_false]
          have hnot : kind ≠ .hashtag := by
            intro h
            rcases (hh h).2 s[i] (by rw [hs]; rfl) with h' | h'
            · rw [h'] at hquoted; exact hap.1 hquoted.1
            · rw [h'] at hquoted; exact hap.2 hquoted.1
          obtain ⟨ts, next, h1, h2, h3, h4⟩ := finish_chars u split s kind (i := i + 1) (j := j) (by omega) hj (fun h => absurd h hnot)
          rw [h1]
          refine ⟨_, _, rfl, h2, h3, ?_⟩
          rw [chars_append, List.filter_append, h4, slice_cons s hq (by omega), ← List.filter_append]
          rfl
  · simp only [hquoted, if_false, false_and, List.nil_append]
    rw [← hs]
    cases acronym with
    | true =>
        simp only [if_true]
        split
        · refine ⟨_, _, rfl, Nat.le_refl _, hj, ?_⟩
          simp [chars]
        · refine ⟨_, _, rfl, Nat.le_refl _, hj, ?_⟩
          have : chars ((pointSplit [] (slice s i j)).dropLast.map
              (fun t => (if t ≠ ['.'] then Kind.word else Kind.punct, t))) = slice s i j := by
            rw [chars_map (fun t => if t ≠ ['.'] then Kind.word else Kind.punct), pointSplit_dropLast (ha rfl)]
          rw [this]
    | false =>
        simp only [Bool.false_eq_true, if_false]
        obtain ⟨ts, next, h1, h2, h3, h4⟩ := finish_chars u split s kind hij hj (by
          intro h
          refine ⟨(hh h).1, fun c hc => ?_⟩
          rcases (hh h).2 c hc with rfl | rfl <;> simp [visible])
        rw [h1]
        exact ⟨_, _, rfl, h2, h3, h4⟩

theorem numberLoop_bounds (i : Nat) : ∀ (rest : List Char) (j : Nat) (last : Char) (d : Option Char) (kind : Kind),
    i + 1 ≤ j → (last ∈ DECIMALS → i + 2 ≤ j) → kind ≠ .hashtag →
    i + 1 ≤ (numberLoop u rest j last d kind).1 ∧ (numberLoop u rest j last d kind).1 ≤ j + rest.length ∧
      (numberLoop u rest j last d kind).2.2 ≠ .hashtag := by
  intro rest
  induction rest with
  | nil => intro j last d kind h _ hk; simp [numberLoop, h, hk]
  | cons n rest ih =>
      intro j last d kind h hl hk
      rw [numberLoop]
      have next : ∀ d', i + 1 ≤ (numberLoop u rest (j + 1) n d' .number).1 ∧
          (numberLoop u rest (j + 1) n d' .number).1 ≤ j + (n :: rest).length ∧ (numberLoop u rest (j + 1) n d' .number).2.2 ≠ .hashtag := by
        intro d'
        obtain ⟨a, b, c⟩ := ih (j + 1) n d' .number (by omega) (by omega) (by simp)
        exact ⟨a, by simp only [List.length_cons]; omega, c⟩
      split
      · exact ⟨h, by simp, hk⟩
      · split
        · split
          · next hd => have := hl hd; exact ⟨by simp only; omega, by simp only; omega, hk⟩
          · split
            · exact ⟨h, by simp, by simp⟩
            · split
              · exact ⟨h, by simp, hk⟩
              · split
                · exact ⟨h, by simp, hk⟩
                · exact next _
        · exact next _

theorem wordLoop_bounds (hu : Sound u) (s : List Char) (hs : NoAcronym u s) (whole : Bool) : ∀ (rest : List Char) (j : Nat) (prev : Char),
    s.drop j = rest → 1 ≤ j → s[j - 1]? = some prev →
    j ≤ (wordLoop u whole rest j prev false).1 ∧ (wordLoop u whole rest j prev false).1 ≤ j + rest.length ∧
      ((wordLoop u whole rest j prev false).2 = true → j < (wordLoop u whole rest j prev false).1 ∧
        s[(wordLoop u whole rest j prev false).1 - 1]? = some '.') := by
  intro rest
  induction rest with
  | nil => intro j prev _ _ _; simp [wordLoop]
  | cons n rest ih =>
      intro j prev hr h1 hp
      obtain ⟨hn, hr', hlt⟩ := drop_cons hr
      have stop : j ≤ j ∧ j ≤ j + (n :: rest).length ∧ (false = true → j < j ∧ s[j - 1]? = some '.') := by simp
      have next : j ≤ (wordLoop u whole rest (j + 1) n false).1 ∧ (wordLoop u whole rest (j + 1) n false).1 ≤ j + (n :: rest).length ∧
          ((wordLoop u whole rest (j + 1) n false).2 = true → j < (wordLoop u whole rest (j + 1) n false).1 ∧
            s[(wordLoop u whole rest (j + 1) n false).1 - 1]? = some '.') := by
        obtain ⟨a, b, c⟩ := ih (j + 1) n hr' (by omega) (by simpa using hn)
        refine ⟨by omega, by simp only [List.length_cons]; omega, fun h => ?_⟩
        obtain ⟨c1, c2⟩ := c h
        exact ⟨by omega, c2⟩
      rw [wordLoop.eq_def]
      simp only
      split
      · exact stop
      · split
        · split
          · exact stop
          · exact next
        · next hw =>
          split
          · split
            · exact stop
            · split
              · exact stop
              · exact next
          · split
            · split
              · next hdot =>
                  obtain ⟨rfl, hup⟩ := hdot
                  have hstop : wordLoop u whole rest (j + 1) '.' true = (j + 1, true) := by
                    cases rest with
                    | nil => rfl
                    | cons d rest =>
                        obtain ⟨hd, _, _⟩ := drop_cons hr'
                        obtain ⟨a1, a2, a3⟩ := hs (j - 1) prev d hp (by rw [show j - 1 + 1 = j by omega]; exact hn)
                          (by rw [show j - 1 + 2 = j + 1 by omega]; exact hd) hup
                        rw [wordLoop.eq_def]
                        simp only [hw, a1, a2, a3, hu.point_upper, or_false, Bool.false_eq_true, if_false, and_false, not_false_eq_true,
                          if_true, ite_self]
                  rw [hstop]
                  refine ⟨by simp, by simp, fun _ => ⟨by simp, ?_⟩⟩
                  simpa using hn
              · exact stop
            · exact next

theorem takeWhile_le (s : List Char) (p : Char → Bool) (j : Nat) (h : j ≤ s.length) : j + ((s.drop j).takeWhile p).length ≤ s.length := by
  have := (List.takeWhile_prefix p (l := s.drop j)).length_le
  rw [List.length_drop] at this
  omega

theorem number_bounds (hu : Sound u) (s : List Char) {i : Nat} (c : Char) (hi : i < s.length) :
    i + 1 ≤ (number u s i c).1 ∧ (number u s i c).1 ≤ s.length ∧ (number u s i c).2.2 ≠ .hashtag := by
  unfold number
  split
  · next hd =>
      obtain ⟨a, b, d⟩ := numberLoop_bounds u i (s.drop (i + 1)) (i + 1) c none .punct (Nat.le_refl _) (by
        intro hdec
        exfalso
        simp only [DECIMALS, List.mem_cons, List.not_mem_nil, or_false] at hdec
        rcases hdec with rfl | rfl
        · rcases hd with hd | hd
          · rw [hu.point_digit] at hd; simp at hd
          · exact absurd hd (by decide)
        · rcases hd with hd | hd
          · rw [hu.comma_digit] at hd; simp at hd
          · exact absurd hd (by decide)) (by simp)
      rw [List.length_drop] at b
      generalize numberLoop u (s.drop (i + 1)) (i + 1) c none .punct = n at a b d
      simp only
      split
      · exact ⟨by simp only; omega, by simp only; omega, d⟩
      · exact ⟨a, by omega, d⟩
  · exact ⟨Nat.le_refl _, by simp only; omega, by simp⟩

theorem stepWord_chars (hu : Sound u) (split : Bool) {s : List Char} (hs : NoAcronym u s) {i : Nat} (c : Char) (hi : i < s.length) :
    ∃ ts next, stepWord u split s i c = .ok (ts, next) ∧ i < next ∧ next ≤ s.length ∧
      (chars ts).filter (visible u) = (slice s i next).filter (visible u) := by
  unfold stepWord
  obtain ⟨b1, b2, b3⟩ := number_bounds u hu s c hi
  generalize number u s i c = n at b1 b2 b3
  simp only
  split
  · obtain ⟨ts, next, h1, h2, h3, h4⟩ := emit_chars u split s n.2.2 false (i := i) (j := n.1) (by omega) b2
      (fun h => absurd h b3) (by simp)
    exact ⟨ts, next, h1, by omega, h3, h4⟩
  · generalize slice s i (i + 64) = lookahead
    have hprev : s[n.1 - 1]? = some (s[n.1 - 1]?.getD c) := by
      rw [List.getElem?_eq_getElem (by omega)]
      rfl
    obtain ⟨w1, w2, w3⟩ := wordLoop_bounds u hu s hs (startsAsUrl lookahead || u.email lookahead) (s.drop n.1) n.1
      (s[n.1 - 1]?.getD c) rfl (by omega) hprev
    generalize wordLoop u (startsAsUrl lookahead || u.email lookahead) (s.drop n.1) n.1 (s[n.1 - 1]?.getD c) false = w at w1 w2 w3
    rw [List.length_drop] at w2
    obtain ⟨ts, next, h1, h2, h3, h4⟩ := emit_chars u split s
      (if startsAsUrl lookahead = true then Kind.url else if u.email lookahead = true then .email else n.2.2)
      w.2 (i := i) (j := w.1) (by omega) (by omega) (by
        intro h
        split at h
        · simp at h
        · split at h
          · simp at h
          · exact absurd h b3) (by
        intro h
        obtain ⟨h5, h6⟩ := w3 h
        rw [← slice_append_slice s (by omega : i ≤ w.1 - 1) (by omega : w.1 - 1 ≤ w.1)]
        have := slice_one s h6
        rw [show w.1 - 1 + 1 = w.1 by omega] at this
        rw [this]
        simp)
    exact ⟨ts, next, h1, by omega, h3, h4⟩

/-- A turn of the loop does not raise, goes on by at least one character, and loses no visible character. -/
theorem step_chars (hu : Sound u) (split : Bool) {s : List Char} (hs : NoAcronym u s) {i : Nat} {c : Char} (hc : s[i]? = some c) :
    ∃ ts next, step u split s i c = .ok (ts, next) ∧ i < next ∧ next ≤ s.length ∧
      (chars ts).filter (visible u) = (slice s i next).filter (visible u) := by
  have hi := (List.getElem?_eq_some_iff.mp hc).1
  have one := slice_one s hc
  unfold step
  split
  · next h =>
      refine ⟨_, _, rfl, by omega, by omega, ?_⟩
      rw [one]
      have : visible u c = false := by
        unfold visible
        rcases h with h | h <;> simp [h]
      simp [chars, this]
  · split
    · next m hm =>
        obtain ⟨h1, h2⟩ := hu.smiley _ _ hm
        rw [Pairwise.length_slice] at h2
        refine ⟨_, _, rfl, by omega, by omega, ?_⟩
        simp [chars]
    · split
      · next hsig =>
          split
          · next hal =>
              have hle := takeWhile_le s u.isAlnum (i + 1) hi
              obtain ⟨d, hd, hda⟩ : ∃ d, s[i + 1]? = some d ∧ u.isAlpha d = true := by
                cases hd : s[i + 1]? with
                | none => rw [hd] at hal; simp at hal
                | some d => rw [hd] at hal; exact ⟨d, rfl, by simpa using hal⟩
              have hpos : 1 ≤ ((s.drop (i + 1)).takeWhile u.isAlnum).length := by
                have hdl := (List.getElem?_eq_some_iff.mp hd).1
                rw [List.drop_eq_getElem_cons hdl]
                have he : s[i + 1] = d := by
                  rw [List.getElem?_eq_getElem hdl] at hd
                  injection hd
                rw [he]
                simp [hu.alnum d hda]
              obtain ⟨ts, next, h1, h2, h3, h4⟩ := emit_chars u split s .hashtag false (i := i)
                (j := i + 1 + ((s.drop (i + 1)).takeWhile u.isAlnum).length) (by omega) hle (by
                  intro _
                  refine ⟨?_, ?_⟩
                  · rw [Pairwise.length_slice]; omega
                  · intro x hx
                    rw [slice_cons s hc (by omega)] at hx
                    simp only [List.head?_cons, Option.some.injEq] at hx
                    rw [← hx]
                    exact hsig) (by simp)
              exact ⟨ts, next, h1, by omega, h3, h4⟩
          · refine ⟨_, _, rfl, by omega, by omega, ?_⟩
            rw [one]; simp [chars]
      · split
        · split
          · have hle := takeWhile_le s isTwitter (i + 1) hi
            obtain ⟨ts, next, h1, h2, h3, h4⟩ := emit_chars u split s .mention false (i := i)
              (j := i + 1 + ((s.drop (i + 1)).takeWhile isTwitter).length) (by omega) hle (by simp) (by simp)
            exact ⟨ts, next, h1, by omega, h3, h4⟩
          · refine ⟨_, _, rfl, by omega, by omega, ?_⟩
            rw [one]; simp [chars]
        · split
          · have hle := takeWhile_le s (fun n => !(u.isSpace n || u.isAlnum n || isJunk n || n == '#' || n == '@')) (i + 1) hi
            refine ⟨_, _, rfl, by unfold punctEnd; omega, hle, ?_⟩
            rw [punctEmoji_chars u hu]
          · exact stepWord_chars u hu split hs c hi

/-- **C53** partial: the tokenizer terminates without raising, and the tokens have all the visible characters of the text in the same order.
Missing: it is false when an upper case letter and a point are inside a word, see below. -/
theorem words_lossless_partial (hu : Sound u) (split : Bool) {s : List Char} (hs : NoAcronym u s) :
    ∃ ts, Runs u split s 0 ts ∧ tokenizeRaw u split s = .ok ts ∧ (ts.flatMap fun t => t.2).filter (visible u) = s.filter (visible u) := by
  have key : ∀ (fuel i : Nat), s.length - i ≤ fuel → ∃ ts, Runs u split s i ts ∧ run u split s fuel i = .ok ts ∧
      (chars ts).filter (visible u) = (s.drop i).filter (visible u) := by
    intro fuel
    induction fuel with
    | zero =>
        intro i hi
        have hd : s.drop i = [] := List.drop_eq_nil_of_le (by omega)
        exact ⟨[], .done i (List.getElem?_eq_none (by omega)), rfl, by rw [hd]; rfl⟩
    | succ fuel ih =>
        intro i hi
        cases hc : s[i]? with
        | none =>
            have hd : s.drop i = [] := List.drop_eq_nil_of_le (List.getElem?_eq_none_iff.mp hc)
            exact ⟨[], .done i hc, by rw [run, hc]; rfl, by rw [hd]; rfl⟩
        | some c =>
            obtain ⟨ts, next, h1, h2, h3, h4⟩ := step_chars u hu split hs hc
            obtain ⟨ts', r1, r2, r3⟩ := ih next (by omega)
            refine ⟨ts ++ ts', .turn i c ts next ts' hc h1 r1, ?_, ?_⟩
            · rw [run, hc]
              simp only [h1, r2, bind, Except.bind, pure, Except.pure]
            · rw [chars_append, List.filter_append, h4, r3, ← List.filter_append, slice_append_drop s (by omega)]
  obtain ⟨ts, h1, h2, h3⟩ := key s.length 0 (by omega)
  exact ⟨ts, h1, h2, by rw [List.drop_zero] at h3; exact h3⟩

/-! ### The regular expressions -/

theorem noseThen_bounds (last : List Char) (k : Nat) (rest : List Char) {m : Nat} (h : noseThen last k rest = some m) :
    k + 1 ≤ m ∧ m ≤ k + rest.length := by
  cases rest with
  | nil => simp [noseThen] at h
  | cons n rest =>
      rw [noseThen] at h
      have one : ∀ {m}, (if n ∈ last then some (k + 1) else none) = some m → k + 1 ≤ m ∧ m ≤ k + (n :: rest).length := by
        intro m hm
        split at hm
        · simp only [Option.some.injEq] at hm
          simp only [List.length_cons]
          omega
        · simp at hm
      split at h
      · next x hx =>
          split at hx
          · cases rest with
            | nil => simp at hx
            | cons y rest =>
                split at h
                · simp only [Option.some.injEq] at h
                  simp only [List.length_cons]
                  omega
                · exact one h
          · simp at hx
      · exact one h

theorem orElse_cases {a b : Option Nat} {m : Nat} (h : (a <|> b) = some m) : a = some m ∨ b = some m := by
  cases a with
  | none => exact Or.inr h
  | some x => exact Or.inl h

theorem smileyRe_bounds (s : List Char) (m : Nat) (h : smileyRe s = some m) : 1 ≤ m ∧ m ≤ s.length := by
  unfold smileyRe at h
  simp only at h
  replace h := orElse_cases h
  rcases h with h | h
  · split at h
    · next hd =>
        simp only [Option.some.injEq] at h
        have := (List.getElem?_eq_some_iff.mp hd.2).1
        omega
    · simp at h
  replace h := orElse_cases h
  rcases h with h | h
  · split at h
    · next rest =>
        split at h
        · simp only [Option.some.injEq] at h
          have := (List.takeWhile_prefix (fun c => c == '-') (l := rest)).length_le
          simp only [List.length_cons]
          omega
        · simp at h
    · simp at h
  replace h := orElse_cases h
  rcases h with h | h
  · generalize hhat : (match s with
      | c :: _ => if c = '<' ∨ c = '>' then 1 else 0
      | [] => 0) = hat at h
    split at h
    · next c rest hd =>
        split at h
        · have := noseThen_bounds _ _ _ h
          have hl := congrArg List.length hd
          rw [List.length_drop, List.length_cons] at hl
          omega
        · simp at h
    · simp at h
  replace h := orElse_cases h
  rcases h with h | h
  · split at h
    · next c rest =>
        split at h
        · have := noseThen_bounds _ _ _ h
          simp only [List.length_cons]
          omega
        · simp at h
    · simp at h
  replace h := orElse_cases h
  rcases h with h | h
  · split at h
    · split at h
      · simp only [Option.some.injEq] at h
        simp only [List.length_cons]
        omega
      · simp at h
    · simp at h
  · split at h
    · simp only [Option.some.injEq] at h
      simp only [List.length_cons]
      omega
    · simp at h

/-- Tables for ASCII, with the regular expressions of the code, without emojis. -/
def asciiTable : Unicode where
  isSpace := Char.isWhitespace
  isAlnum := Char.isAlphanum
  isAlpha := Char.isAlpha
  isDigit := Char.isDigit
  isUpper := Char.isUpper
  isLower := Char.isLower
  lower := List.map Char.toLower
  smiley := smileyRe
  emojis := fun _ => []
  email := emailRe
  consonant := consonantRe

theorem asciiTable_sound : Sound asciiTable where
  point_upper := rfl
  point_digit := rfl
  comma_digit := rfl
  alnum := by
    intro c h
    change (c.isAlpha || c.isDigit) = true
    change c.isAlpha = true at h
    rw [h]; rfl
  smiley := smileyRe_bounds
  emojis := fun _ => trivial

/-- **C53** is false: after a point which follows an upper case letter, the end of the word is lost. -/
theorem words_acronym_lost : tokenizeRaw asciiTable false "A.Hello you".toList =
    .ok [(.word, "A".toList), (.punct, ".".toList), (.word, "you".toList)] := by decide +kernel

/-- A token may be empty. -/
theorem words_empty_token : tokenizeRaw asciiTable false "a-t-!".toList =
    .ok [(.word, "a".toList), (.word, "t".toList), (.word, []), (.punct, "!".toList)] := by decide +kernel

/-- A lone hyphen before a point is a number. -/
theorem words_hyphen_number : tokenizeRaw asciiTable false "-.".toList = .ok [(.number, "-".toList), (.punct, ".".toList)] := by
  decide +kernel

example : tokenizeRaw asciiTable true "It's 3.5 for #HelloWorld23, isn't it @bob? :)".toList =
    .ok [(.word, "It".toList), (.word, "'s".toList), (.number, "3.5".toList), (.word, "for".toList), (.word, "Hello".toList),
      (.word, "World".toList), (.number, "23".toList), (.punct, ",".toList), (.word, "isn't".toList), (.word, "it".toList),
      (.mention, "@bob".toList), (.punct, "?".toList), (.smiley, ":)".toList)] := by decide +kernel

example : ∃ ts, tokenizeRaw asciiTable true "Mr. X. isn't 5 feet tall".toList = .ok ts ∧
    (ts.flatMap fun t => t.2).filter (visible asciiTable) = "Mr.X.isn't5feettall".toList := by
  have hs : NoAcronym asciiTable "Mr. X. isn't 5 feet tall".toList := by
    intro i c d h1 h2 h3 h4
    have key : ∀ i : Fin 24, ("Mr. X. isn't 5 feet tall".toList[i.val]?.any asciiTable.isUpper &&
        decide ("Mr. X. isn't 5 feet tall".toList[i.val + 1]? = some '.')) = true →
        "Mr. X. isn't 5 feet tall".toList[i.val + 2]?.all (fun d => !asciiTable.isAlnum d && !IDENTIFIER_PARTS.contains d && d != '·') = true := by
      decide +kernel
    have hi : i < 24 := (List.getElem?_eq_some_iff.mp h1).1
    have := key ⟨i, hi⟩ (by simp only [h1, h2]; simp [h4])
    simp only [h3] at this
    simpa [and_assoc] using this
  obtain ⟨ts, _, h2, h3⟩ := words_lossless_partial asciiTable asciiTable_sound true hs
  exact ⟨ts, h2, by rw [h3]; decide +kernel⟩

/-! ### C67: options -/

/-- **C67**: a token which is yielded comes from a token of a kept type; words have an accepted length; nothing yielded is in the stoplist. -/
theorem word_options (unidecode : List Char → List Char) (split : Bool) (o : Options) {s : List Char} {ts : List Token}
    (h : tokenize u unidecode split o s = .ok ts) : ∃ raw, tokenizeRaw u split s = .ok raw ∧ ∀ t ∈ ts,
      (∃ t' ∈ raw, (∀ k, o.keep = some k → t'.1 ∈ k) ∧ (∀ d, o.drop = some d → t'.1 ∉ d) ∧
        (t.1 = t'.1 ∨ (t.1 = .word ∧ ((t'.1 = .mention ∧ o.mentions_as_words = true) ∨ (t'.1 = .hashtag ∧ o.hashtags_as_words = true))))) ∧
      (t.1 = .word → (∀ m, o.min_word_length = some m → m ≤ t.2.length) ∧ ∀ m, o.max_word_length = some m → t.2.length ≤ m) ∧
      ∀ l, o.stoplist = some l → t.2 ∉ l := by
  unfold tokenize at h
  cases hr : tokenizeRaw u split s with
  | error e => rw [hr] at h; simp [bind, Except.bind] at h
  | ok raw =>
      rw [hr] at h
      simp only [bind, Except.bind, pure, Except.pure, Except.ok.injEq] at h
      subst h
      refine ⟨raw, rfl, ?_⟩
      intro t ht
      obtain ⟨t', ht', hf⟩ := List.mem_filterMap.mp ht
      unfold filterToken at hf
      split at hf
      · simp at hf
      next hkeep =>
      split at hf
      · simp at hf
      next hdrop =>
      simp only at hf
      generalize hx : (if t'.1 = .mention then
          if o.mentions_as_words = true then (Kind.word, (if o.normalize_mentions = true then u.lower t'.2 else t'.2).drop 1)
          else (t'.1, if o.normalize_mentions = true then u.lower t'.2 else t'.2)
        else if t'.1 = .hashtag then
          if o.hashtags_as_words = true then (Kind.word, (if o.normalize_hashtags = true then unidecode (u.lower t'.2) else t'.2).drop 1)
          else (t'.1, if o.normalize_hashtags = true then unidecode (u.lower t'.2) else t'.2)
        else t' : Token) = x at hf
      have hx1 : x.1 = t'.1 ∨ (x.1 = .word ∧ ((t'.1 = .mention ∧ o.mentions_as_words = true) ∨
          (t'.1 = .hashtag ∧ o.hashtags_as_words = true))) := by
        rw [← hx]
        split
        · next hm =>
            split
            · next ha => exact Or.inr ⟨rfl, Or.inl ⟨hm, ha⟩⟩
            · exact Or.inl rfl
        · split
          · next hm =>
              split
              · next ha => exact Or.inr ⟨rfl, Or.inr ⟨hm, ha⟩⟩
              · exact Or.inl rfl
          · exact Or.inl rfl
      have hfrom : ∀ y : Token, y.1 = x.1 → ∃ t' ∈ raw, (∀ k, o.keep = some k → t'.1 ∈ k) ∧ (∀ d, o.drop = some d → t'.1 ∉ d) ∧
          (y.1 = t'.1 ∨ (y.1 = .word ∧ ((t'.1 = .mention ∧ o.mentions_as_words = true) ∨ (t'.1 = .hashtag ∧ o.hashtags_as_words = true)))) := by
        intro y hy
        refine ⟨t', ht', ?_, ?_, by rw [hy]; exact hx1⟩
        · intro k hk
          rw [hk] at hkeep
          simpa using hkeep
        · intro d hd
          rw [hd] at hdrop
          simpa using hdrop
      split at hf
      · next hw =>
          generalize (if o.lower = true then u.lower x.2 else x.2) = v at hf
          split at hf
          · simp at hf
          next hmin =>
          split at hf
          · simp at hf
          next hmax =>
          split at hf
          · simp at hf
          next hstop =>
          simp only [Option.some.injEq] at hf
          subst hf
          refine ⟨hfrom _ hw.symm, fun _ => ⟨?_, ?_⟩, ?_⟩
          · intro m hm
            rw [hm] at hmin
            simpa using hmin
          · intro m hm
            rw [hm] at hmax
            simpa using hmax
          · intro l hl
            rw [hl] at hstop
            simpa using hstop
      · next hw =>
          split at hf
          · simp at hf
          next hstop =>
          simp only [Option.some.injEq] at hf
          subst hf
          refine ⟨hfrom _ rfl, fun h => absurd h hw, ?_⟩
          intro l hl
          rw [hl] at hstop
          simpa using hstop

/-- **C67**: the constructor raises exactly when both `keep` and `drop` are given, or when the minimum length is not less than the maximum. -/
theorem word_construct (o : Options) : (∃ o', construct u o = .ok o') ↔
    (o.keep = none ∨ o.drop = none) ∧ ∀ a b, o.min_word_length = some a → o.max_word_length = some b → a < b := by
  unfold construct
  by_cases hk : o.keep ≠ none ∧ o.drop ≠ none
  · rw [if_pos hk]
    simp only [reduceCtorEq, exists_false, false_iff, not_and]
    rintro (h | h)
    · exact absurd h hk.1
    · exact absurd h hk.2
  · rw [if_neg hk]
    have hk' : o.keep = none ∨ o.drop = none := by
      by_cases h : o.keep = none
      · exact Or.inl h
      · exact Or.inr (by simpa [h] using hk)
    cases ha : o.min_word_length with
    | none => simp [hk']
    | some a =>
        cases hb : o.max_word_length with
        | none => simp [hk']
        | some b =>
            simp only [Option.some.injEq]
            by_cases hab : a ≥ b
            · simp only [hab, if_true, reduceCtorEq, exists_false, false_iff, not_and]
              intro _ h
              have := h a b rfl rfl
              omega
            · simp only [hab, if_false, Except.ok.injEq, exists_eq', true_iff]
              exact ⟨hk', by omega⟩

/-- Mentions are dropped before being made words when only words are kept. -/
theorem words_mentions_dropped : tokenize asciiTable id false { mentions_as_words := true, keep := some [.word] } "hi @bob".toList =
    .ok [(.word, "hi".toList)] := by decide +kernel

/-- With `lower`, a hashtag given in the stoplist with upper case letters is not removed, since only words are lowered. -/
theorem words_stoplist_hashtag : (do
      let o ← construct asciiTable { lower := true, stoplist := some ["#Foo".toList, "Bar".toList] }
      tokenize asciiTable id false o "Bar #Foo".toList) = .ok [(.hashtag, "#Foo".toList)] := by decide +kernel

example : tokenize asciiTable id true { lower := true, min_word_length := some 3, max_word_length := some 5, stoplist := some ["the".toList] }
    "The cat is HUNGRY, feed it #NowPlease".toList =
    .ok [(.word, "cat".toList), (.punct, ",".toList), (.word, "feed".toList), (.word, "now".toList)] := by decide +kernel

/-! ### C68: lengthening -/

/-- The string made of runs of characters. -/
def ofRuns (runs : List (Char × Nat)) : List Char := runs.flatMap fun r => List.replicate r.2 r.1

/-- The runs of a string: they are not empty and two successive ones have different characters. -/
def AreRuns (runs : List (Char × Nat)) : Prop := (∀ r ∈ runs, 1 ≤ r.2) ∧ runs.IsChain fun a b => a.1 ≠ b.1

theorem exists_runs (s : List Char) : ∃ runs, AreRuns runs ∧ ofRuns runs = s := by
  induction s with
  | nil => exact ⟨[], ⟨by simp, .nil⟩, rfl⟩
  | cons c s ih =>
      obtain ⟨runs, ⟨h1, h2⟩, h3⟩ := ih
      cases runs with
      | nil => exact ⟨[(c, 1)], ⟨by simp, .singleton _⟩, by rw [← h3]; rfl⟩
      | cons r runs =>
          by_cases hc : r.1 = c
          · refine ⟨(c, r.2 + 1) :: runs, ⟨?_, ?_⟩, ?_⟩
            · intro x hx
              rcases List.mem_cons.mp hx with rfl | hx
              · simp
              · exact h1 x (by simp [hx])
            · cases runs with
              | nil => exact .singleton _
              | cons r' runs =>
                  rw [List.isChain_cons_cons] at h2 ⊢
                  exact ⟨by rw [← hc]; exact h2.1, h2.2⟩
            · rw [← h3]
              simp [ofRuns, List.replicate_succ, hc]
          · refine ⟨(c, 1) :: r :: runs, ⟨?_, ?_⟩, ?_⟩
            · intro x hx
              rcases List.mem_cons.mp hx with rfl | hx
              · simp
              · exact h1 x hx
            · rw [List.isChain_cons_cons]
              exact ⟨fun h => hc h.symm, h2⟩
            · rw [← h3]
              simp [ofRuns]

theorem reduce_replicate (cls : Char → Bool) (c : Char) {t : List Char} (ht : ∀ d, t.head? = some d → d ≠ c) (k : Nat) :
    reduceLengthening cls (List.replicate k c ++ t) =
      List.replicate (if cls c = true ∧ 5 ≤ k then 3 else k) c ++ reduceLengthening cls t := by
  have htw : ∀ n, (List.replicate n c ++ t).takeWhile (· == c) = List.replicate n c ∧
      (List.replicate n c ++ t).dropWhile (· == c) = t := by
    intro n
    induction n with
    | zero =>
        cases t with
        | nil => simp
        | cons d t => have := ht d rfl; simp [this]
    | succ n ih =>
        rw [List.replicate_succ, List.cons_append, List.takeWhile_cons, List.dropWhile_cons]
        simp [ih.1, ih.2]
  induction k with
  | zero => simp
  | succ k ih =>
      rw [List.replicate_succ, List.cons_append, reduceLengthening, (htw k).1, (htw k).2, List.length_replicate]
      by_cases h : cls c = true ∧ 4 ≤ k
      · rw [if_pos h, if_pos ⟨h.1, by omega⟩]
        rfl
      · rw [if_neg h, ih, if_neg (fun h' => h ⟨h'.1, by omega⟩), if_neg (fun h' => h ⟨h'.1, by omega⟩)]
        rfl

/-- **C68**: in each run, five letters or more become three; other runs are unchanged. -/
theorem reduce_lengthening_runs (cls : Char → Bool) {runs : List (Char × Nat)} (h : AreRuns runs) :
    reduceLengthening cls (ofRuns runs) = ofRuns (runs.map fun r => (r.1, if cls r.1 = true ∧ 5 ≤ r.2 then 3 else r.2)) := by
  obtain ⟨h1, h2⟩ := h
  induction runs with
  | nil => simp [ofRuns, reduceLengthening]
  | cons r runs ih =>
      have ih := ih (fun x hx => h1 x (by simp [hx])) h2.tail
      have hhead : ∀ d, (ofRuns runs).head? = some d → d ≠ r.1 := by
        intro d hd
        cases runs with
        | nil => simp [ofRuns] at hd
        | cons r' runs =>
            rw [List.isChain_cons_cons] at h2
            have h1' := h1 r' (by simp)
            obtain ⟨n, hn⟩ : ∃ n, r'.2 = n + 1 := ⟨r'.2 - 1, by omega⟩
            simp only [ofRuns, List.flatMap_cons, hn, List.replicate_succ, List.cons_append, List.head?_cons, Option.some.injEq] at hd
            rw [← hd]
            exact fun h => h2.1 h.symm
      change reduceLengthening cls (List.replicate r.2 r.1 ++ ofRuns runs) = _
      rw [reduce_replicate cls r.1 hhead, ih]
      rfl

/-- **C68**: reducing twice is reducing once. -/
theorem reduce_lengthening_idempotent (cls : Char → Bool) (s : List Char) :
    reduceLengthening cls (reduceLengthening cls s) = reduceLengthening cls s := by
  obtain ⟨runs, h, rfl⟩ := exists_runs s
  rw [reduce_lengthening_runs cls h, reduce_lengthening_runs cls]
  · rw [List.map_map]
    congr 1
    apply List.map_congr_left
    intro r _
    simp only [Function.comp]
    by_cases hc : cls r.1 = true ∧ 5 ≤ r.2
    · simp [hc]
    · simp only [hc, if_false]
  · refine ⟨?_, ?_⟩
    · intro r hr
      obtain ⟨x, hx, rfl⟩ := List.mem_map.mp hr
      have := h.1 x hx
      simp only
      split <;> omega
    · exact (List.isChain_map (R := fun a b : Char × Nat => a.1 ≠ b.1) _).mpr h.2

example : AreRuns [('c', 1), ('o', 7), ('l', 4)] ∧ ofRuns [('c', 1), ('o', 7), ('l', 4)] = "cooooooollll".toList :=
  ⟨⟨by decide, by decide⟩, by decide⟩

example : reduceLengthening (fun _ => true) "cooooooollll".toList = "cooollll".toList := by
  have := reduce_lengthening_runs (fun _ => true) (runs := [('c', 1), ('o', 7), ('l', 4)]) ⟨by decide, by decide⟩
  exact this

end Fog.Props
