import Verif.Props.Words
import Verif.Spec.Cut

/-!
# C53: what holds of the word tokenizer on all texts
-/

namespace Fog.Props

open Fog.Words Fog.Spec

section
variable {α : Type _}

theorem _root_.Fog.Spec.CutFrom.before {s : List α} {ts : List (List α)} (g : List α) (h : CutFrom s ts) : CutFrom (g ++ s) ts := by
  cases ts with
  | nil => trivial
  | cons t ts =>
      obtain ⟨gap, rest, rfl, h⟩ := h
      exact ⟨g ++ gap, rest, by simp, h⟩

theorem _root_.Fog.Spec.CutFrom.append {s s' : List α} {ts ts' : List (List α)} (h : CutFrom s ts) (h' : CutFrom s' ts') :
    CutFrom (s ++ s') (ts ++ ts') := by
  induction ts generalizing s with
  | nil => exact h'.before s
  | cons t ts ih =>
      obtain ⟨gap, rest, rfl, h⟩ := h
      exact ⟨gap, rest ++ s', by simp, ih h⟩

theorem _root_.Fog.Spec.CutFrom.after {s : List α} {ts : List (List α)} (h : CutFrom s ts) (g : List α) : CutFrom (s ++ g) ts := by
  have := CutFrom.append (s' := g) (ts' := []) h trivial
  rwa [List.append_nil] at this

theorem _root_.Fog.Spec.CutFrom.of_flatten (ts : List (List α)) : CutFrom ts.flatten ts := by
  induction ts with
  | nil => trivial
  | cons t ts ih => exact ⟨[], ts.flatten, by simp, ih⟩

theorem _root_.Fog.Spec.CutFrom.left {s : List α} {ts ts' : List (List α)} (h : CutFrom s (ts ++ ts')) : CutFrom s ts := by
  induction ts generalizing s with
  | nil => trivial
  | cons t ts ih =>
      obtain ⟨gap, rest, rfl, h⟩ := h
      exact ⟨gap, rest, rfl, ih h⟩

theorem _root_.Fog.Spec.CutFrom.sublist {s : List α} {ts : List (List α)} (h : CutFrom s ts) : ts.flatten.Sublist s := by
  induction ts generalizing s with
  | nil => exact List.nil_sublist _
  | cons t ts ih =>
      obtain ⟨gap, rest, rfl, h⟩ := h
      rw [List.flatten_cons]
      exact (List.Sublist.refl t |>.append (ih h)).trans (by rw [List.append_assoc]; exact List.sublist_append_right _ _)

end

theorem splitOn_cut (sep : Char) (s : List Char) : ∀ cur, CutFrom (cur ++ s) (splitOn sep cur s) := by
  induction s with
  | nil => intro cur; exact ⟨[], [], by simp, trivial⟩
  | cons c s ih =>
      intro cur
      rw [splitOn]
      split
      · exact ⟨[], c :: s, by simp, (ih []).before [c]⟩
      · have := ih (cur ++ [c])
        rwa [List.append_assoc] at this

/-- The texts of tokens. -/
abbrev texts (ts : List Token) : List (List Char) := ts.map Prod.snd

theorem cut_chars {s : List Char} {ts : List Token} (h : chars ts = s) : CutFrom s (texts ts) := by
  have : (texts ts).flatten = s := by
    rw [← h]
    simp [chars, texts, List.flatMap]
  rw [← this]
  exact CutFrom.of_flatten _

theorem cut_one (kind : Kind) (s : List Char) : CutFrom s (texts [(kind, s)]) := cut_chars (by simp [chars])

variable (u : Unicode)

theorem regular_cut (split : Bool) (kind : Kind) {before : List Char} (hh : kind = .hashtag → 2 ≤ before.length) :
    ∃ ts, regular u split kind before = .ok ts ∧ CutFrom before (texts ts) := by
  have hcut := splitOn_cut '-' before []
  rw [List.nil_append] at hcut
  unfold regular
  simp only
  split
  · split
    · refine ⟨_, rfl, ?_⟩
      simpa [texts, Function.comp_def] using hcut
    · split
      · next h1 =>
          have hl := splitOn_length '-' before []
          rw [h1] at hl
          match hs : splitOn '-' [] before with
          | [] => rw [hs] at hl; simp at hl
          | [_] => rw [hs] at hl; simp at hl
          | _ :: _ :: _ :: _ => rw [hs] at hl; simp at hl
          | [a, b] =>
              simp only
              split
              · exact ⟨_, rfl, by simpa [texts, hs] using hcut⟩
              · exact ⟨_, rfl, cut_one _ _⟩
      · exact ⟨_, rfl, cut_one _ _⟩
  · split
    · next h2 =>
        obtain ⟨ts, h1, h3, _⟩ := split_hashtag_lossless u (hh h2.1)
        refine ⟨ts, h1, ?_⟩
        have := (cut_chars (ts := ts) (s := before.drop 1) h3).before (before.take 1)
        rwa [List.take_append_drop] at this
    · exact ⟨_, rfl, cut_one _ _⟩

theorem finish_cut (split : Bool) (s : List Char) (kind : Kind) {i j : Nat} (hij : i < j) (hj : j ≤ s.length)
    (hh : kind = .hashtag → 2 ≤ (slice s i j).length) :
    ∃ ts next, finish u split s kind (slice s i j) i j = .ok (ts, next) ∧ j ≤ next ∧ next ≤ s.length ∧
      CutFrom (slice s i next) (texts ts) := by
  have reg : ∃ ts next, (do
      let ts ← regular u split kind (slice s i j)
      pure (ts, j) : Py (List Token × Nat)) = .ok (ts, next) ∧ j ≤ next ∧ next ≤ s.length ∧ CutFrom (slice s i next) (texts ts) := by
    obtain ⟨ts, h1, h2⟩ := regular_cut u split kind hh
    exact ⟨ts, j, by rw [h1]; rfl, Nat.le_refl _, hj, h2⟩
  unfold finish
  simp only
  cases hq : s[j]? with
  | none => exact reg
  | some q =>
      have hjl := (List.getElem?_eq_some_iff.mp hq).1
      generalize hk : j + 1 + ((s.drop (j + 1)).takeWhile fun n => u.isAlnum n || SIGILS.contains n).length = k
      have hkj : j + 1 ≤ k := by omega
      have hkl : k ≤ s.length := by
        have := (List.takeWhile_prefix (fun n => u.isAlnum n || SIGILS.contains n) (l := s.drop (j + 1))).length_le
        rw [List.length_drop] at this
        omega
      have e1 : slice s i (j + 1) = slice s i j ++ [q] := by
        rw [← slice_append_slice s (by omega : i ≤ j) (Nat.le_succ j), slice_one s hq]
      have e2 : slice s i k = slice s i j ++ q :: slice s (j + 1) k := by
        rw [← slice_append_slice s (by omega : i ≤ j) (by omega : j ≤ k), slice_cons s hq (by omega)]
      simp only
      split
      · cases ha : slice s (j + 1) k with
        | nil =>
            refine ⟨_, _, rfl, by omega, hkl, cut_chars ?_⟩
            rw [e2, ha]
            simp [chars]
        | cons a as =>
            rw [ha] at e2
            simp only
            split
            · refine ⟨_, _, rfl, by omega, by omega, cut_chars ?_⟩
              rw [e1]; simp [chars]
            · split
              · refine ⟨_, _, rfl, by omega, hkl, cut_chars ?_⟩
                rw [e2]; simp [chars]
              · split
                · refine ⟨_, _, rfl, by omega, hkl, cut_chars ?_⟩
                  simp [chars]
                · split
                  · refine ⟨_, _, rfl, by omega, hkl, cut_chars ?_⟩
                    rw [e2]; simp [chars]
                  · refine ⟨_, _, rfl, by omega, by omega, cut_chars ?_⟩
                    rw [e1]; simp [chars]
      · split
        · next h =>
            refine ⟨_, _, rfl, by omega, by omega, cut_chars ?_⟩
            rw [e1, h.2.1]; simp [chars]
        · exact reg

theorem acronym_cut (before : List Char) : CutFrom before (texts ((pointSplit [] before).dropLast.map
    fun t => (if t ≠ ['.'] then Kind.word else Kind.punct, t))) := by
  have h : texts ((pointSplit [] before).dropLast.map fun t => (if t ≠ ['.'] then Kind.word else Kind.punct, t)) =
      (pointSplit [] before).dropLast := by
    simp [texts, Function.comp_def]
  rw [h]
  have hf := pointSplit_flatten before []
  rw [List.nil_append] at hf
  have hc := CutFrom.of_flatten (pointSplit [] before)
  rw [hf, ← List.dropLast_append_getLast (pointSplit_ne_nil before [])] at hc
  exact hc.left

theorem emit_cut (split : Bool) (s : List Char) (kind : Kind) (acronym : Bool) {i j : Nat} (hij : i < j) (hj : j ≤ s.length)
    (hh : kind = .hashtag → 2 ≤ (slice s i j).length ∧ ∀ c, (slice s i j).head? = some c → c = '#' ∨ c = '$') :
    ∃ ts next, emit u split s kind acronym i j = .ok (ts, next) ∧ j ≤ next ∧ next ≤ s.length ∧
      CutFrom (slice s i next) (texts ts) := by
  have hi : i < s.length := by omega
  have hq : s[i]? = some s[i] := List.getElem?_eq_getElem hi
  have hs := slice_cons s hq hij
  have hap : ('#' ∉ APOSTROPHES ∧ '$' ∉ APOSTROPHES) := by decide
  have quote : ∀ {rest : List Char} {ts : List Token}, CutFrom rest (texts ts) →
      CutFrom (s[i] :: rest) (texts ([(Kind.punct, [s[i]])] ++ ts)) := fun h => ⟨[], _, by simp, h⟩
  unfold emit
  rw [hs]
  simp only
  by_cases hquoted : s[i] ∈ APOSTROPHES ∧ u.lower (slice s (i + 1) j) ∉ ENGLISH_ARCHAIC_CONTRACTIONS
  · simp only [hquoted, if_true, true_and, not_false_eq_true]
    by_cases hij' : i + 1 = j
    · simp only [hij', if_true]
      refine ⟨_, _, rfl, Nat.le_refl _, hj, ?_⟩
      rw [← hij', slice_one s hq]
      exact cut_one _ _
    · simp only [hij', if_false]
      cases acronym with
      | true =>
          simp only [if_true]
          split
          · refine ⟨_, _, rfl, Nat.le_refl _, hj, ?_⟩
            rw [hs]
            exact quote (cut_one _ _)
          · refine ⟨_, _, rfl, Nat.le_refl _, hj, ?_⟩
            rw [hs]
            exact quote (acronym_cut _)
      | false =>
          simp only [Bool.false_eq_true, if_false]
          have hnot : kind ≠ .hashtag := by
            intro h
            rcases (hh h).2 s[i] (by rw [hs]; rfl) with h' | h'
            · rw [h'] at hquoted; exact hap.1 hquoted.1
            · rw [h'] at hquoted; exact hap.2 hquoted.1
          obtain ⟨ts, next, h1, h2, h3, h4⟩ := finish_cut u split s kind (i := i + 1) (j := j) (by omega) hj (fun h => absurd h hnot)
          rw [h1]
          refine ⟨_, _, rfl, h2, h3, ?_⟩
          rw [slice_cons s hq (by omega)]
          exact quote h4
  · simp only [hquoted, if_false, false_and, List.nil_append]
    rw [← hs]
    cases acronym with
    | true =>
        simp only [if_true]
        split
        · exact ⟨_, _, rfl, Nat.le_refl _, hj, cut_one _ _⟩
        · exact ⟨_, _, rfl, Nat.le_refl _, hj, acronym_cut _⟩
    | false =>
        simp only [Bool.false_eq_true, if_false]
        obtain ⟨ts, next, h1, h2, h3, h4⟩ := finish_cut u split s kind hij hj (fun h => (hh h).1)
        rw [h1]
        exact ⟨_, _, rfl, h2, h3, h4⟩

theorem wordLoop_range (whole : Bool) : ∀ (rest : List Char) (j : Nat) (prev : Char) (acronym : Bool),
    j ≤ (wordLoop u whole rest j prev acronym).1 ∧ (wordLoop u whole rest j prev acronym).1 ≤ j + rest.length := by
  intro rest
  induction rest with
  | nil => intro j prev a; simp [wordLoop]
  | cons n rest ih =>
      intro j prev a
      have stop : j ≤ j ∧ j ≤ j + (n :: rest).length := by simp
      have next : ∀ a, j ≤ (wordLoop u whole rest (j + 1) n a).1 ∧ (wordLoop u whole rest (j + 1) n a).1 ≤ j + (n :: rest).length := by
        intro a
        have := ih (j + 1) n a
        simp only [List.length_cons]
        omega
      rw [wordLoop.eq_def]
      simp only
      split
      · exact stop
      · split
        · split
          · exact stop
          · exact next _
        · split
          · split
            · exact stop
            · split
              · exact stop
              · exact next _
          · split
            · split
              · exact next _
              · exact stop
            · exact next _

theorem stepWord_cut (hu : Sound u) (split : Bool) {s : List Char} {i : Nat} (c : Char) (hi : i < s.length) :
    ∃ ts next, stepWord u split s i c = .ok (ts, next) ∧ i < next ∧ next ≤ s.length ∧ CutFrom (slice s i next) (texts ts) := by
  unfold stepWord
  obtain ⟨b1, b2, b3⟩ := number_bounds u hu s c hi
  generalize number u s i c = n at b1 b2 b3
  simp only
  split
  · obtain ⟨ts, next, h1, h2, h3, h4⟩ := emit_cut u split s n.2.2 false (i := i) (j := n.1) (by omega) b2 (fun h => absurd h b3)
    exact ⟨ts, next, h1, by omega, h3, h4⟩
  · generalize slice s i (i + 64) = lookahead
    obtain ⟨w1, w2⟩ := wordLoop_range u (startsAsUrl lookahead || u.email lookahead) (s.drop n.1) n.1 (s[n.1 - 1]?.getD c) false
    generalize wordLoop u (startsAsUrl lookahead || u.email lookahead) (s.drop n.1) n.1 (s[n.1 - 1]?.getD c) false = w at w1 w2
    rw [List.length_drop] at w2
    obtain ⟨ts, next, h1, h2, h3, h4⟩ := emit_cut u split s
      (if startsAsUrl lookahead = true then Kind.url else if u.email lookahead = true then .email else n.2.2)
      w.2 (i := i) (j := w.1) (by omega) (by omega) (by
        intro h
        split at h
        · simp at h
        · split at h
          · simp at h
          · exact absurd h b3)
    exact ⟨ts, next, h1, by omega, h3, h4⟩

/-- A turn of the loop does not raise, goes on by at least one character, and cuts its tokens from the characters it passes. -/
theorem step_cut (hu : Sound u) (split : Bool) {s : List Char} {i : Nat} {c : Char} (hc : s[i]? = some c) :
    ∃ ts next, step u split s i c = .ok (ts, next) ∧ i < next ∧ next ≤ s.length ∧ CutFrom (slice s i next) (texts ts) := by
  have hi := (List.getElem?_eq_some_iff.mp hc).1
  have one := slice_one s hc
  unfold step
  split
  · exact ⟨_, _, rfl, by omega, by omega, trivial⟩
  · split
    · next m hm =>
        obtain ⟨h1, h2⟩ := hu.smiley _ _ hm
        rw [Pairwise.length_slice] at h2
        exact ⟨_, _, rfl, by omega, by omega, cut_one _ _⟩
    · split
      · next hsig =>
          split
          · next hal =>
              have hle := takeWhile_le s u.isAlnum (i + 1) hi
              obtain ⟨d, hd, hda⟩ : ∃ d, s[i + 1]? = some d ∧ u.isAlpha d = true := by
                cases hd : s[i + 1]? with
                | none => rw [hd] at hal; simp at hal
                | some d => rw [hd] at hal; exact ⟨d, rfl, by simpa using hal⟩
              have hpos : 1 ≤ ((s.drop (i + 1)).takeWhile u.isAlnum).length := by
                have hdl := (List.getElem?_eq_some_iff.mp hd).1
                rw [List.drop_eq_getElem_cons hdl]
                have he : s[i + 1] = d := by
                  rw [List.getElem?_eq_getElem hdl] at hd
                  injection hd
                rw [he]
                simp [hu.alnum d hda]
              obtain ⟨ts, next, h1, h2, h3, h4⟩ := emit_cut u split s .hashtag false (i := i)
                (j := i + 1 + ((s.drop (i + 1)).takeWhile u.isAlnum).length) (by omega) hle (by
                  intro _
                  refine ⟨?_, ?_⟩
                  · rw [Pairwise.length_slice]; omega
                  · intro x hx
                    rw [slice_cons s hc (by omega)] at hx
                    simp only [List.head?_cons, Option.some.injEq] at hx
                    rw [← hx]
                    exact hsig)
              exact ⟨ts, next, h1, by omega, h3, h4⟩
          · refine ⟨_, _, rfl, by omega, by omega, ?_⟩
            rw [one]; exact cut_one _ _
      · split
        · split
          · have hle := takeWhile_le s isTwitter (i + 1) hi
            obtain ⟨ts, next, h1, h2, h3, h4⟩ := emit_cut u split s .mention false (i := i)
              (j := i + 1 + ((s.drop (i + 1)).takeWhile isTwitter).length) (by omega) hle (by simp)
            exact ⟨ts, next, h1, by omega, h3, h4⟩
          · refine ⟨_, _, rfl, by omega, by omega, ?_⟩
            rw [one]; exact cut_one _ _
        · split
          · have hle := takeWhile_le s (fun n => !(u.isSpace n || u.isAlnum n || isJunk n || n == '#' || n == '@')) (i + 1) hi
            exact ⟨_, _, rfl, by unfold punctEnd; omega, hle, cut_chars (punctEmoji_chars u hu _)⟩
          · exact stepWord_cut u hu split c hi

/-- **C53**, on all texts: the tokenizer ends without raising, and its tokens are pieces of the text, one after the other and without
overlap. -/
theorem words_cut (hu : Sound u) (split : Bool) (s : List Char) :
    ∃ ts, Runs u split s 0 ts ∧ tokenizeRaw u split s = .ok ts ∧ CutFrom s (ts.map Prod.snd) := by
  have key : ∀ (fuel i : Nat), s.length - i ≤ fuel → ∃ ts, Runs u split s i ts ∧ run u split s fuel i = .ok ts ∧
      CutFrom (s.drop i) (texts ts) := by
    intro fuel
    induction fuel with
    | zero =>
        intro i hi
        exact ⟨[], .done i (List.getElem?_eq_none (by omega)), rfl, trivial⟩
    | succ fuel ih =>
        intro i hi
        cases hc : s[i]? with
        | none => exact ⟨[], .done i hc, by rw [run, hc]; rfl, trivial⟩
        | some c =>
            obtain ⟨ts, next, h1, h2, h3, h4⟩ := step_cut u hu split hc
            obtain ⟨ts', r1, r2, r3⟩ := ih next (by omega)
            refine ⟨ts ++ ts', .turn i c ts next ts' hc h1 r1, ?_, ?_⟩
            · rw [run, hc]
              simp only [h1, r2, bind, Except.bind, pure, Except.pure]
            · rw [texts, List.map_append, ← slice_append_drop s (by omega : i ≤ next)]
              exact h4.append r3
  obtain ⟨ts, h1, h2, h3⟩ := key s.length 0 (by omega)
  exact ⟨ts, h1, h2, by rw [List.drop_zero] at h3; exact h3⟩

/-- **C53**, on all texts: the characters of the tokens are characters of the text, in order. -/
theorem words_sublist (hu : Sound u) (split : Bool) (s : List Char) :
    ∃ ts, tokenizeRaw u split s = .ok ts ∧ (ts.flatMap fun t => t.2).Sublist s := by
  obtain ⟨ts, _, h, hc⟩ := words_cut u hu split s
  exact ⟨ts, h, by rw [List.flatMap_def]; exact hc.sublist⟩

-- A text whose acronym is cut, with a loss.
example : ∃ ts, tokenizeRaw asciiTable true "A.Hello #OneTwo".toList = .ok ts ∧
    ts.map Prod.snd = ["A".toList, ".".toList, "One".toList, "Two".toList] := ⟨_, rfl, by decide +kernel⟩

end Fog.Props
