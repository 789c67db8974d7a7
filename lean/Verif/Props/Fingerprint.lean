import Verif.Model.Fingerprint
import Verif.Spec.Words
import Verif.Props.Utils
import Verif.Props.Ngrams
import Verif.Lemmas.Dedup
import Mathlib.Data.List.Sort
import Mathlib.Data.List.Nodup

/-!
# C50: fingerprints
-/

namespace Fog.Props

open Fingerprint Spec

/-! ### Words -/

theorem pieces_ne_nil (space : Char → Bool) (s : List Char) : pieces space s ≠ [] := by
  cases s with
  | nil => simp [pieces]
  | cons c s =>
      rw [pieces]
      split
      · simp
      · split <;> simp

theorem pieces_append (space : Char → Bool) (s t : List Char) {c : Char} (hc : space c = true) :
    pieces space (s ++ c :: t) = pieces space s ++ pieces space t := by
  induction s with
  | nil => simp [pieces, hc]
  | cons x s ih =>
      rw [List.cons_append, pieces, pieces, ih]
      split
      · rfl
      · cases h : pieces space s with
        | nil => exact absurd h (pieces_ne_nil space s)
        | cons p ps => rfl

theorem words_append (space : Char → Bool) (s t : List Char) {c : Char} (hc : space c = true) :
    words space (s ++ c :: t) = words space s ++ words space t := by
  unfold words
  rw [pieces_append space s t hc, List.filter_append]

theorem words_nil (space : Char → Bool) : words space [] = [] := by simp [words, pieces]

theorem words_space (space : Char → Bool) (t : List Char) {c : Char} (hc : space c = true) : words space (c :: t) = words space t := by
  have := words_append space [] t hc
  simpa [words_nil] using this

theorem pieces_word (space : Char → Bool) {w : List Char} (h : ∀ c ∈ w, space c = false) : pieces space w = [w] := by
  induction w with
  | nil => rfl
  | cons c w ih =>
      rw [pieces, h c (by simp), ih (fun x hx => h x (by simp [hx]))]
      simp

theorem words_word (space : Char → Bool) {w : List Char} (h : ∀ c ∈ w, space c = false) (hn : w ≠ []) : words space w = [w] := by
  unfold words
  rw [pieces_word space h]
  simp [hn]

theorem mem_words {space : Char → Bool} {s w : List Char} (h : w ∈ words space s) :
    w ≠ [] ∧ ∀ c ∈ w, space c = false ∧ c ∈ s := by
  unfold words at h
  rw [List.mem_filter] at h
  refine ⟨of_decide_eq_true h.2, ?_⟩
  have key : ∀ (s : List Char), ∀ w ∈ pieces space s, ∀ c ∈ w, space c = false ∧ c ∈ s := by
    intro s
    induction s with
    | nil => intro w hw; simp [pieces] at hw; subst hw; simp
    | cons x s ih =>
        intro w hw
        rw [pieces] at hw
        split at hw
        · rcases List.mem_cons.mp hw with rfl | hw
          · simp
          · intro c hc
            obtain ⟨h1, h2⟩ := ih w hw c hc
            exact ⟨h1, by simp [h2]⟩
        · next hx =>
            cases hp : pieces space s with
            | nil => exact absurd hp (pieces_ne_nil space s)
            | cons p ps =>
                rw [hp] at hw ih
                simp only [List.mem_cons] at hw
                intro c hc
                rcases hw with rfl | hw
                · rcases List.mem_cons.mp hc with rfl | hc
                  · exact ⟨by simpa using hx, by simp⟩
                  · obtain ⟨h1, h2⟩ := ih p (by simp) c hc
                    exact ⟨h1, by simp [h2]⟩
                · obtain ⟨h1, h2⟩ := ih w (by simp [hw]) c hc
                  exact ⟨h1, by simp [h2]⟩
  exact key s w h.1

theorem words_intercalate (space : Char → Bool) (hs : space ' ' = true) (ws : List (List Char))
    (h : ∀ w ∈ ws, ∀ c ∈ w, space c = false) : words space ([' '].intercalate ws) = ws.filter fun w => decide (w ≠ []) := by
  have base : ∀ w : List Char, (∀ c ∈ w, space c = false) → words space w = [w].filter fun w => decide (w ≠ []) := by
    intro w hw
    unfold words
    rw [pieces_word space hw]
  induction ws with
  | nil => simp [words_nil]
  | cons w ws ih =>
      cases ws with
      | nil =>
          rw [show [' '].intercalate [w] = w by simp]
          exact base w (h w (by simp))
      | cons w' ws =>
          rw [show [' '].intercalate (w :: w' :: ws) = w ++ ' ' :: [' '].intercalate (w' :: ws) by simp [List.intercalate_cons_cons],
            words_append space _ _ hs, ih (fun x hx => h x (by simp [hx])), base w (h w (by simp)), ← List.filter_append]
          rfl

theorem words_all_space (space : Char → Bool) {s : List Char} (h : ∀ c ∈ s, space c = true) (t : List Char) :
    words space (s ++ t) = words space t := by
  induction s with
  | nil => rfl
  | cons c s ih =>
      rw [List.cons_append, words_space space _ (h c (by simp))]
      exact ih (fun x hx => h x (by simp [hx]))

theorem words_append_space (space : Char → Bool) {s : List Char} (h : ∀ c ∈ s, space c = true) (t : List Char) :
    words space (t ++ s) = words space t := by
  cases s with
  | nil => simp
  | cons c s =>
      rw [words_append space _ _ (h c (by simp))]
      have := words_all_space space (s := s) (fun x hx => h x (by simp [hx])) []
      rw [List.append_nil, words_nil] at this
      rw [this, List.append_nil]

variable (u : Unicode)

theorem mem_takeWhile' {p : Char → Bool} {s : List Char} {c : Char} (h : c ∈ s.takeWhile p) : p c = true := by
  have := List.all_takeWhile (p := p) (l := s)
  rw [List.all_eq_true] at this
  exact this c h

theorem words_strip (s : List Char) : words u.isSpace (strip u s) = words u.isSpace s := by
  unfold strip
  have h1 : words u.isSpace s = words u.isSpace (s.dropWhile u.isSpace) := by
    conv_lhs => rw [← List.takeWhile_append_dropWhile (p := u.isSpace) (l := s)]
    exact words_all_space _ (fun c hc => mem_takeWhile' hc) _
  rw [h1]
  generalize s.dropWhile u.isSpace = t
  have h2 : t = (t.reverse.dropWhile u.isSpace).reverse ++ (t.reverse.takeWhile u.isSpace).reverse := by
    rw [← List.reverse_append, List.takeWhile_append_dropWhile, List.reverse_reverse]
  conv_rhs => rw [h2]
  exact (words_append_space _ (fun c hc => mem_takeWhile' (List.mem_reverse.mp hc)) _).symm

theorem strip_ends {s : List Char} (h : strip u s ≠ []) :
    (∀ c, (strip u s).head? = some c → u.isSpace c = false) ∧ ∀ c, (strip u s).getLast? = some c → u.isSpace c = false := by
  have hd : ∀ (p : Char → Bool) (t : List Char) (c : Char), (t.dropWhile p).head? = some c → p c = false := by
    intro p t c hc
    have := List.head?_dropWhile_not p t
    rw [hc] at this
    simpa using this
  unfold strip at h ⊢
  constructor
  · intro c hc
    generalize ht : s.dropWhile u.isSpace = t at h hc
    have h2 : t = (t.reverse.dropWhile u.isSpace).reverse ++ (t.reverse.takeWhile u.isSpace).reverse := by
      rw [← List.reverse_append, List.takeWhile_append_dropWhile, List.reverse_reverse]
    apply hd u.isSpace s c
    rw [ht, h2]
    rw [List.head?_append]
    rw [hc]
    rfl
  · intro c hc
    rw [List.getLast?_reverse] at hc
    exact hd _ _ _ hc

/-! ### Splitting -/

theorem splitLoop_words (s : List Char) : ∀ (cur : List Char) (sep : Bool), (sep = true → cur = []) →
    ∀ h t, pieces u.isSpace s = h :: t →
    (splitLoop u cur sep s).filter (fun w => decide (w ≠ [])) = ((cur ++ h) :: t).filter fun w => decide (w ≠ []) := by
  induction s with
  | nil =>
      intro cur sep _ h t hp
      simp only [pieces, List.cons.injEq] at hp
      obtain ⟨rfl, rfl⟩ := hp
      simp [splitLoop]
  | cons c s ih =>
      intro cur sep hsep h t hp
      rw [pieces] at hp
      rw [splitLoop]
      obtain ⟨h', t', hp'⟩ : ∃ h' t', pieces u.isSpace s = h' :: t' := by
        cases hps : pieces u.isSpace s with
        | nil => exact absurd hps (pieces_ne_nil _ _)
        | cons a b => exact ⟨a, b, rfl⟩
      by_cases hc : u.isSpace c = true
      · simp only [hc, if_true] at hp ⊢
        simp only [List.cons.injEq] at hp
        obtain ⟨rfl, rfl⟩ := hp
        cases sep with
        | true =>
            simp only [if_true]
            rw [ih cur true hsep h' t' hp', hsep rfl, hp']
            simp
        | false =>
            simp only [Bool.false_eq_true, if_false, List.append_nil]
            rw [List.filter_cons, List.filter_cons, ih [] true (fun _ => rfl) h' t' hp', hp', List.nil_append]
      · simp only [hc, Bool.false_eq_true, if_false] at hp ⊢
        rw [hp'] at hp
        simp only [List.cons.injEq] at hp
        obtain ⟨rfl, rfl⟩ := hp
        rw [ih (cur ++ [c]) false (by simp) h' t' hp']
        simp

theorem splitLoop_filter (s : List Char) : (splitLoop u [] false s).filter (fun w => decide (w ≠ [])) = words u.isSpace s := by
  cases hp : pieces u.isSpace s with
  | nil => exact absurd hp (pieces_ne_nil _ _)
  | cons h t =>
      rw [splitLoop_words u s [] false (by simp) h t hp, List.nil_append]
      unfold words
      rw [hp]

theorem nil_mem_splitLoop (s : List Char) : ∀ (cur : List Char) (sep : Bool), s ≠ [] → (∀ c, s.getLast? = some c → u.isSpace c = false) →
    ([] ∈ splitLoop u cur sep s ↔ cur = [] ∧ sep = false ∧ ∃ c, s.head? = some c ∧ u.isSpace c = true) := by
  induction s with
  | nil => intro _ _ h; exact absurd rfl h
  | cons c s ih =>
      intro cur sep _ hl
      rw [splitLoop]
      by_cases hs : s = []
      · subst hs
        have hc : u.isSpace c = false := hl c rfl
        simp [hc, splitLoop]
      · have hl' : ∀ x, s.getLast? = some x → u.isSpace x = false := by
          intro x hx
          apply hl x
          rw [List.getLast?_cons, hx]
          rfl
        by_cases hc : u.isSpace c = true
        · simp only [hc, if_true]
          cases sep with
          | true =>
              simp only [if_true]
              rw [ih cur true hs hl']
              simp
          | false =>
              simp only [Bool.false_eq_true, if_false, List.mem_cons]
              rw [ih [] true hs hl']
              constructor
              · rintro (h | h)
                · exact ⟨h.symm, trivial, c, rfl, hc⟩
                · exact absurd h.2.1 (by simp)
              · rintro ⟨h, _⟩
                exact Or.inl h.symm
        · simp only [hc, Bool.false_eq_true, if_false]
          rw [ih (cur ++ [c]) false hs hl']
          simp [hc]

/-- The pieces of a trimmed text are its words, or one empty string. -/
theorem splitLoop_trimmed {s : List Char} (h : s ≠ [] → (∀ c, s.head? = some c → u.isSpace c = false) ∧
    ∀ c, s.getLast? = some c → u.isSpace c = false) :
    splitLoop u [] false s = if words u.isSpace s = [] then [[]] else words u.isSpace s := by
  by_cases hs : s = []
  · subst hs
    simp [words_nil, splitLoop]
  · obtain ⟨h1, h2⟩ := h hs
    have hn : [] ∉ splitLoop u [] false s := by
      rw [nil_mem_splitLoop u s [] false hs h2]
      rintro ⟨_, _, c, hc, hsp⟩
      rw [h1 c hc] at hsp
      simp at hsp
    have he : splitLoop u [] false s = words u.isSpace s := by
      rw [← splitLoop_filter, List.filter_eq_self.mpr]
      intro w hw
      exact decide_eq_true (fun h => hn (h ▸ hw))
    have hne : words u.isSpace s ≠ [] := by
      rw [← he]
      have : ∀ (s : List Char) (cur : List Char) (sep : Bool), splitLoop u cur sep s ≠ [] := by
        intro s
        induction s with
        | nil => intro cur sep; simp [splitLoop]
        | cons c s ih =>
            intro cur sep
            rw [splitLoop]
            split
            · split
              · exact ih _ _
              · simp
            · exact ih _ _
      exact this s [] false
    rw [if_neg hne, he]

/-! ### Squeezing -/

/-- Squeezing of a word, or nothing. -/
def squeezed (squeeze : Bool) (w : List Char) : List Char := if squeeze then Utils.squeeze w false else w

theorem subRuns_cons_ne (cls : Char → Bool) (c : Char) {s : List Char} (h : ∀ d, s.head? = some d → d ≠ c) :
    Utils.subRuns cls (c :: s) = c :: Utils.subRuns cls s := by
  rw [Utils.subRuns]
  split
  · have : s.dropWhile (· == c) = s := by
      cases s with
      | nil => rfl
      | cons d s =>
          have := h d rfl
          simp [this]
    rw [this]
  · rfl

theorem subRuns_ne_nil (cls : Char → Bool) {s : List Char} (h : s ≠ []) : Utils.subRuns cls s ≠ [] := by
  cases s with
  | nil => exact absurd rfl h
  | cons c s => rw [Utils.subRuns]; split <;> simp

theorem subRuns_mem (cls : Char → Bool) (s : List Char) (c : Char) : c ∈ Utils.subRuns cls s → c ∈ s := by
  induction s using Utils.subRuns.induct cls with
  | case1 => simp [Utils.subRuns]
  | case2 d s h ih =>
      rw [Utils.subRuns, if_pos h]
      intro hc
      rcases List.mem_cons.mp hc with rfl | hc
      · simp
      · exact List.mem_cons_of_mem _ ((List.dropWhile_sublist _).subset (ih hc))
  | case3 d s h ih =>
      rw [Utils.subRuns, if_neg h]
      intro hc
      rcases List.mem_cons.mp hc with rfl | hc
      · simp
      · exact List.mem_cons_of_mem _ (ih hc)

theorem dropWhile_append_ne {c : Char} (w : List Char) {t : List Char} (h : ∀ d, t.head? = some d → d ≠ c) :
    (w ++ t).dropWhile (· == c) = w.dropWhile (· == c) ++ t := by
  induction w with
  | nil =>
      cases t with
      | nil => rfl
      | cons d t =>
          have := h d rfl
          simp [this]
  | cons x w ih =>
      rw [List.cons_append, List.dropWhile_cons, List.dropWhile_cons]
      split
      · exact ih
      · rfl

/-- Squeezing a word then what begins with a separator. -/
theorem subRuns_append (cls space : Char → Bool) (w : List Char) {t : List Char} (hw : ∀ c ∈ w, space c = false)
    (ht : ∀ d, t.head? = some d → space d = true) : Utils.subRuns cls (w ++ t) = Utils.subRuns cls w ++ Utils.subRuns cls t := by
  have hne : ∀ c ∈ w, ∀ d, t.head? = some d → d ≠ c := by
    rintro c hc d hd rfl
    have := ht d hd
    rw [hw d hc] at this
    simp at this
  induction w using Utils.subRuns.induct cls with
  | case1 => simp [Utils.subRuns]
  | case2 c s h ih =>
      rw [List.cons_append, Utils.subRuns, if_pos h, Utils.subRuns, if_pos h, dropWhile_append_ne _ (hne c (by simp)),
        ih (fun x hx => hw x (List.mem_cons_of_mem _ ((List.dropWhile_sublist _).subset hx)))
          (fun x hx => hne x (List.mem_cons_of_mem _ ((List.dropWhile_sublist _).subset hx)))]
      rfl
  | case3 c s h ih =>
      rw [List.cons_append, Utils.subRuns, if_neg h, Utils.subRuns, if_neg h,
        ih (fun x hx => hw x (by simp [hx])) (fun x hx => hne x (by simp [hx]))]
      rfl

/-- A text which is not only separators begins with separators, then a word. -/
theorem words_split (space : Char → Bool) (s : List Char) : (∀ c ∈ s, space c = true) ∨
    ∃ sp w t, s = sp ++ w ++ t ∧ (∀ c ∈ sp, space c = true) ∧ w ≠ [] ∧ (∀ c ∈ w, space c = false) ∧
      (∀ d, t.head? = some d → space d = true) ∧ words space s = w :: words space t := by
  by_cases h : ∀ c ∈ s, space c = true
  · exact Or.inl h
  right
  have hd : ∀ (p : Char → Bool) (t : List Char) (c : Char), (t.dropWhile p).head? = some c → p c = false := by
    intro p t c hc
    have := List.head?_dropWhile_not p t
    rw [hc] at this
    simpa using this
  have e1 := List.takeWhile_append_dropWhile (p := space) (l := s)
  have e2 := List.takeWhile_append_dropWhile (p := fun c => !space c) (l := s.dropWhile space)
  have hw : ∀ c ∈ (s.dropWhile space).takeWhile (fun c => !space c), space c = false := by
    intro c hc
    have := mem_takeWhile' hc
    simpa using this
  have hne : (s.dropWhile space).takeWhile (fun c => !space c) ≠ [] := by
    cases hdw : s.dropWhile space with
    | nil =>
        rw [hdw, List.append_nil] at e1
        exact absurd (fun c hc => mem_takeWhile' (e1 ▸ hc)) h
    | cons d t =>
        have := hd space s d (by rw [hdw]; rfl)
        simp [this]
  have ht : ∀ d, ((s.dropWhile space).dropWhile (fun c => !space c)).head? = some d → space d = true := by
    intro d hd'
    have := hd _ _ d hd'
    simpa using this
  refine ⟨s.takeWhile space, (s.dropWhile space).takeWhile (fun c => !space c), (s.dropWhile space).dropWhile (fun c => !space c),
    by rw [List.append_assoc, e2, e1], fun c hc => mem_takeWhile' hc, hne, hw, ht, ?_⟩
  conv_lhs => rw [← e1, ← e2]
  rw [words_all_space _ (fun c hc => mem_takeWhile' hc)]
  generalize (s.dropWhile space).takeWhile (fun c => !space c) = w at hw hne
  generalize (s.dropWhile space).dropWhile (fun c => !space c) = t at ht
  cases t with
  | nil => rw [List.append_nil, words_word space hw hne, words_nil]
  | cons d t =>
      rw [words_append space _ _ (ht d rfl), words_word space hw hne, words_space space _ (ht d rfl)]
      rfl

theorem words_subRuns (cls space : Char → Bool) : ∀ (n : Nat) (s : List Char), s.length ≤ n →
    words space (Utils.subRuns cls s) = (words space s).map (Utils.subRuns cls) := by
  intro n
  induction n with
  | zero =>
      intro s hs
      have : s = [] := List.eq_nil_of_length_eq_zero (by omega)
      subst this
      simp [Utils.subRuns, words_nil]
  | succ n ih =>
      intro s hs
      cases s with
      | nil => simp [Utils.subRuns, words_nil]
      | cons c s =>
          by_cases hc : space c = true
          · rw [words_space space s hc, Utils.subRuns]
            split
            · rw [words_space space _ hc, ih _ (by
                have := (List.dropWhile_sublist (fun x => x == c) (l := s)).length_le
                simp only [List.length_cons] at hs; omega)]
              congr 1
              conv_rhs => rw [← List.takeWhile_append_dropWhile (p := (· == c)) (l := s)]
              refine (words_all_space space ?_ _).symm
              intro x hx
              have : x = c := by simpa using mem_takeWhile' hx
              rw [this]; exact hc
            · rw [words_space space _ hc, ih _ (by simp only [List.length_cons] at hs; omega)]
          · rcases words_split space (c :: s) with h | ⟨sp, w, t, he, hsp, hwn, hw, ht, hwords⟩
            · exact absurd (h c (by simp)) hc
            · have hsp0 : sp = [] := by
                cases sp with
                | nil => rfl
                | cons d sp =>
                    simp only [List.cons_append, List.cons.injEq] at he
                    exact absurd (he.1 ▸ hsp d (by simp)) hc
              subst hsp0
              rw [List.nil_append] at he
              rw [hwords, List.map_cons, he, subRuns_append cls space w hw ht, ← ih t (by
                have : (c :: s).length = w.length + t.length := by rw [he, List.length_append]
                have : 0 < w.length := List.length_pos_iff.mpr hwn
                simp only [List.length_cons] at *; omega)]
              have hw' : ∀ x ∈ Utils.subRuns cls w, space x = false := fun x hx => hw x (subRuns_mem cls w x hx)
              have ht' : ∀ d, (Utils.subRuns cls t).head? = some d → space d = true := by
                intro d hd
                rw [subRuns_head] at hd
                exact ht d hd
              generalize Utils.subRuns cls t = t' at ht'
              cases t' with
              | nil => rw [List.append_nil, words_word space hw' (subRuns_ne_nil cls hwn), words_nil]
              | cons d t' =>
                  rw [words_append space _ _ (ht' d rfl), words_word space hw' (subRuns_ne_nil cls hwn), words_space space _ (ht' d rfl)]
                  rfl

theorem subRuns_getLast (cls : Char → Bool) (s : List Char) : (Utils.subRuns cls s).getLast? = s.getLast? := by
  induction s using Utils.subRuns.induct cls with
  | case1 => simp [Utils.subRuns]
  | case2 c s h ih =>
      rw [Utils.subRuns, if_pos h, List.getLast?_cons, List.getLast?_cons, ih]
      by_cases hd : s.dropWhile (· == c) = []
      · rw [hd]
        have hall : ∀ x ∈ s, x = c := by
          intro x hx
          have e := List.takeWhile_append_dropWhile (p := (· == c)) (l := s)
          rw [hd, List.append_nil] at e
          have := mem_takeWhile' (show x ∈ s.takeWhile (· == c) by rw [e]; exact hx)
          simpa using this
        cases hl : s.getLast? with
        | none => rfl
        | some x => simp [hall x (List.mem_of_getLast? hl)]
      · have e := List.takeWhile_append_dropWhile (p := (· == c)) (l := s)
        have : s.getLast? = (s.dropWhile (· == c)).getLast? := by
          conv_lhs => rw [← e]
          rw [List.getLast?_append]
          cases hl : (s.dropWhile (· == c)).getLast? with
          | none => exact absurd (List.getLast?_eq_none_iff.mp hl) hd
          | some x => rfl
        rw [this]
  | case3 c s h ih => rw [Utils.subRuns, if_neg h, List.getLast?_cons, List.getLast?_cons, ih]

/-! ### Sorted sets -/

theorem sortedSet_spec (l : List (List Char)) : (sortedSet l).Pairwise (· < ·) ∧ ∀ t, t ∈ sortedSet l ↔ t ∈ l := by
  unfold sortedSet
  have hmem : ∀ t, t ∈ (dedup l).mergeSort (fun a b => decide (a ≤ b)) ↔ t ∈ l := by
    intro t
    rw [List.mem_mergeSort, mem_dedup]
  refine ⟨?_, hmem⟩
  have h1 := List.pairwise_mergeSort (le := fun a b : List Char => decide (a ≤ b))
    (fun a b c hab hbc => decide_eq_true (le_trans (of_decide_eq_true hab) (of_decide_eq_true hbc)))
    (fun a b => by rcases le_total a b with h | h <;> simp [h]) (dedup l)
  have h2 : ((dedup l).mergeSort fun a b => decide (a ≤ b)).Nodup := (List.mergeSort_perm _ _).nodup_iff.mpr (nodup_dedup l)
  refine (h1.and h2).imp ?_
  intro a b hab
  exact lt_of_le_of_ne (of_decide_eq_true hab.1) hab.2

theorem sorted_ext {l l' : List (List Char)} (h : l.Pairwise (· < ·)) (h' : l'.Pairwise (· < ·)) (hm : ∀ t, t ∈ l ↔ t ∈ l') :
    l = l' := by
  have hp : l.Perm l' := (List.perm_ext_iff_of_nodup (h.imp (fun h => ne_of_lt h)) (h'.imp (fun h => ne_of_lt h))).mpr hm
  exact hp.eq_of_pairwise (fun a b _ _ h1 h2 => absurd (lt_trans h1 h2) (lt_irrefl _)) h h'

/-! ### The tokens -/

theorem trim_ends (o : Options) (s : List Char) : trim u o s ≠ [] → (∀ c, (trim u o s).head? = some c → u.isSpace c = false) ∧
    ∀ c, (trim u o s).getLast? = some c → u.isSpace c = false := by
  unfold trim
  simp only
  split
  · intro h
    have hne : strip u s ≠ [] := by
      intro h0
      rw [h0] at h
      simp [Utils.squeeze, Utils.subRuns] at h
    unfold Utils.squeeze
    rw [subRuns_head, subRuns_getLast]
    exact strip_ends u hne
  · exact strip_ends u

theorem words_trim (o : Options) (s : List Char) : words u.isSpace (trim u o s) = (words u.isSpace s).map (squeezed o.squeeze) := by
  unfold trim
  simp only
  split
  · next h =>
      unfold Utils.squeeze
      rw [words_subRuns _ _ _ _ (le_refl _), words_strip]
      apply List.map_congr_left
      intro w _
      simp [squeezed, h, Utils.squeeze]
  · next h =>
      rw [words_strip]
      have : squeezed o.squeeze = id := by
        funext w
        simp [squeezed, h]
      rw [this, List.map_id]

/-- The words of the cleaned text, squeezed if asked to. -/
def cleanWords (o : Options) (s : List Char) : List (List Char) := (words u.isSpace (clean u o s)).map (squeezed o.squeeze)

theorem tokenize_eq (o : Options) (s : List Char) :
    tokenize u o s = sortedSet (if cleanWords u o s = [] then [[]] else cleanWords u o s) := by
  unfold tokenize
  rw [splitLoop_trimmed u (trim_ends u o _), words_trim]
  rfl

/-- **C50**: the tokens are the distinct words of the cleaned text, in increasing order; if there are none, the empty string. -/
theorem fingerprint_tokens (o : Options) (s : List Char) : (tokenize u o s).Pairwise (· < ·) ∧
    ∀ t, t ∈ tokenize u o s ↔ t ∈ cleanWords u o s ∨ (cleanWords u o s = [] ∧ t = []) := by
  rw [tokenize_eq]
  obtain ⟨h1, h2⟩ := sortedSet_spec (if cleanWords u o s = [] then [[]] else cleanWords u o s)
  refine ⟨h1, fun t => ?_⟩
  rw [h2]
  split
  · next h => simp [h]
  · next h => simp [h]

/-- **C50**: two strings which have the same set of cleaned words have the same fingerprint. -/
theorem fingerprint_same (o : Options) {s t : List Char} (h : ∀ w, w ∈ cleanWords u o s ↔ w ∈ cleanWords u o t) :
    tokenize u o s = tokenize u o t ∧ key u o s = key u o t := by
  have ht : tokenize u o s = tokenize u o t := by
    obtain ⟨a1, a2⟩ := fingerprint_tokens u o s
    obtain ⟨b1, b2⟩ := fingerprint_tokens u o t
    have hn : cleanWords u o s = [] ↔ cleanWords u o t = [] := by
      rw [List.eq_nil_iff_forall_not_mem, List.eq_nil_iff_forall_not_mem]
      simp only [h]
    refine sorted_ext a1 b1 fun w => ?_
    rw [a2, b2, h, hn]
  exact ⟨ht, by unfold key; rw [ht]⟩

/-- A lower case letter or a digit. -/
def Lawful.Simple (c : Char) : Prop := ('a' ≤ c ∧ c ≤ 'z') ∨ ('0' ≤ c ∧ c ≤ '9')

/-- The Unicode tables on simple characters: lower case ASCII letters, digits and the space. -/
structure Lawful : Prop where
  space : u.isSpace ' ' = true
  letter : ∀ c, Lawful.Simple c → u.isSpace c = false
  lower : ∀ s, (∀ c ∈ s, Lawful.Simple c ∨ c = ' ') → u.lower s = s
  unidecode : ∀ s, (∀ c ∈ s, Lawful.Simple c ∨ c = ' ') → u.unidecode s = s

theorem clean_allowed (hu : Lawful u) {s : List Char} (hs : ∀ c ∈ s, Lawful.Simple c ∨ c = ' ') : s.filter (allowed u) = s := by
  rw [List.filter_eq_self]
  intro c hc
  unfold allowed
  rcases hs c hc with h | h
  · simp only [Bool.or_eq_true, decide_eq_true_eq]; exact Or.inl h
  · rw [h, hu.space, Bool.or_true]

theorem clean_simple (hu : Lawful u) (o : Options) (hsplit : ∀ chars, o.split = some chars → ∀ c ∈ chars, ¬ Lawful.Simple c)
    (hstop : o.stopwords = none) (hd : o.keep_digits = true) (hm : o.min_token_size ≤ 1) {s : List Char}
    (hs : ∀ c ∈ s, Lawful.Simple c ∨ c = ' ') : clean u o s = s := by
  unfold clean
  have h1 : ∀ chars, o.split = some chars → (s.map fun c => if c ∈ chars then ' ' else c) = s := by
    intro chars hsp
    conv_rhs => rw [← List.map_id s]
    apply List.map_congr_left
    intro c hc
    split
    · next hin =>
        rcases hs c hc with h | h
        · exact absurd h (hsplit chars hsp c hin)
        · exact h.symm
    · rfl
  cases hsp : o.split with
  | none =>
      simp only [hstop, hd, if_true, hu.lower s hs, show ¬ o.min_token_size > 1 by omega, if_false, hu.unidecode s hs]
      exact clean_allowed u hu hs
  | some chars =>
      simp only [h1 chars hsp, hstop, hd, if_true, hu.lower s hs, show ¬ o.min_token_size > 1 by omega, if_false, hu.unidecode s hs]
      exact clean_allowed u hu hs

theorem clean_chars (o : Options) (s : List Char) : ∀ c ∈ clean u o s, Lawful.Simple c ∨ u.isSpace c = true := by
  intro c hc
  unfold clean at hc
  simp only at hc
  have := (List.mem_filter.mp hc).2
  unfold allowed at this
  simpa [Lawful.Simple] using this

theorem noConsecutive_word {w : List Char} : squeezed true (squeezed true w) = squeezed true w := by
  simp only [squeezed, if_true]
  exact (squeeze_partial w false).2.2

/-- **C50** partial: the fingerprint of a fingerprint is itself. Missing: when digits are dropped or a minimum token size is given it
may not be, see below. -/
theorem fingerprint_idempotent_partial (hu : Lawful u) (o : Options)
    (hsplit : ∀ chars, o.split = some chars → ∀ c ∈ chars, ¬ Lawful.Simple c)
    (hstop : o.stopwords = none) (hd : o.keep_digits = true) (hm : o.min_token_size ≤ 1) (s : List Char) :
    key u o (key u o s) = key u o s := by
  obtain ⟨a1, a2⟩ := fingerprint_tokens u o s
  have hword : ∀ w ∈ cleanWords u o s, w ≠ [] ∧ (∀ c ∈ w, Lawful.Simple c) ∧ squeezed o.squeeze w = w := by
    intro w hw
    obtain ⟨x, hx, rfl⟩ := List.mem_map.mp hw
    obtain ⟨x1, x2⟩ := mem_words hx
    have hsx : ∀ c ∈ x, Lawful.Simple c := by
      intro c hc
      obtain ⟨e1, e2⟩ := x2 c hc
      rcases clean_chars u o s c e2 with h | h
      · exact h
      · rw [e1] at h; simp at h
    cases o.squeeze with
    | false => exact ⟨x1, hsx, rfl⟩
    | true =>
        refine ⟨?_, ?_, noConsecutive_word⟩
        · simp only [squeezed, if_true, Utils.squeeze]
          exact subRuns_ne_nil _ x1
        · intro c hc
          simp only [squeezed, if_true, Utils.squeeze] at hc
          exact hsx c (subRuns_mem _ _ _ hc)
  have htok : ∀ w ∈ tokenize u o s, (∀ c ∈ w, Lawful.Simple c) ∧ squeezed o.squeeze w = w := by
    intro w hw
    rcases (a2 w).mp hw with h | ⟨_, rfl⟩
    · exact (hword w h).2
    · refine ⟨by simp, ?_⟩
      cases o.squeeze <;> simp [squeezed, Utils.squeeze, Utils.subRuns]
  have hkey : ∀ c ∈ key u o s, Lawful.Simple c ∨ c = ' ' := by
    intro c hc
    unfold key at hc
    have key : ∀ l : List (List Char), c ∈ [' '].intercalate l → c = ' ' ∨ ∃ w ∈ l, c ∈ w := by
      intro l
      induction l with
      | nil => simp
      | cons w l ih =>
          cases l with
          | nil => intro h; right; exact ⟨w, by simp, by simpa using h⟩
          | cons w' l =>
              rw [show [' '].intercalate (w :: w' :: l) = w ++ ' ' :: [' '].intercalate (w' :: l) by simp [List.intercalate_cons_cons]]
              intro h
              rcases List.mem_append.mp h with h | h
              · exact Or.inr ⟨w, by simp, h⟩
              · rcases List.mem_cons.mp h with h | h
                · exact Or.inl h
                · rcases ih h with h | ⟨x, hx, hc⟩
                  · exact Or.inl h
                  · exact Or.inr ⟨x, by simp [hx], hc⟩
    rcases key _ hc with h | ⟨w, hw, hcw⟩
    · exact Or.inr h
    · exact Or.inl ((htok w hw).1 c hcw)
  have hclean := clean_simple u hu o hsplit hstop hd hm hkey
  have hcw : cleanWords u o (key u o s) = (tokenize u o s).filter fun w => decide (w ≠ []) := by
    unfold cleanWords
    rw [hclean]
    unfold key
    rw [words_intercalate u.isSpace hu.space _ (fun w hw c hc => hu.letter c ((htok w hw).1 c hc))]
    conv_rhs => rw [← List.map_id ((tokenize u o s).filter fun w => decide (w ≠ []))]
    apply List.map_congr_left
    intro w hw
    exact (htok w (List.mem_filter.mp hw).1).2
  refine (fingerprint_same u o (s := key u o s) (t := s) fun w => ?_).2
  rw [hcw, List.mem_filter, a2, decide_eq_true_eq]
  constructor
  · rintro ⟨h | ⟨_, h⟩, hn⟩
    · exact h
    · exact absurd h hn
  · intro h
    exact ⟨Or.inl h, (hword w h).1⟩

/-! ### Minimum token size -/

theorem dropShort_inside (n : Nat) (w t : List Char) (hw : ∀ c ∈ w, u.isWord c = true) :
    dropShort u n 0 true (w ++ t) = w ++ dropShort u n 0 true t := by
  induction w with
  | nil => rfl
  | cons c w ih =>
      have hc := hw c (by simp)
      rw [List.cons_append, dropShort]
      simp only [shortMatch, hc, if_true]
      rw [ih (fun x hx => hw x (by simp [hx]))]
      rfl

theorem dropShort_skip (n : Nat) (w t : List Char) (prev : Bool) (hp : prev = true) (hw : ∀ c ∈ w, u.isWord c = true) :
    dropShort u n w.length prev (w ++ t) = dropShort u n 0 true t := by
  induction w generalizing prev with
  | nil => subst hp; rfl
  | cons c w ih =>
      rw [List.cons_append, List.length_cons, dropShort]
      exact ih _ (hw c (by simp)) (fun x hx => hw x (by simp [hx]))

theorem dropShort_space (n : Nat) (t : List Char) {c : Char} (h1 : u.isSpace c = true) (h2 : u.isWord c = false) :
    dropShort u n 0 true (c :: t) = c :: dropShort u n 0 false t := by
  rw [dropShort]
  have : shortMatch u n true (c :: t) = none := by
    unfold shortMatch
    simp only [h2, Bool.true_eq_false, if_false]
    rw [List.findSome?_eq_none_iff]
    intro k _
    simp [h1]
  simp only [this, h2]

theorem shortMatch_word (n : Nat) {w t : List Char} (hw : ∀ c ∈ w, u.isWord c = true ∧ u.isSpace c = false) (hn : w ≠ [])
    (ht : ∀ d, t.head? = some d → u.isSpace d = true ∧ u.isWord d = false) :
    shortMatch u n false (w ++ t) = if w.length ≤ n then some w.length else none := by
  cases w with
  | nil => exact absurd rfl hn
  | cons c w =>
      rw [List.cons_append]
      unfold shortMatch
      simp only [(hw c (by simp)).1, Bool.false_eq_true, if_false]
      rw [← List.cons_append]
      have hvalid : ∀ k, (k < (c :: w ++ t).length ∧ ((c :: w ++ t).take (k + 1)).all (fun x => !u.isSpace x) = true ∧
          ((c :: w ++ t)[k]?.any u.isWord) ≠ ((c :: w ++ t)[k + 1]?.any u.isWord)) ↔ k + 1 = (c :: w).length := by
        generalize hW : c :: w = W at hw
        intro k
        have hget : ∀ i, i < W.length → (W ++ t)[i]?.any u.isWord = true := by
          intro i hi
          rw [List.getElem?_append_left hi, List.getElem?_eq_getElem hi]
          exact (hw _ (List.getElem_mem hi)).1
        have hgett : (W ++ t)[W.length]?.any u.isWord = false := by
          rw [List.getElem?_append_right (le_refl _), Nat.sub_self, ← List.head?_eq_getElem?]
          cases hh : t.head? with
          | none => rfl
          | some d => exact (ht d hh).2
        constructor
        · rintro ⟨h1, h2, h3⟩
          by_contra hne
          rcases Nat.lt_or_ge (k + 1) W.length with hlt | hge
          · rw [hget k (by omega), hget (k + 1) hlt] at h3
            exact h3 rfl
          · have hgt : W.length < k + 1 := by omega
            rw [List.length_append] at h1
            have htl : 0 < t.length := by omega
            obtain ⟨d, t', rfl⟩ : ∃ d t', t = d :: t' := by
              cases t with
              | nil => simp at htl
              | cons d t' => exact ⟨d, t', rfl⟩
            have hmem : d ∈ (W ++ d :: t').take (k + 1) := by
              rw [List.take_append]
              apply List.mem_append_right
              obtain ⟨j, hj⟩ : ∃ j, k + 1 - W.length = j + 1 := ⟨k - W.length, by omega⟩
              rw [hj]
              simp
            rw [List.all_eq_true] at h2
            have := h2 d hmem
            rw [(ht d rfl).1] at this
            simp at this
        · intro hk
          refine ⟨by rw [List.length_append]; omega, ?_, ?_⟩
          · rw [hk, List.take_left, List.all_eq_true]
            intro x hx
            rw [(hw x hx).2]; rfl
          · rw [hget k (by omega), hk, hgett]
            simp
      split
      · next hle =>
          have hpos : 0 < (c :: w).length := by simp
          generalize hL : (c :: w).length = L at hvalid hle hpos
          rw [List.findSome?_eq_some_iff]
          have hr : (List.range n).reverse = ((List.range' L (n - L)).reverse) ++ (L - 1) :: (List.range (L - 1)).reverse := by
            have : List.range n = List.range (L - 1) ++ (L - 1) :: List.range' L (n - L) := by
              rw [List.range_eq_range', List.range_eq_range', show List.range' 0 n = List.range' 0 (L - 1) ++ List.range' (0 + 1 * (L - 1)) (n - (L - 1)) by
                rw [List.range'_append]; congr 1; omega]
              congr 1
              rw [show n - (L - 1) = (n - L) + 1 by omega, List.range'_succ]
              congr 1
              · omega
              · congr 1; omega
            rw [this]
            simp
          refine ⟨(List.range' L (n - L)).reverse, L - 1, (List.range (L - 1)).reverse, hr, ?_, ?_⟩
          · rw [if_pos ((hvalid (L - 1)).mpr (by omega))]
            congr 1
            omega
          · intro k hk
            rw [List.mem_reverse, List.mem_range'_1] at hk
            rw [if_neg]
            intro h
            have := (hvalid k).mp h
            omega
      · next hle =>
          rw [List.findSome?_eq_none_iff]
          intro k hk
          rw [List.mem_reverse, List.mem_range] at hk
          rw [if_neg]
          intro h
          have := (hvalid k).mp h
          omega

theorem dropShort_word (n : Nat) {w t : List Char} (hw : ∀ c ∈ w, u.isWord c = true ∧ u.isSpace c = false) (hn : w ≠ [])
    (ht : ∀ d, t.head? = some d → u.isSpace d = true ∧ u.isWord d = false) :
    dropShort u n 0 false (w ++ t) = (if w.length ≤ n then [] else w) ++ dropShort u n 0 true t := by
  have hm := shortMatch_word u n hw hn ht
  cases w with
  | nil => exact absurd rfl hn
  | cons c w =>
      have hc := (hw c (by simp)).1
      rw [List.cons_append] at hm ⊢
      rw [dropShort, hm]
      by_cases hle : (c :: w).length ≤ n
      · rw [if_pos hle, if_pos hle]
        simp only [List.length_cons, Nat.add_sub_cancel, hc, List.nil_append]
        exact dropShort_skip u n w t true rfl (fun x hx => (hw x (by simp [hx])).1)
      · rw [if_neg hle, if_neg hle]
        simp only [hc]
        rw [dropShort_inside u n w t (fun x hx => (hw x (by simp [hx])).1)]
        rfl

theorem dropShort_words (n : Nat) (h1 : u.isSpace ' ' = true) (h2 : u.isWord ' ' = false) (ws : List (List Char))
    (hw : ∀ w ∈ ws, w ≠ [] ∧ ∀ c ∈ w, u.isWord c = true ∧ u.isSpace c = false) :
    dropShort u n 0 false ([' '].intercalate ws) = [' '].intercalate (ws.map fun w => if w.length ≤ n then [] else w) := by
  induction ws with
  | nil => simp [dropShort]
  | cons w ws ih =>
      obtain ⟨hn, hwc⟩ := hw w (by simp)
      cases ws with
      | nil =>
          have := dropShort_word u n (t := []) hwc hn (by simp)
          rw [List.append_nil] at this
          rw [show [' '].intercalate [w] = w by simp, this]
          simp [dropShort]
      | cons w' ws =>
          rw [show [' '].intercalate (w :: w' :: ws) = w ++ ' ' :: [' '].intercalate (w' :: ws) by simp [List.intercalate_cons_cons],
            dropShort_word u n hwc hn (by
              intro d hd
              simp only [List.head?_cons, Option.some.injEq] at hd
              subst hd
              exact ⟨h1, h2⟩), dropShort_space u n _ h1 h2, ih (fun x hx => hw x (by simp [hx]))]
          simp [List.intercalate_cons_cons]

/-- **C50** is false: on a text made of simple words, a minimum token size `n` larger than one keeps the words which have *more* than `n`
characters. -/
theorem min_token_size_words (hu : Lawful u) (hword : ∀ c, Lawful.Simple c → u.isWord c = true) (hsp : u.isWord ' ' = false) (n : Nat)
    (hn : 1 < n) (ws : List (List Char)) (hw : ∀ w ∈ ws, w ≠ [] ∧ ∀ c ∈ w, Lawful.Simple c) :
    cleanWords u { min_token_size := n } ([' '].intercalate ws) = ws.filter fun w => decide (n < w.length) := by
  have hchars : ∀ ws : List (List Char), (∀ w ∈ ws, ∀ c ∈ w, Lawful.Simple c) → ∀ c ∈ [' '].intercalate ws, Lawful.Simple c ∨ c = ' ' := by
    intro ws
    induction ws with
    | nil => simp
    | cons w ws ih =>
        intro hw
        cases ws with
        | nil => intro c hc; exact Or.inl (hw w (by simp) c (by simpa using hc))
        | cons w' ws =>
            rw [show [' '].intercalate (w :: w' :: ws) = w ++ ' ' :: [' '].intercalate (w' :: ws) by simp [List.intercalate_cons_cons]]
            intro c hc
            rcases List.mem_append.mp hc with h | h
            · exact Or.inl (hw w (by simp) c h)
            · rcases List.mem_cons.mp h with h | h
              · exact Or.inr h
              · exact ih (fun x hx => hw x (by simp [hx])) c h
  have hs1 := hchars ws (fun w h => (hw w h).2)
  have hmap : ∀ w ∈ ws.map (fun w => if w.length ≤ n then [] else w), ∀ c ∈ w, Lawful.Simple c := by
    intro w hw' c hc
    obtain ⟨x, hx, rfl⟩ := List.mem_map.mp hw'
    split at hc
    · simp at hc
    · exact (hw x hx).2 c hc
  have hs2 := hchars _ hmap
  unfold cleanWords clean
  simp only [if_true, hu.lower _ hs1, show n > 1 from hn]
  rw [dropShort_words u n hu.space hsp ws (fun w h => ⟨(hw w h).1, fun c hc => ⟨hword c ((hw w h).2 c hc), hu.letter c ((hw w h).2 c hc)⟩⟩),
    hu.unidecode _ hs2, List.filter_eq_self.mpr (by
      intro c hc
      unfold allowed
      rcases hs2 c hc with h | h
      · simp only [Bool.or_eq_true, decide_eq_true_eq]; exact Or.inl h
      · rw [h, hu.space, Bool.or_true]),
    words_intercalate u.isSpace hu.space _ (fun w hw' c hc => hu.letter c (hmap w hw' c hc))]
  have : squeezed false = id := by funext w; simp [squeezed]
  rw [this, List.map_id, List.filter_map]
  clear hs1 hs2 hmap hchars
  induction ws with
  | nil => rfl
  | cons w ws ih =>
      have hwn := (hw w (by simp)).1
      have ih := ih (fun x hx => hw x (by simp [hx]))
      rw [List.filter_cons, List.filter_cons]
      by_cases hle : w.length ≤ n
      · simp only [Function.comp, hle, if_true, ne_eq, not_true_eq_false, decide_false, Bool.false_eq_true, if_false,
          show ¬ n < w.length by omega]
        exact ih
      · simp only [Function.comp, hle, if_false, ne_eq, hwn, not_false_eq_true, decide_true, if_true, show n < w.length by omega,
          List.map_cons]
        congr 1

/-! ### N-grams -/

/-- The n-gram fingerprint has the distinct n-grams of the cleaned text without separators, in increasing order. -/
theorem ngrams_fingerprint_tokens (o : Options) (n : Nat) (s : List Char) :
    (ngramsTokenize u o n s).Pairwise (· < ·) ∧ ∀ t, t ∈ ngramsTokenize u o n s ↔
      let text := (cleanWords u o s).flatten
      (text.length < n ∧ t = text) ∨ ∃ i, i + n ≤ text.length ∧ t = (text.drop i).take n := by
  have hflat : ∀ text, text.filter (fun c => !u.isSpace c) = (words u.isSpace text).flatten := by
    intro text
    induction text with
    | nil => rfl
    | cons c text ih =>
        by_cases hc : u.isSpace c = true
        · rw [words_space u.isSpace text hc, List.filter_cons]
          simp only [hc, Bool.not_true, Bool.false_eq_true, if_false]
          exact ih
        · rw [List.filter_cons]
          simp only [hc, Bool.not_false, if_true]
          rw [ih]
          unfold words
          rw [pieces]
          simp only [hc, Bool.false_eq_true, if_false]
          cases hp : pieces u.isSpace text with
          | nil => exact absurd hp (pieces_ne_nil _ _)
          | cons p ps =>
              rw [List.filter_cons, List.filter_cons]
              by_cases hpn : p = []
              · simp [hpn]
              · simp [hpn]
  unfold ngramsTokenize
  obtain ⟨h1, h2⟩ := sortedSet_spec (Ngrams.ngrams n ((trim u o (clean u o s)).filter fun c => !u.isSpace c))
  refine ⟨h1, fun t => ?_⟩
  rw [h2, hflat, words_trim]
  change _ ↔ ((cleanWords u o s).flatten.length < n ∧ t = (cleanWords u o s).flatten) ∨ _
  change t ∈ Ngrams.ngrams n (cleanWords u o s).flatten ↔ _
  generalize (cleanWords u o s).flatten = text
  rcases Nat.lt_or_ge text.length n with h | h
  · rw [ngrams_short n text h, List.mem_singleton]
    constructor
    · intro ht; exact Or.inl ⟨h, ht⟩
    · rintro (⟨_, ht⟩ | ⟨i, hi, _⟩)
      · exact ht
      · omega
  · obtain ⟨hl, hw⟩ := ngrams_windows n text h
    constructor
    · intro ht
      obtain ⟨i, hi, rfl⟩ := List.getElem_of_mem ht
      right
      rw [hl] at hi
      refine ⟨i, by omega, ?_⟩
      have := hw i hi
      rw [List.getElem?_eq_getElem (by rw [hl]; exact hi)] at this
      injection this
    · rintro (⟨h', _⟩ | ⟨i, hi, rfl⟩)
      · omega
      · exact List.mem_of_getElem? (hw i (by omega))

/-! ### Witnesses -/

/-- Tables for ASCII, where the superscript two is transliterated to a two, as `unidecode` does. -/
def ascii : Unicode where
  lower := List.map Char.toLower
  unidecode := List.map fun c => if c = '²' then '2' else c
  isDigit := Char.isDigit
  isWord := fun c => c.isAlphanum || c == '_'
  isSpace := Char.isWhitespace

theorem simple_table : ∀ c, Lawful.Simple c → ascii.isSpace c = false ∧ ascii.isWord c = true ∧ c.toLower = c ∧ c ≠ '²' := by
  intro c h
  have key : ∀ n : Fin 128, Lawful.Simple (Char.ofNat n.val) → ascii.isSpace (Char.ofNat n.val) = false ∧
      ascii.isWord (Char.ofNat n.val) = true ∧ (Char.ofNat n.val).toLower = Char.ofNat n.val ∧ Char.ofNat n.val ≠ '²' := by
    unfold Lawful.Simple
    decide +kernel
  have hlt : c.toNat < 128 := by
    rcases h with h | h
    · have : c.toNat ≤ 122 := h.2
      omega
    · have : c.toNat ≤ 57 := h.2
      omega
  have := key ⟨c.toNat, hlt⟩ (by simpa [Char.ofNat_toNat] using h)
  simpa [Char.ofNat_toNat] using this

theorem ascii_lawful : Lawful ascii := by
  refine ⟨rfl, fun c h => (simple_table c h).1, ?_, ?_⟩
  · intro s hs
    change s.map Char.toLower = s
    conv_rhs => rw [← List.map_id s]
    apply List.map_congr_left
    intro c hc
    rcases hs c hc with h | h
    · exact (simple_table c h).2.2.1
    · subst h; rfl
  · intro s hs
    change (s.map fun c => if c = '²' then '2' else c) = s
    conv_rhs => rw [← List.map_id s]
    apply List.map_congr_left
    intro c hc
    rw [if_neg]
    · rfl
    · rcases hs c hc with h | h
      · exact (simple_table c h).2.2.2
      · subst h; decide

/-- **C50** is false: a minimum token size of two drops words of two characters. -/
theorem min_token_size_two : cleanWords ascii { min_token_size := 2 } "to come".toList = ["come".toList] := by decide +kernel

theorem key_of_one (o : Options) {s w : List Char} (h : cleanWords u o s = [w]) : key u o s = w := by
  unfold key
  rw [tokenize_eq, h]
  simp [sortedSet, dedup]

theorem key_of_none (o : Options) {s : List Char} (h : cleanWords u o s = []) : key u o s = [] := by
  unfold key
  rw [tokenize_eq, h]
  simp [sortedSet, dedup]

/-- **C50** is false: without digits, a superscript is made a digit, which is dropped the second time. -/
theorem keep_digits_not_idempotent : key ascii { keep_digits := false } "m²".toList = "m2".toList ∧
    key ascii { keep_digits := false } "m2".toList = "m".toList :=
  ⟨key_of_one ascii _ (by decide +kernel), key_of_one ascii _ (by decide +kernel)⟩

/-- **C50** is false: with a minimum token size, the fingerprint of a fingerprint may lose a word. -/
theorem min_token_size_not_idempotent : key ascii { min_token_size := 2 } "a_b".toList = "ab".toList ∧
    key ascii { min_token_size := 2 } "ab".toList = [] :=
  ⟨key_of_one ascii _ (by decide +kernel), key_of_none ascii _ (by decide +kernel)⟩

example : cleanWords ascii {} "University   of of North-CarolINA!".toList = ["university", "of", "of", "northcarolina"].map String.toList ∧
    cleanWords ascii {} "NorthCarolina, university of".toList = ["northcarolina", "university", "of"].map String.toList := by
  decide +kernel

example : key ascii {} "University   of of North-CarolINA!".toList = key ascii {} "NorthCarolina, university of".toList := by
  apply (fingerprint_same ascii {} _).2
  have h : cleanWords ascii {} "University   of of North-CarolINA!".toList = ["university", "of", "of", "northcarolina"].map String.toList ∧
      cleanWords ascii {} "NorthCarolina, university of".toList = ["northcarolina", "university", "of"].map String.toList := by
    decide +kernel
  rw [h.1, h.2]
  intro w
  simp only [List.map_cons, List.map_nil, List.mem_cons, List.not_mem_nil, or_false]
  constructor <;> (intro h; rcases h with h | h | h | h <;> simp [h])

example (s : List Char) : key ascii { split := some ['-'], squeeze := true } (key ascii { split := some ['-'], squeeze := true } s) =
    key ascii { split := some ['-'], squeeze := true } s :=
  fingerprint_idempotent_partial ascii ascii_lawful _ (by
    intro chars h c hc
    simp only [Option.some.injEq] at h
    subst h
    rw [List.mem_singleton] at hc
    subst hc
    unfold Lawful.Simple
    decide) rfl rfl (by decide) s

example : cleanWords ascii { min_token_size := 3 } "the long and winding road".toList = ["long", "winding", "road"].map String.toList := by
  have h := min_token_size_words ascii ascii_lawful (fun c h => (simple_table c h).2.1) rfl 3 (by decide)
    (["the", "long", "and", "winding", "road"].map String.toList) (by
      unfold Lawful.Simple
      decide +kernel)
  have h1 : [' '].intercalate (["the", "long", "and", "winding", "road"].map String.toList) = "the long and winding road".toList := by
    decide +kernel
  rw [h1] at h
  rw [h]
  decide +kernel

end Fog.Props
