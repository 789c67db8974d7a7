import Verif.Props.Words
import Verif.Spec.CamelCase

/-!
# C102: where hashtags are cut
-/

namespace Fog.Props

open Words Spec

variable (u : Unicode)

theorem cutPlaces_cons {α : Type _} (offset : Nat) (t : List α) {ts : List (List α)} (h : ts ≠ []) :
    cutPlaces offset (t :: ts) = (offset + t.length) :: cutPlaces (offset + t.length) ts := by
  cases ts with
  | nil => exact absurd rfl h
  | cons a ts => rfl

theorem hashtagLoop_ne (s : List Char) : ∀ (rest : List Char) (st : HState) (offset i : Nat), hashtagLoop u s st offset i rest ≠ [] := by
  intro rest
  induction rest with
  | nil => intro st offset i; unfold hashtagLoop; simp
  | cons c rest ih =>
      intro st offset i
      unfold hashtagLoop
      cases st <;> simp only <;> split_ifs <;> first | exact ih _ _ _ | simp

/-- What a state says of the last characters; places are those of `k`, one less than those of the hashtag. -/
def StateOk (k : List Case) (i : Nat) : HState → Prop
  | .lower => k[i - 2]? = some .lower
  | .upperStart => k[i - 2]? = some .upper
  | .upperNext => 3 ≤ i ∧ k[i - 2]? = some .upper ∧ k[i - 3]? = some .upper
  | .number => k[i - 2]? = some .digit

/-- The first place which may still be cut. -/
def openFrom (i : Nat) : HState → Nat
  | .upperNext => i - 2
  | _ => i - 1

theorem hashtagLoop_cuts {s : List Char} {f : Char → Case} {k : List Case} (hk : k.length + 1 = s.length)
    (hf : ∀ i c, 2 ≤ i → s[i]? = some c → k[i - 1]? = some (f c) ∧ u.isUpper c = decide (f c = .upper) ∧ u.isLower c = decide (f c = .lower) ∧
      u.isDigit c = decide (f c = .digit)) :
    ∀ (rest : List Char) (st : HState) (offset i : Nat), s.drop i = rest → 2 ≤ i → i ≤ s.length → 1 ≤ offset → offset ≤ openFrom i st →
      StateOk k i st →
      cutPlaces (offset - 1) ((hashtagLoop u s st offset i rest).map Prod.snd) =
        (List.range' (openFrom i st) (k.length - openFrom i st)).filter fun p => cutBefore k p := by
  have step : ∀ {a : Nat}, a < k.length → List.range' a (k.length - a) = a :: List.range' (a + 1) (k.length - (a + 1)) := by
    intro a ha
    obtain ⟨n, hn⟩ : ∃ n, k.length - a = n + 1 := ⟨k.length - a - 1, by omega⟩
    rw [hn, List.range'_succ, show k.length - (a + 1) = n by omega]
  intro rest
  induction rest with
  | nil =>
      intro st offset i hr h2 hl ho hop hst
      have hi : i = s.length := by
        have := congrArg List.length hr
        simp at this
        omega
      unfold hashtagLoop
      simp only [List.map_cons, List.map_nil, cutPlaces]
      cases st with
      | upperNext =>
          obtain ⟨h3, h4, h5⟩ := hst
          simp only [openFrom] at hop ⊢
          rw [step (by omega), show k.length - (i - 2 + 1) = 0 by omega, List.range'_zero, List.filter_cons_of_neg]
          · rfl
          · have : k[i - 2 + 1]? = none := List.getElem?_eq_none (by omega)
            simp only [cutBefore, h4, show i - 2 - 1 = i - 3 by omega, h5, this]
            simp
      | lower => simp only [openFrom]; rw [show k.length - (i - 1) = 0 by omega]; rfl
      | upperStart => simp only [openFrom]; rw [show k.length - (i - 1) = 0 by omega]; rfl
      | number => simp only [openFrom]; rw [show k.length - (i - 1) = 0 by omega]; rfl
  | cons c rest ih =>
      intro st offset i hr h2 hl ho hop hst
      obtain ⟨hc, hr', hi⟩ := drop_cons hr
      obtain ⟨f1, f2, f3, f4⟩ := hf i c h2 hc
      have hlen : ∀ {b : Nat}, offset ≤ b → b ≤ s.length → offset - 1 + (slice s offset b).length = b - 1 := by
        intro b h1 h3
        rw [Pairwise.length_slice]
        omega
      -- No cut there, and the loop goes on.
      have go : ∀ st', openFrom (i + 1) st' = openFrom i st + 1 → cutBefore k (openFrom i st) = false → StateOk k (i + 1) st' →
          cutPlaces (offset - 1) ((hashtagLoop u s st' offset (i + 1) rest).map Prod.snd) =
            (List.range' (openFrom i st) (k.length - openFrom i st)).filter fun p => cutBefore k p := by
        intro st' h1 h3 h4
        rw [ih st' offset (i + 1) hr' (by omega) (by omega) ho (by omega) h4, h1, step (a := openFrom i st) (by cases st <;> simp only [openFrom] <;> omega),
          List.filter_cons_of_neg (by simp [h3])]
      -- A cut there.
      have cut : ∀ kind st', openFrom (i + 1) st' = openFrom i st + 1 → openFrom i st = i - 1 → cutBefore k (i - 1) = true →
          StateOk k (i + 1) st' →
          cutPlaces (offset - 1) (((kind, slice s offset i) :: hashtagLoop u s st' i (i + 1) rest).map Prod.snd) =
            (List.range' (openFrom i st) (k.length - openFrom i st)).filter fun p => cutBefore k p := by
        intro kind st' h1 h5 h3 h4
        rw [List.map_cons, cutPlaces_cons _ _ (by simpa using hashtagLoop_ne u s rest st' i (i + 1)), hlen (by omega) hl,
          ih st' i (i + 1) hr' (by omega) (by omega) (by omega) (by omega) h4, h1, h5, step (a := i - 1) (by omega),
          List.filter_cons_of_pos (p := fun p => cutBefore k p) h3]
      have e1 : i - 1 - 1 = i - 2 := by omega
      have e2 : i + 1 - 2 = i - 1 := by omega
      have e3 : i + 1 - 3 = i - 2 := by omega
      unfold hashtagLoop
      cases st with
      | lower =>
          simp only [StateOk] at hst
          simp only [f2, f4]
          cases hfc : f c <;> simp only [hfc, reduceCtorEq, decide_true, decide_false, if_true, Bool.false_eq_true, if_false] at f1 ⊢
          · exact cut _ _ (by simp only [openFrom]; omega) rfl (by simp only [cutBefore, e1, hst, f1]; simp; omega) (by simp only [StateOk, e2]; exact f1)
          · exact go _ (by simp only [openFrom]; omega) (by simp only [openFrom, cutBefore, e1, hst, f1]; simp) (by simp only [StateOk, e2]; exact f1)
          · exact cut _ _ (by simp only [openFrom]; omega) rfl (by simp only [cutBefore, e1, hst, f1]; simp; omega) (by simp only [StateOk, e2]; exact f1)
      | upperStart =>
          simp only [StateOk] at hst
          simp only [f2, f3, f4]
          cases hfc : f c <;> simp only [hfc, reduceCtorEq, decide_true, decide_false, if_true, Bool.false_eq_true, if_false] at f1 ⊢
          · rw [ih .upperNext offset (i + 1) hr' (by omega) (by omega) ho (by simp only [openFrom] at hop ⊢; omega)
              ⟨by omega, by rw [e2]; exact f1, by rw [e3]; exact hst⟩]
            simp only [openFrom, e2]
          · exact go _ (by simp only [openFrom]; omega) (by simp only [openFrom, cutBefore, e1, hst, f1]; simp) (by simp only [StateOk, e2]; exact f1)
          · exact cut _ _ (by simp only [openFrom]; omega) rfl (by simp only [cutBefore, e1, hst, f1]; simp; omega) (by simp only [StateOk, e2]; exact f1)
      | upperNext =>
          obtain ⟨h3, h4, h5⟩ := hst
          simp only [f3, f4]
          have e4 : i - 2 - 1 = i - 3 := by omega
          have e5 : i - 2 + 1 = i - 1 := by omega
          simp only [openFrom] at hop
          cases hfc : f c <;> simp only [hfc, reduceCtorEq, decide_true, decide_false, if_true, Bool.false_eq_true, if_false] at f1 ⊢
          · exact go .upperNext (by simp only [openFrom]; omega) (by simp only [openFrom, cutBefore, e4, e5, h4, h5, f1]; simp)
              ⟨by omega, by rw [e2]; exact f1, by rw [e3]; exact h4⟩
          · rw [List.map_cons, cutPlaces_cons _ _ (by simpa using hashtagLoop_ne u s rest .lower (i - 1) (i + 1)), hlen (by omega) (by omega),
              ih .lower (i - 1) (i + 1) hr' (by omega) (by omega) (by omega) (by simp only [openFrom]; omega)
                (by simp only [StateOk, e2]; exact f1)]
            simp only [openFrom]
            rw [step (a := i - 2) (by omega), List.filter_cons_of_pos (by simp only [cutBefore, e4, e5, h4, h5, f1]; simp; omega), e5,
              step (a := i - 1) (by omega), List.filter_cons_of_neg (by simp only [cutBefore, e1, h4, f1]; simp)]
            simp only [show i - 1 - 1 = i - 2 by omega, show i + 1 - 1 = i - 1 + 1 by omega]
          · rw [List.map_cons, cutPlaces_cons _ _ (by simpa using hashtagLoop_ne u s rest .number i (i + 1)), hlen (by omega) (by omega),
              ih .number i (i + 1) hr' (by omega) (by omega) (by omega) (by simp only [openFrom]; omega) (by simp only [StateOk, e2]; exact f1)]
            simp only [openFrom]
            rw [step (a := i - 2) (by omega), List.filter_cons_of_neg (by simp only [cutBefore, e4, e5, h4, h5, f1]; simp), e5,
              step (a := i - 1) (by omega), List.filter_cons_of_pos (by simp only [cutBefore, e1, h4, f1]; simp; omega)]
            simp only [show i + 1 - 1 = i - 1 + 1 by omega]
      | number =>
          simp only [StateOk] at hst
          simp only [f2, f4]
          cases hfc : f c <;> simp only [hfc, reduceCtorEq, decide_true, decide_false, if_true, Bool.false_eq_true, if_false] at f1 ⊢
          · exact cut _ _ (by simp only [openFrom]; omega) rfl (by simp only [cutBefore, e1, hst, f1]; simp; omega) (by simp only [StateOk, e2]; exact f1)
          · exact cut _ _ (by simp only [openFrom]; omega) rfl (by simp only [cutBefore, e1, hst, f1]; simp; omega) (by simp only [StateOk, e2]; exact f1)
          · exact go _ (by simp only [openFrom]; omega) (by simp only [openFrom, cutBefore, e1, hst, f1]; simp) (by simp only [StateOk, e2]; exact f1)

/-- **C102**: a hashtag of capitals, small letters and digits is cut exactly between digits and letters, between a small letter and a capital, and
before the last of several capitals when a small letter follows, where its first letter counts as a capital. -/
theorem split_hashtag_exact (f : Char → Case) (sigil c : Char) (w : List Char)
    (hf : ∀ x ∈ c :: w, u.isUpper x = decide (f x = .upper) ∧ u.isLower x = decide (f x = .lower) ∧ u.isDigit x = decide (f x = .digit)) :
    ∃ ts, splitHashtag u (sigil :: c :: w) = .ok ts ∧ (ts.flatMap fun t => t.2) = c :: w ∧
      cutPlaces 0 (ts.map Prod.snd) =
        (List.range (w.length + 1)).filter fun p => cutBefore ((if f c = .digit then .digit else .upper) :: w.map f) p := by
  obtain ⟨ts, h1, h2, _⟩ := split_hashtag_lossless u (s := sigil :: c :: w) (by simp)
  refine ⟨ts, h1, h2, ?_⟩
  unfold splitHashtag at h1
  simp only [List.getElem?_cons_succ, List.getElem?_cons_zero, Except.ok.injEq] at h1
  rw [← h1]
  have hd := (hf c (by simp)).2.2
  have key := hashtagLoop_cuts u (s := sigil :: c :: w) (f := f) (k := (if f c = .digit then .digit else .upper) :: w.map f) (by simp) (by
    intro i x hi hx
    obtain ⟨i, rfl⟩ : ∃ j, i = j + 2 := ⟨i - 2, by omega⟩
    simp only [List.getElem?_cons_succ] at hx
    refine ⟨?_, hf x (by simp [List.mem_of_getElem? hx])⟩
    simp [hx]) w (if u.isDigit c then .number else .upperStart) 1 2 rfl (by omega) (by simp) (by omega)
    (by split <;> simp [openFrom]) (by
      rw [hd]
      by_cases h : f c = .digit <;> simp [h, StateOk])
  simp only [Nat.sub_self] at key
  change cutPlaces 0 ((hashtagLoop u (sigil :: c :: w) _ 1 2 w).map Prod.snd) = _
  rw [key, show openFrom 2 (if u.isDigit c = true then .number else .upperStart) = 1 by split <;> rfl]
  simp only [List.length_cons, List.length_map, Nat.add_sub_cancel]
  rw [List.range_eq_range', List.range'_succ, List.filter_cons_of_neg (by simp [cutBefore])]

/-- **C102**: so that a small letter followed by capitals only is not cut, as it would be after two small letters. -/
theorem split_hashtag_first (sigil c : Char) (w : List Char) (hd : u.isDigit c = false)
    (hw : ∀ x ∈ w, u.isUpper x = true ∧ u.isLower x = false ∧ u.isDigit x = false) :
    splitHashtag u (sigil :: c :: w) = .ok [(.word, c :: w)] := by
  unfold splitHashtag
  simp only [List.getElem?_cons_succ, List.getElem?_cons_zero, hd, Bool.false_eq_true, if_false]
  have key : ∀ (rest : List Char) (st : HState) (i : Nat), (st = .upperStart ∨ st = .upperNext) → (∀ x ∈ rest, x ∈ w) →
      hashtagLoop u (sigil :: c :: w) st 1 i rest = [(.word, c :: w)] := by
    intro rest
    induction rest with
    | nil => intro st i hst _; rcases hst with rfl | rfl <;> rfl
    | cons x rest ih =>
        intro st i hst hx
        obtain ⟨h1, h2, h3⟩ := hw x (hx x (by simp))
        rcases hst with rfl | rfl
        · rw [hashtagLoop]; simp only [h1, h2, Bool.false_eq_true, if_false, if_true]
          exact ih _ _ (Or.inr rfl) (fun y hy => hx y (by simp [hy]))
        · rw [hashtagLoop]; simp only [h2, h3, Bool.false_eq_true, if_false]
          exact ih _ _ (Or.inr rfl) (fun y hy => hx y (by simp [hy]))
  rw [show (sigil :: c :: w).drop 2 = w from rfl, key w .upperStart 2 (Or.inl rfl) (fun _ h => h)]

example : splitHashtag asciiTable "#ParisNYCity24h".toList =
    .ok [(.word, "Paris".toList), (.word, "NY".toList), (.word, "City".toList), (.number, "24".toList), (.word, "h".toList)] ∧
    splitHashtag asciiTable "#iOS".toList = .ok [(.word, "iOS".toList)] ∧
    splitHashtag asciiTable "#myOS".toList = .ok [(.word, "my".toList), (.word, "OS".toList)] := by decide +kernel

/-- The case of ASCII letters and digits. -/
def asciiCase (c : Char) : Case := if asciiTable.isUpper c then .upper else if asciiTable.isDigit c then .digit else .lower

-- The first theorem applies to these characters.
example : ∀ x ∈ "ParisNYCity24h".toList, asciiTable.isUpper x = decide (asciiCase x = .upper) ∧
    asciiTable.isLower x = decide (asciiCase x = .lower) ∧ asciiTable.isDigit x = decide (asciiCase x = .digit) := by decide +kernel

end Fog.Props
