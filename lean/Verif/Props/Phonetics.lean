import Verif.Model.Phonetics
import Verif.Spec.Cologne
import Verif.Props.Fingerprint

/-!
# C55, C56: phonetic codes
-/

namespace Fog.Props

open Phonetics

/-! ### Cologne -/

/-- A capital letter. -/
def CologneLetter (c : Char) : Prop := 'A' ≤ c ∧ c ≤ 'Z'

/-- The name has no `P` before a `H`. -/
def NoPH : List Char → Prop
  | [] => True
  | c :: s => ¬ (c = 'P' ∧ s.head? = some 'H') ∧ NoPH s

theorem capital_letters (c : Char) (h : CologneLetter c) : c ∈ "ABCDEFGHIJKLMNOPQRSTUVWXYZ".toList := by
  have key : ∀ n : Fin 91, 'A' ≤ Char.ofNat n.val → Char.ofNat n.val ∈ "ABCDEFGHIJKLMNOPQRSTUVWXYZ".toList := by decide +kernel
  have hlt : c.toNat < 91 := by
    have : c.toNat ≤ 90 := h.2
    omega
  have := key ⟨c.toNat, hlt⟩ (by simpa [Char.ofNat_toNat] using h.1)
  simpa [Char.ofNat_toNat] using this

/-- The code of a letter from those before and after. -/
def someCode (l : List Char) : Option (List Char) := if l = [] then none else some l

theorem any_contains (o : Option Char) (l : List Char) : o.any l.contains = decide (∃ x ∈ l, o = some x) := by
  cases o with
  | none => simp
  | some c => simp

theorem codeAt_eq (pre : List Char) (c : Char) (s : List Char) (hP : ¬ (c = 'P' ∧ s.head? = some 'H')) (hc : CologneLetter c) :
    codeAt (pre ++ c :: s) pre.length c = someCode (Spec.Cologne.code pre.getLast? c s.head?) := by
  have hn : (pre ++ c :: s)[pre.length + 1]? = s.head? := by
    rw [List.getElem?_append_right (by omega), show pre.length + 1 - pre.length = 1 by omega]
    cases s <;> rfl
  have hl : pre.length < (pre ++ c :: s).length - 1 ↔ s.head? ≠ none := by
    rw [List.length_append, List.length_cons]
    cases s with
    | nil => simp
    | cons d s => simp
  have hlen : (pre ++ c :: s).length > 1 ↔ pre ≠ [] ∨ s.head? ≠ none := by
    rw [List.length_append, List.length_cons]
    cases pre with
    | nil =>
        cases s with
        | nil => simp
        | cons d s => simp
    | cons d pre => simp; omega
  have hb : pre ≠ [] → before (pre ++ c :: s) pre.length = pre.getLast? := by
    intro hpre
    unfold before
    have hpos : 0 < pre.length := List.length_pos_iff.mpr hpre
    rw [if_neg (by omega), List.getElem?_append_left (by omega), List.getLast?_eq_getElem?]
  have hi : pre.length = 0 ↔ pre = [] := List.length_eq_zero_iff
  have hlast : pre.getLast? = none ↔ pre = [] := List.getLast?_eq_none_iff
  have hmem := capital_letters c hc
  have dt : ∀ x, x = 'D' ∨ x = 'T' → c = x → codeAt (pre ++ c :: s) pre.length c = someCode (Spec.Cologne.code pre.getLast? c s.head?) := by
    rintro x hx rfl
    have e1 : codes c = none := by rcases hx with rfl | rfl <;> decide
    have e2 : Spec.Cologne.code pre.getLast? c s.head? = if ∃ x ∈ ['C', 'S', 'Z'], s.head? = some x then ['8'] else ['2'] := by
      rcases hx with rfl | rfl <;> rfl
    rw [e2]
    unfold codeAt
    simp only [e1, hx, if_true, hn, hl, any_contains, DT, decide_eq_true_eq]
    by_cases h : ∃ x ∈ ['C', 'S', 'Z'], s.head? = some x
    · have h0 : s.head? ≠ none := by
        obtain ⟨x, _, hx⟩ := h
        rw [hx]; simp
      simp only [h, h0, ne_eq, not_false_eq_true, and_self, if_true, someCode, reduceCtorEq, if_false]
    · simp only [h, and_false, if_false, someCode, reduceCtorEq]
  simp only [String.toList_ofList, List.mem_cons, List.not_mem_nil, or_false, show "ABCDEFGHIJKLMNOPQRSTUVWXYZ".toList =
    ['A', 'B', 'C', 'D', 'E', 'F', 'G', 'H', 'I', 'J', 'K', 'L', 'M', 'N', 'O', 'P', 'Q', 'R', 'S', 'T', 'U', 'V', 'W', 'X', 'Y', 'Z']
    by decide] at hmem
  rcases hmem with h | h | h | h | h | h | h | h | h | h | h | h | h | h | h | h | h | h | h | h | h | h | h | h | h | h
  case inr.inr.inl =>
    -- C
    subst h
    have e2 : Spec.Cologne.code pre.getLast? 'C' s.head? =
        if pre.getLast? = none then if ∃ x ∈ ['A', 'H', 'K', 'L', 'O', 'Q', 'R', 'U', 'X'], s.head? = some x then ['4'] else ['8']
        else if pre.getLast? = some 'S' ∨ pre.getLast? = some 'Z' then ['8']
        else if ∃ x ∈ ['A', 'H', 'K', 'O', 'Q', 'U', 'X'], s.head? = some x then ['4'] else ['8'] := rfl
    rw [e2]
    unfold codeAt
    simp only [show codes 'C' = none by decide, show ¬ ('C' = 'D' ∨ 'C' = 'T') by decide, if_false, if_true, hn, hl, hlen, any_contains,
      CFOLLOWING1, CFOLLOWING2, decide_eq_true_eq, hi]
    by_cases hpre : pre = []
    · have hsub : (∃ x ∈ ['A', 'H', 'K', 'O', 'Q', 'U', 'X'], s.head? = some x) →
          ∃ x ∈ ['A', 'H', 'K', 'L', 'O', 'Q', 'R', 'U', 'X'], s.head? = some x := by
        rintro ⟨x, hx, h⟩
        refine ⟨x, ?_, h⟩
        revert hx
        simp only [List.mem_cons, List.not_mem_nil, or_false]
        grind
      rw [if_pos (hlast.mpr hpre)]
      by_cases h1 : ∃ x ∈ ['A', 'H', 'K', 'L', 'O', 'Q', 'R', 'U', 'X'], s.head? = some x
      · have h0 : s.head? ≠ none := by
          obtain ⟨x, _, hx⟩ := h1
          rw [hx]; simp
        rw [if_pos (Or.inl ⟨Or.inr h0, hpre, h1⟩), if_pos h1]
        rfl
      · rw [if_neg (by
          rintro (⟨_, _, h⟩ | ⟨_, h, _⟩)
          · exact h1 h
          · exact h1 (hsub h)), if_neg h1]
        rfl
    · rw [if_neg (fun h => hpre (hlast.mp h)), hb hpre]
      obtain ⟨p, hp⟩ : ∃ p, pre.getLast? = some p := by
        cases hp : pre.getLast? with
        | none => exact absurd (hlast.mp hp) hpre
        | some p => exact ⟨p, rfl⟩
      rw [hp]
      by_cases hsz : some p = some 'S' ∨ some p = some 'Z'
      · rw [if_pos hsz, if_neg]
        · rfl
        · rintro (⟨_, h, _⟩ | ⟨_, _, h⟩)
          · exact hpre h
          · simp only [Option.some.injEq] at hsz
            rcases hsz with rfl | rfl <;> revert h <;> decide
      · rw [if_neg hsz]
        by_cases h1 : ∃ x ∈ ['A', 'H', 'K', 'O', 'Q', 'U', 'X'], s.head? = some x
        · have h0 : s.head? ≠ none := by
            obtain ⟨x, _, hx⟩ := h1
            rw [hx]; simp
          rw [if_pos, if_pos h1]
          · rfl
          · right
            refine ⟨h0, h1, ?_⟩
            simpa [CPREVIOUS] using hsz
        · rw [if_neg, if_neg h1]
          · rfl
          · rintro (⟨_, h, _⟩ | ⟨_, h, _⟩)
            · exact hpre h
            · exact h1 h
  case inr.inr.inr.inr.inr.inr.inr.inr.inr.inr.inr.inr.inr.inr.inr.inr.inr.inr.inr.inr.inr.inr.inr.inl =>
    -- X
    subst h
    have e2 : Spec.Cologne.code pre.getLast? 'X' s.head? =
        if ∃ x ∈ ['C', 'K', 'Q'], pre.getLast? = some x then ['8'] else ['4', '8'] := rfl
    rw [e2]
    unfold codeAt
    simp only [show codes 'X' = none by decide, show ¬ ('X' = 'D' ∨ 'X' = 'T') by decide, show ¬ ('X' = 'C') by decide, if_false, if_true]
    by_cases hpre : pre = []
    · subst hpre
      simp [someCode]
    · have hpos : pre.length > 0 := List.length_pos_iff.mpr hpre
      rw [hb hpre, any_contains]
      have he : (∃ x ∈ XS, pre.getLast? = some x) ↔ ∃ x ∈ ['C', 'K', 'Q'], pre.getLast? = some x := by
        simp only [XS, List.mem_cons, List.not_mem_nil, or_false]
        grind
      simp only [hpos, true_and, decide_eq_true_eq, he]
      by_cases h1 : ∃ x ∈ ['C', 'K', 'Q'], pre.getLast? = some x
      · rw [if_pos h1, if_pos h1]; rfl
      · rw [if_neg h1, if_neg h1]; rfl
  case inr.inr.inr.inl => exact dt 'D' (Or.inl rfl) h
  case inr.inr.inr.inr.inr.inr.inr.inr.inr.inr.inr.inr.inr.inr.inr.inr.inr.inr.inr.inl => exact dt 'T' (Or.inr rfl) h
  case inr.inr.inr.inr.inr.inr.inr.inr.inr.inr.inr.inr.inr.inr.inr.inl =>
    subst h
    have : s.head? ≠ some 'H' := fun h => hP ⟨rfl, h⟩
    simp [codeAt, codes, Spec.Cologne.code, someCode, this]
  all_goals
    subst h
    simp [codeAt, codes, Spec.Cologne.code, someCode]

theorem codeList_eq (pre s : List Char) (hc : ∀ c ∈ s, CologneLetter c) (hP : NoPH s) :
    ((s.zipIdx pre.length).filterMap fun x => codeAt (pre ++ s) x.2 x.1) =
      (Spec.Cologne.codes pre.getLast? s).filter fun l => decide (l ≠ []) := by
  induction s generalizing pre with
  | nil => rfl
  | cons c s ih =>
      have h1 := codeAt_eq pre c s hP.1 (hc c (by simp))
      have h2 := ih (pre ++ [c]) (fun x hx => hc x (by simp [hx])) hP.2
      rw [List.append_assoc, List.length_append, List.getLast?_append] at h2
      simp only [List.singleton_append, List.length_singleton, List.getLast?_singleton, Option.some_or] at h2
      rw [List.zipIdx_cons, List.filterMap_cons, Spec.Cologne.codes, List.filter_cons]
      simp only [h1, h2]
      unfold someCode
      by_cases hx : Spec.Cologne.code pre.getLast? c s.head? = []
      · simp [hx]
      · simp [hx]

/-- **C55**: the codes are those of the table of Cologne phonetics, when no `P` is before a `H`. -/
theorem cologne_codes {name : List Char} (hc : ∀ c ∈ name, CologneLetter c) (hP : NoPH name) :
    codeList name = (Spec.Cologne.codes none name).filter fun l => decide (l ≠ []) :=
  codeList_eq [] name hc hP

theorem collapse_eq (s : List Char) (h : '\n' ∉ s) : Utils.squeeze s false = Spec.Cologne.collapse s := by
  change Utils.subRuns (fun c => c != '\n') s = _
  have cons : ∀ (c : Char) (s : List Char), c ≠ '\n' → Spec.Cologne.collapse (c :: s) = c :: Spec.Cologne.collapse (s.dropWhile (· == c)) := by
    intro c s hc
    induction s with
    | nil => rfl
    | cons d s ih =>
        rw [Spec.Cologne.collapse]
        by_cases hd : c = d
        · subst hd
          rw [if_pos rfl, ih]
          simp
        · rw [if_neg hd]
          have : ¬ (d == c) = true := by simpa using fun h => hd h.symm
          rw [List.dropWhile_cons, if_neg this]
  induction s using Utils.subRuns.induct (fun c => c != '\n') with
  | case1 => simp [Utils.subRuns, Spec.Cologne.collapse]
  | case2 c s hc ih =>
      rw [Utils.subRuns, if_pos hc, cons c s (by simpa using hc), ih]
      intro hn
      exact h (List.mem_cons_of_mem _ ((List.dropWhile_sublist _).subset hn))
  | case3 c s hc ih =>
      simp only [bne_iff_ne, ne_eq, Decidable.not_not] at hc
      subst hc
      simp at h

/-- The digits of the codes. -/
theorem codeAt_digits (name : List Char) (i : Nat) (c : Char) {l : List Char} (h : codeAt name i c = some l) :
    (∃ d, l = [d] ∧ d ∈ ['0', '1', '2', '3', '4', '5', '6', '7', '8']) ∨ l = ['4', '8'] := by
  unfold codeAt at h
  have hcodes : ∀ d, codes c = some d → d ∈ ['0', '1', '2', '3', '4', '5', '6', '7', '8'] := by
    intro d hd
    unfold codes at hd
    repeat' split at hd
    all_goals first | (injection hd with hd; subst hd; decide) | simp at hd
  simp only at h
  split at h
  · next d hd =>
      injection h with h
      exact Or.inl ⟨d, h.symm, hcodes d hd⟩
  · repeat' split at h
    all_goals first
      | (injection h with h; subst h; exact Or.inl ⟨_, rfl, by decide⟩)
      | (injection h with h; subst h; exact Or.inr rfl)
      | simp at h

/-- **C55** partial: the code is made of digits from 0 to 8, and has no 0 but as its first digit. Missing: two equal consecutive digits
may be in the code, see below. -/
theorem cologne_digits_partial (upper unidecode : List Char → List Char) (name : List Char) :
    (∀ c ∈ cologne upper unidecode name, c ∈ ['0', '1', '2', '3', '4', '5', '6', '7', '8']) ∧
    '0' ∉ (cologne upper unidecode name).tail := by
  unfold cologne
  generalize prepare upper unidecode name = n
  have hd : ∀ l ∈ codeList n, (∃ d, l = [d] ∧ d ∈ ['0', '1', '2', '3', '4', '5', '6', '7', '8']) ∨ l = ['4', '8'] := by
    intro l hl
    obtain ⟨x, _, hx⟩ := List.mem_filterMap.mp hl
    exact codeAt_digits _ _ _ hx
  have hd' : ∀ l ∈ codeList n, ∀ c ∈ l, c ∈ ['0', '1', '2', '3', '4', '5', '6', '7', '8'] := by
    intro l hl c hc
    rcases hd l hl with ⟨d, rfl, h⟩ | rfl
    · rw [List.mem_singleton] at hc; rw [hc]; exact h
    · simp only [List.mem_cons, List.not_mem_nil, or_false] at hc
      rcases hc with rfl | rfl <;> decide
  cases hc : codeList n with
  | nil => simp [finishCode]
  | cons l code =>
      rw [hc] at hd hd'
      rw [finishCode]
      constructor
      · intro c hcm
        rcases List.mem_append.mp hcm with h | h
        · exact hd' l (by simp) c h
        · have h1 := subRuns_mem _ _ _ (List.mem_filter.mp h).1
          obtain ⟨x, hx, hcx⟩ := List.mem_flatten.mp h1
          exact hd' x (by simp [hx]) c hcx
      · have hz : '0' ∉ (Utils.squeeze code.flatten false).filter (· ≠ '0') := by
          intro h
          have := (List.mem_filter.mp h).2
          simp at this
        rcases hd l (by simp) with ⟨d, rfl, _⟩ | rfl
        · simpa using hz
        · intro h
          have h' : '0' ∈ '8' :: (Utils.squeeze code.flatten false).filter (· ≠ '0') := h
          rcases List.mem_cons.mp h' with h | h
          · exact absurd h (by decide)
          · exact hz h

/-- **C55** partial: the code is the one of Cologne phonetics when the second code does not begin with the last digit of the first one,
and no `P` is before a `H` in the letters of the name. -/
theorem cologne_standard_partial (upper unidecode : List Char → List Char) {name : List Char} (hP : NoPH (prepare upper unidecode name))
    (hfirst : ∀ a b rest, ((Spec.Cologne.codes none (prepare upper unidecode name)).filter fun l => decide (l ≠ [])) = a :: b :: rest →
      b.head? ≠ a.getLast?) :
    cologne upper unidecode name = Spec.Cologne.cologne (prepare upper unidecode name) := by
  have hcap : ∀ c ∈ prepare upper unidecode name, CologneLetter c := by
    intro c hc
    unfold prepare at hc
    have := (List.mem_filter.mp hc).2
    simpa [CologneLetter] using this
  unfold cologne Spec.Cologne.cologne
  generalize prepare upper unidecode name = n at hP hfirst hcap
  have hcodes := cologne_codes hcap hP
  have hflat : (Spec.Cologne.codes none n).flatten = (codeList n).flatten := by
    rw [hcodes]
    generalize Spec.Cologne.codes none n = L
    induction L with
    | nil => rfl
    | cons a L ih =>
        by_cases ha : a = []
        · simp [ha, ih]
        · simp [ha, ih]
  rw [hflat]
  rw [← hcodes] at hfirst
  have hd : ∀ l ∈ codeList n, (∃ d, l = [d] ∧ d ∈ ['0', '1', '2', '3', '4', '5', '6', '7', '8']) ∨ l = ['4', '8'] := by
    intro l hl
    obtain ⟨x, _, hx⟩ := List.mem_filterMap.mp hl
    exact codeAt_digits _ _ _ hx
  have hnl : '\n' ∉ (codeList n).flatten := by
    intro h
    obtain ⟨l, hl, hc⟩ := List.mem_flatten.mp h
    rcases hd l hl with ⟨d, rfl, h⟩ | rfl
    · rw [List.mem_singleton] at hc; rw [← hc] at h; exact absurd h (by decide)
    · exact absurd hc (by decide)
  rw [← collapse_eq _ hnl]
  generalize codeList n = L at hfirst hd hnl
  cases L with
  | nil => simp [finishCode, Utils.squeeze, Utils.subRuns, Spec.Cologne.dropZeros]
  | cons a L =>
      have hhead : ∀ d, L.flatten.head? = some d → a.getLast? ≠ some d := by
        intro d hdl
        cases L with
        | nil => simp at hdl
        | cons b L =>
            have hab := hfirst a b L rfl
            have hb : b ≠ [] := by
              rcases hd b (by simp) with ⟨x, rfl, _⟩ | rfl <;> simp
            have hbd : b.head? = some d := by
              cases b with
              | nil => exact absurd rfl hb
              | cons x b => simpa using hdl
            intro h
            exact hab (hbd.trans h.symm)
      rw [finishCode, List.flatten_cons]
      rcases hd a (by simp) with ⟨x, rfl, _⟩ | rfl
      · have : Utils.squeeze ([x] ++ L.flatten) false = x :: Utils.squeeze L.flatten false :=
          subRuns_cons_ne _ x (fun d hdl h => hhead d hdl (by rw [h]; rfl))
        rw [this]
        rfl
      · have h8 : Utils.squeeze ('8' :: L.flatten) false = '8' :: Utils.squeeze L.flatten false :=
          subRuns_cons_ne _ '8' (fun d hdl h => hhead d hdl (by rw [h]; rfl))
        have : Utils.squeeze (['4', '8'] ++ L.flatten) false = '4' :: '8' :: Utils.squeeze L.flatten false := by
          rw [← h8]
          exact subRuns_cons_ne _ '4' (fun d hdl h => by
            rw [h] at hdl
            have h84 : some '8' = some '4' := hdl
            exact absurd h84 (by decide))
        rw [this]
        rfl

/-- **C55** is false: a letter doubled at the beginning gives its digit twice, while Cologne phonetics gives it once. -/
theorem cologne_doubled : cologne id id "BB".toList = "11".toList ∧ Spec.Cologne.cologne "BB".toList = "1".toList := by
  constructor
  · decide +kernel
  · decide +kernel

/-- **C55** is false: equal digits may also follow each other because of a vowel, as in Cologne phonetics. -/
theorem cologne_vowel : cologne id id "BAB".toList = "11".toList ∧ Spec.Cologne.cologne "BAB".toList = "11".toList := by
  constructor
  · decide +kernel
  · decide +kernel

/-- `PH` is only seen before the other characters are dropped. -/
theorem cologne_ph : cologne id id "P-H".toList = "1".toList ∧ cologne id id "PH".toList = "3".toList ∧
    Spec.Cologne.cologne "PH".toList = "3".toList := by
  refine ⟨?_, ?_, ?_⟩ <;> decide +kernel

example : cologne id id "MÜLLER-LÜDENSCHEIDT".toList = "65752682".toList := by
  have hp : prepare id id "MÜLLER-LÜDENSCHEIDT".toList = "MULLERLUDENSCHEIDT".toList := by decide +kernel
  rw [cologne_standard_partial id id (by rw [hp]; simp [NoPH]) (by
    rw [hp, show ((Spec.Cologne.codes none "MULLERLUDENSCHEIDT".toList).filter fun l => decide (l ≠ [])) =
      ["6", "0", "5", "5", "0", "7", "5", "0", "2", "0", "6", "8", "8", "0", "0", "2", "2"].map String.toList by decide +kernel]
    intro a b rest h
    simp only [List.map_cons, List.cons.injEq] at h
    rw [← h.1, ← h.2.1]
    decide), hp]
  decide +kernel

/-! ### Rusalka -/

/-- The string has something else than `h`. -/
def Solid (s : List Char) : Prop := ∃ c ∈ s, c ≠ 'h'

theorem subst_none (m : Bool → List Char → Nat) (r : List Char) (s : List Char) : ∀ first,
    subst m r 0 first s = s ∨ ∃ a b, subst m r 0 first s = a ++ r ++ b := by
  induction s with
  | nil => intro first; exact Or.inl rfl
  | cons c s ih =>
      intro first
      rw [subst]
      split
      · rcases ih false with h | ⟨a, b, h⟩
        · exact Or.inl (by rw [h])
        · exact Or.inr ⟨c :: a, b, by rw [h]; rfl⟩
      · next k _ => exact Or.inr ⟨[], subst m r k false s, by simp⟩

theorem subst_solid (m : Bool → List Char → Nat) {r : List Char} (hr : Solid r) {s : List Char} (hs : Solid s) :
    Solid (subst m r 0 true s) := by
  rcases subst_none m r s true with h | ⟨a, b, h⟩
  · rw [h]; exact hs
  · rw [h]
    obtain ⟨c, hc, hn⟩ := hr
    exact ⟨c, by simp [hc], hn⟩

/-- A substitution by something which begins with another letter does nothing on `h`s. -/
theorem subst_h (m : Bool → List Char → Nat) (r : List Char) (hm : ∀ first s, (∀ c ∈ s, c = 'h') → m first s = 0) {s : List Char}
    (hs : ∀ c ∈ s, c = 'h') : ∀ first, subst m r 0 first s = s := by
  induction s with
  | nil => intro first; rfl
  | cons c s ih =>
      intro first
      rw [subst, hm first (c :: s) hs]
      simp only
      rw [ih (fun x hx => hs x (by simp [hx])) false]

theorem not_solid {s : List Char} : ¬ Solid s ↔ ∀ c ∈ s, c = 'h' := by
  unfold Solid
  constructor
  · intro h c hc
    by_contra hn
    exact h ⟨c, hc, hn⟩
  · rintro h ⟨c, hc, hn⟩
    exact hn (h c hc)

/-- The rules after the second one. -/
theorem rules_tail_nil (s : List Char) :
    (let name := subst mF ['f'] 0 true s
     let name := subst mE ['J'] 0 true name
     let name := subst mCh ['ʃ'] 0 true name
     let name := subst mZh ['ʒ'] 0 true name
     let name := replace ['k', 's'] ['x'] name
     let name := subst mY ['j'] 0 true name
     let name := subst mK ['k'] 0 true name
     name.filter (· ≠ 'h')) = [] ↔ ∀ c ∈ s, c = 'h' := by
  have single : ∀ c : Char, c ≠ 'h' → Solid [c] := fun c h => ⟨c, by simp, h⟩
  simp only
  constructor
  · intro h
    rw [← not_solid]
    intro hs
    have h1 := subst_solid mF (single 'f' (by decide)) hs
    have h2 := subst_solid mE (single 'J' (by decide)) h1
    have h3 := subst_solid mCh (single 'ʃ' (by decide)) h2
    have h4 := subst_solid mZh (single 'ʒ' (by decide)) h3
    have h5 := subst_solid (literal ['k', 's']) (single 'x' (by decide)) h4
    have h6 := subst_solid mY (single 'j' (by decide)) h5
    have h7 := subst_solid mK (single 'k' (by decide)) h6
    obtain ⟨c, hc, hn⟩ := h7
    have : c ∈ ([] : List Char) := by
      rw [← h]
      exact List.mem_filter.mpr ⟨hc, by simpa using hn⟩
    simp at this
  · intro h
    have hm : ∀ (m : Bool → List Char → Nat), (∀ first, m first [] = 0) → (∀ first s, m first ('h' :: s) = 0) → ∀ first s,
        (∀ c ∈ s, c = 'h') → m first s = 0 := by
      intro m h0 h1 first s hs
      cases s with
      | nil => exact h0 first
      | cons c s => rw [hs c (by simp)]; exact h1 first s
    have e1 := subst_h mF ['f'] (hm _ (by intro f; rfl) (by intro f s; rfl)) h true
    have e2 := subst_h mE ['J'] (hm _ (by intro f; cases f <;> rfl) (by intro f s; cases f <;> rfl)) h true
    have e3 := subst_h mCh ['ʃ'] (hm _ (by intro f; rfl) (by intro f s; rfl)) h true
    have e4 := subst_h mZh ['ʒ'] (hm _ (by intro f; rfl) (by intro f s; rfl)) h true
    have e5 := subst_h (literal ['k', 's']) ['x'] (hm _ (by intro f; rfl) (by intro f s; simp [literal])) h true
    have e6 := subst_h mY ['j'] (hm _ (by intro f; rfl) (by intro f s; rfl)) h true
    have e7 := subst_h mK ['k'] (hm _ (by intro f; rfl) (by intro f s; rfl)) h true
    rw [e1, e2, e3, e4]
    unfold replace
    rw [e5, e6, e7, List.filter_eq_nil_iff]
    intro c hc
    simp [h c hc]

theorem dropEnd_h (s : List Char) : (∀ c ∈ dropEnd s, c = 'h') ↔
    ∃ n, s = List.replicate n 'h' ∨ s = List.replicate n 'h' ++ ['i', 'j'] ∨ s = List.replicate n 'h' ++ ['i', 'y'] := by
  have all : ∀ l : List Char, (∀ c ∈ l, c = 'h') → l = List.replicate l.length 'h' := fun l h => List.eq_replicate_iff.mpr ⟨rfl, h⟩
  induction s using dropEnd.induct with
  | case1 => simp only [dropEnd]; exact ⟨fun _ => ⟨0, Or.inl rfl⟩, by simp⟩
  | case2 c =>
      simp only [dropEnd, List.mem_singleton, forall_eq]
      constructor
      · rintro rfl; exact ⟨1, Or.inl rfl⟩
      · rintro ⟨n, h | h | h⟩
        · exact List.eq_of_mem_replicate (h ▸ List.mem_singleton.mpr rfl)
        · have := congrArg List.length h; simp at this
        · have := congrArg List.length h; simp at this
  | case3 c d s h =>
      rw [dropEnd, if_pos h]
      obtain ⟨rfl, hd, rfl⟩ := h
      simp only [List.not_mem_nil, false_imp_iff, implies_true, true_iff]
      rcases hd with rfl | rfl
      · exact ⟨0, Or.inr (Or.inl rfl)⟩
      · exact ⟨0, Or.inr (Or.inr rfl)⟩
  | case4 c d s h ih =>
      rw [dropEnd, if_neg h]
      simp only [List.forall_mem_cons, ih]
      constructor
      · rintro ⟨rfl, n, hn⟩
        refine ⟨n + 1, ?_⟩
        rcases hn with hn | hn | hn <;> rw [hn] <;> simp [List.replicate_succ]
      · rintro ⟨n, hn⟩
        cases n with
        | zero =>
            simp only [List.replicate_zero, List.nil_append, reduceCtorEq, List.cons.injEq, false_or] at hn
            exfalso
            apply h
            rcases hn with ⟨rfl, rfl, rfl⟩ | ⟨rfl, rfl, rfl⟩ <;> simp
        | succ n =>
            simp only [List.replicate_succ, List.cons_append, List.cons.injEq] at hn
            rcases hn with ⟨h1, h2⟩ | ⟨h1, h2⟩ | ⟨h1, h2⟩
            · exact ⟨h1, n, Or.inl h2⟩
            · exact ⟨h1, n, Or.inr (Or.inl h2)⟩
            · exact ⟨h1, n, Or.inr (Or.inr h2)⟩

/-- The names which the rules erase: `h`s, maybe followed by `ij` or `iy`. -/
def Erased (name : List Char) : Prop :=
  ∃ n, name = List.replicate n 'h' ∨ name = List.replicate n 'h' ++ ['i', 'j'] ∨ name = List.replicate n 'h' ++ ['i', 'y']

theorem replace_cz (s : List Char) : Erased (replace ['c', 'z'] ['t', 's'] s) ↔ Erased s := by
  have hno : ∀ s, Erased s → 't' ∉ s ∧ 'c' ∉ s := by
    rintro s ⟨n, h | h | h⟩ <;> rw [h] <;> simp
  constructor
  · intro h
    rcases subst_none (literal ['c', 'z']) ['t', 's'] s true with he | ⟨a, b, he⟩
    · unfold replace at h; rwa [he] at h
    · exfalso
      apply (hno _ h).1
      unfold replace
      rw [he]; simp
  · intro h
    have key : ∀ s : List Char, 'c' ∉ s → ∀ first, subst (literal ['c', 'z']) ['t', 's'] 0 first s = s := by
      intro s
      induction s with
      | nil => intro _ _; rfl
      | cons c s ih =>
          intro hc first
          rw [subst]
          have : literal ['c', 'z'] first (c :: s) = 0 := by
            unfold literal
            rw [if_neg]
            intro hp
            have hcc : c = 'c' := by
              simp only [List.isPrefixOf, Bool.and_eq_true, beq_iff_eq] at hp
              exact hp.1.symm
            exact hc (by simp [hcc])
          rw [this]
          simp only
          rw [ih (fun h => hc (by simp [h])) false]
    unfold replace
    rw [key s (hno s h).2 true]
    exact h

/-- **C56**: `rusalka` raises exactly when the letters of the name, two at least, are `h`s maybe followed by `ij` or `iy`. Otherwise it
returns a code where vowels are only first, as an `a`. -/
theorem rusalka_raises_iff (lower unidecode : List Char → List Char) (hlower : ∀ s, lower s = [] ↔ s = []) (name : List Char) :
    rusalka lower unidecode name = .error .indexError ↔
      let letters := (unidecode (notationRules (lower name))).filter fun c => decide ('a' ≤ c ∧ c ≤ 'z')
      2 ≤ letters.length ∧ Erased letters := by
  unfold rusalka
  generalize (unidecode (notationRules (lower name))).filter (fun c => decide ('a' ≤ c ∧ c ≤ 'z')) = w
  simp only
  have hr : rules w = [] ↔ Erased w := by
    unfold rules
    rw [← replace_cz]
    exact (rules_tail_nil _).trans (dropEnd_h _)
  have hs : Utils.subRuns (fun _ => true) (rules w) = [] ↔ rules w = [] := by
    constructor
    · intro h
      by_contra hn
      exact subRuns_ne_nil _ hn h
    · intro h; rw [h]; simp [Utils.subRuns]
  unfold finishName
  by_cases hl : w.length < 2
  · rw [if_pos hl]
    constructor
    · intro h; cases h
    · intro h; omega
  · rw [if_neg hl]
    rw [← hr, ← hs, ← hlower (Utils.subRuns (fun _ => true) (rules w))]
    cases lower (Utils.subRuns (fun _ => true) (rules w)) with
    | nil => simp; omega
    | cons c rest => simp [pure, Except.pure]

/-- **C56** is false: `rusalka` raises on such names. -/
theorem rusalka_raises : rusalka (List.map Char.toLower) id "Hh".toList = .error .indexError ∧
    rusalka (List.map Char.toLower) id "Iy".toList = .error .indexError := by
  constructor
  · refine (rusalka_raises_iff _ id (by simp) _).mpr ⟨by decide +kernel, 2, Or.inl (by decide +kernel)⟩
  · refine (rusalka_raises_iff _ id (by simp) _).mpr ⟨by decide +kernel, 0, Or.inr (Or.inr (by decide +kernel))⟩

/-- **C56** partial: when it does not raise and there are two letters, the code is not empty, and its vowels are only a first `a`. -/
theorem rusalka_vowels_partial (lower unidecode : List Char → List Char) {name code : List Char}
    (h : rusalka lower unidecode name = .ok code)
    (h2 : 2 ≤ ((unidecode (notationRules (lower name))).filter fun c => decide ('a' ≤ c ∧ c ≤ 'z')).length) :
    ∃ c rest, code = c :: rest ∧ (c = 'a' ∨ c ∉ ['a', 'e', 'i', 'o', 'u', 'y']) ∧ ∀ x ∈ rest, x ∉ ['a', 'e', 'i', 'o', 'u', 'y'] := by
  unfold rusalka finishName at h
  rw [if_neg (by omega)] at h
  split at h
  · simp at h
  · next c rest hc =>
      simp only [pure, Except.pure, Except.ok.injEq] at h
      refine ⟨_, _, h.symm, ?_, ?_⟩
      · split
        · exact Or.inl rfl
        · next hv => right; simpa [vowel] using hv
      · intro x hx
        have := (List.mem_filter.mp hx).2
        simpa [vowel] using this

example : rusalka (List.map Char.toLower) id "Tchaikovsky".toList = .ok "ʃkfsk".toList := by
  decide +kernel

end Fog.Props
