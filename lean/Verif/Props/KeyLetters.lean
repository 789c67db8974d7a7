import Verif.Model.KeyLetters
import Verif.Lemmas.Buckets
import Mathlib.Data.List.Nodup

/-!
# C54: omission and skeleton keys
-/

namespace Fog.Props

open KeyLetters Spec KeyCollision

/-- A capital letter. -/
def Capital (c : Char) : Prop := 'A' ≤ c ∧ c ≤ 'Z'

instance (c : Char) : Decidable (Capital c) := inferInstanceAs (Decidable (_ ∧ _))

/-- A vowel. -/
def Vowel (c : Char) : Prop := c = 'A' ∨ c = 'E' ∨ c = 'I' ∨ c = 'O' ∨ c = 'U'

instance (c : Char) : Decidable (Vowel c) := inferInstanceAs (Decidable (_ ∨ _))

theorem mem_vowels (c : Char) : c ∈ VOWELS ↔ Vowel c := by simp [VOWELS, Vowel]

/-- Consonants from the ones which are seldom misspelled to the ones which often are (the documented order). -/
def consonantOrder : List Char := "JKQXZVWYBFMGPDHCLNTSR".toList

theorem consonants_eq : CONSONANTS = consonantOrder := by decide +kernel

theorem capital_cases {c : Char} (h : Capital c) : (c ∈ consonantOrder ∧ ¬ Vowel c) ∨ (Vowel c ∧ c ∉ consonantOrder) := by
  have key : ∀ n : Fin 91, 65 ≤ n.val → (Char.ofNat n.val ∈ consonantOrder ∧ ¬ Vowel (Char.ofNat n.val)) ∨
      (Vowel (Char.ofNat n.val) ∧ Char.ofNat n.val ∉ consonantOrder) := by decide +kernel
  have h1 : 65 ≤ c.toNat := h.1
  have h2 : c.toNat ≤ 90 := h.2
  have := key ⟨c.toNat, by omega⟩ h1
  simpa [Char.ofNat_toNat] using this

theorem consonantOrder_capital : ∀ c ∈ consonantOrder, Capital c := by decide +kernel

/-! ### Omission -/

theorem omissionLoop_eq (s : List Char) : ∀ (vowels ls : List Char) (done : List Char), vowels = firsts (done.filter fun c => decide (Vowel c)) →
    (∀ c, ¬ Vowel c → (c ∈ ls ↔ c ∈ done)) →
    (omissionLoop s vowels ls).1 = firsts ((done ++ s).filter fun c => decide (Vowel c)) ∧
    ∀ c, ¬ Vowel c → (c ∈ (omissionLoop s vowels ls).2 ↔ c ∈ done ++ s) := by
  induction s with
  | nil => intro vowels ls done hv hl; simp [omissionLoop, hv]; exact hl
  | cons x s ih =>
      intro vowels ls done hv hl
      rw [omissionLoop]
      have hd : done ++ x :: s = (done ++ [x]) ++ s := by simp
      rw [hd]
      simp only [mem_vowels]
      split
      · next h =>
          apply ih
          · rw [List.filter_append, List.filter_singleton, decide_eq_true h.1, cond_true, firsts_append_singleton, if_neg, hv]
            rw [hv, mem_firsts] at h
            exact h.2
          · intro c hc
            rw [hl c hc, List.mem_append, List.mem_singleton]
            constructor
            · exact Or.inl
            · rintro (h' | rfl)
              · exact h'
              · exact absurd h.1 hc
      · next h =>
          apply ih
          · rw [List.filter_append, List.filter_singleton]
            by_cases hx : Vowel x
            · rw [decide_eq_true hx, cond_true, firsts_append_singleton, if_pos, hv]
              have : x ∈ vowels := by_contra fun hn => h ⟨hx, hn⟩
              rw [hv, mem_firsts] at this
              exact this
            · rw [decide_eq_false hx, cond_false, List.append_nil, hv]
          · intro c hc
            rw [List.mem_append, List.mem_singleton, ← hl c hc]
            split
            · next hx =>
                constructor
                · exact Or.inl
                · rintro (h' | rfl)
                  · exact h'
                  · exact hx
            · rw [List.mem_cons, or_comm]

theorem foldl_filter (p : Char → Prop) [DecidablePred p] (l acc : List Char) :
    l.foldl (fun acc c => if p c then acc ++ [c] else acc) acc = acc ++ l.filter fun c => decide (p c) := by
  induction l generalizing acc with
  | nil => simp
  | cons x l ih =>
      rw [List.foldl_cons, ih, List.filter_cons]
      by_cases h : p x <;> simp [h]

/-- The omission key of a string of capital letters: its consonants in the documented order, then its vowels in order of appearance. -/
def omissionSpec (s : List Char) : List Char :=
  (consonantOrder.filter fun c => decide (c ∈ s)) ++ firsts (s.filter fun c => decide (Vowel c))

theorem omission_key_eq (unidecode : List Char → List Char) (s : List Char) :
    omissionKey unidecode s = omissionSpec (letters unidecode s) := by
  unfold omissionKey omissionSpec
  simp only
  split
  · next h =>
      rw [List.isEmpty_iff] at h
      simp [h, firsts]
  · obtain ⟨h1, h2⟩ := omissionLoop_eq (letters unidecode s) [] [] [] (by simp [firsts]) (by simp)
    rw [List.nil_append] at h1 h2
    rw [foldl_filter (fun c => c ∈ (omissionLoop (letters unidecode s) [] []).2), List.nil_append, h1, consonants_eq]
    congr 1
    apply List.filter_congr
    intro c hc
    have hv : ¬ Vowel c := by
      rcases capital_cases (consonantOrder_capital c hc) with h | h
      · exact h.2
      · exact absurd hc h.2
    simp only [h2 c hv]

theorem letters_capital {unidecode : List Char → List Char} {s : List Char} : ∀ c ∈ letters unidecode s, Capital c := by
  intro c hc
  unfold letters at hc
  rw [List.mem_filter] at hc
  exact of_decide_eq_true hc.2

theorem toUpper_capital {c : Char} (h : Capital c) : c.toUpper = c := by
  have key : ∀ n : Fin 91, 65 ≤ n.val → (Char.ofNat n.val).toUpper = Char.ofNat n.val := by decide +kernel
  have h1 : 65 ≤ c.toNat := h.1
  have h2 : c.toNat ≤ 90 := h.2
  have := key ⟨c.toNat, by omega⟩ h1
  simpa [Char.ofNat_toNat] using this

theorem letters_id {unidecode : List Char → List Char} (hu : ∀ s, (∀ c ∈ s, Capital c) → unidecode s = s) {s : List Char}
    (h : ∀ c ∈ s, Capital c) : letters unidecode s = s := by
  unfold letters
  have : s.map Char.toUpper = s := by
    rw [List.map_congr_left (fun c hc => toUpper_capital (h c hc)), List.map_id']
  rw [hu s h, this, List.filter_eq_self]
  intro c hc
  exact decide_eq_true (h c hc)

theorem mem_omissionSpec {s : List Char} (h : ∀ c ∈ s, Capital c) (c : Char) : c ∈ omissionSpec s ↔ c ∈ s := by
  unfold omissionSpec
  rw [List.mem_append, List.mem_filter, mem_firsts, List.mem_filter]
  simp only [decide_eq_true_eq]
  constructor
  · rintro (⟨_, h⟩ | ⟨h, _⟩) <;> exact h
  · intro hc
    rcases capital_cases (h c hc) with h' | h'
    · exact Or.inl ⟨h'.1, hc⟩
    · exact Or.inr ⟨hc, h'.1⟩

theorem firsts_of_nodup {l : List Char} (h : l.Nodup) : firsts l = l := by
  induction l with
  | nil => rfl
  | cons x l ih =>
      rw [List.nodup_cons] at h
      rw [firsts, ih h.2]
      congr 1
      rw [List.filter_eq_self]
      intro a ha
      exact decide_eq_true (fun e => h.1 (e ▸ ha))

/-- **C54**: the omission key has each letter of the string once: first the consonants in the documented order, then the vowels in
order of appearance; the key of a key is itself. -/
theorem omission_key_spec (unidecode : List Char → List Char) (hu : ∀ s, (∀ c ∈ s, Capital c) → unidecode s = s) (s : List Char) :
    (omissionKey unidecode s).Nodup ∧ (∀ c, c ∈ omissionKey unidecode s ↔ c ∈ letters unidecode s) ∧
    (∃ cs vs, omissionKey unidecode s = cs ++ vs ∧ cs.Sublist consonantOrder ∧ vs = firsts ((letters unidecode s).filter fun c => decide (Vowel c))) ∧
    omissionKey unidecode (omissionKey unidecode s) = omissionKey unidecode s := by
  rw [omission_key_eq, omission_key_eq unidecode (omissionSpec _)]
  generalize hs : letters unidecode s = t
  have ht : ∀ c ∈ t, Capital c := by rw [← hs]; exact letters_capital
  have hmem := mem_omissionSpec ht
  have hcap : ∀ c ∈ omissionSpec t, Capital c := fun c hc => ht c ((hmem c).mp hc)
  have hcons : consonantOrder.Nodup := by decide +kernel
  refine ⟨?_, hmem, ⟨_, _, rfl, List.filter_sublist, rfl⟩, ?_⟩
  · unfold omissionSpec
    rw [List.nodup_append]
    refine ⟨hcons.sublist List.filter_sublist, nodup_firsts _, ?_⟩
    rintro a ha b hb rfl
    rw [List.mem_filter] at ha
    rw [mem_firsts, List.mem_filter] at hb
    rcases capital_cases (consonantOrder_capital a ha.1) with h | h
    · exact h.2 (of_decide_eq_true hb.2)
    · exact h.2 ha.1
  · rw [letters_id hu hcap]
    have h1 : (consonantOrder.filter fun c => decide (c ∈ omissionSpec t)) = consonantOrder.filter fun c => decide (c ∈ t) := by
      apply List.filter_congr
      intro c _
      simp only [hmem]
    have h2 : ((omissionSpec t).filter fun c => decide (Vowel c)) = firsts (t.filter fun c => decide (Vowel c)) := by
      unfold omissionSpec
      rw [List.filter_append]
      have e1 : (consonantOrder.filter fun c => decide (c ∈ t)).filter (fun c => decide (Vowel c)) = [] := by
        rw [List.filter_eq_nil_iff]
        intro c hc
        rw [List.mem_filter] at hc
        rcases capital_cases (consonantOrder_capital c hc.1) with h | h
        · simpa using h.2
        · exact absurd hc.1 h.2
      have e2 : (firsts (t.filter fun c => decide (Vowel c))).filter (fun c => decide (Vowel c)) = firsts (t.filter fun c => decide (Vowel c)) := by
        rw [List.filter_eq_self]
        intro c hc
        rw [mem_firsts, List.mem_filter] at hc
        exact hc.2
      rw [e1, e2, List.nil_append]
    change (consonantOrder.filter fun c => decide (c ∈ omissionSpec t)) ++ firsts ((omissionSpec t).filter fun c => decide (Vowel c)) = _
    rw [h1, h2, firsts_of_nodup (nodup_firsts _)]
    rfl

/-! ### Skeleton -/

/-- The skeleton key of a string of capital letters: its first letter, then the other consonants, then the other vowels, in order of
appearance. -/
def skeletonSpec : List Char → List Char
  | [] => []
  | x :: s => x :: firsts (s.filter fun c => decide (c ≠ x ∧ ¬ Vowel c)) ++ firsts (s.filter fun c => decide (c ≠ x ∧ Vowel c))

theorem skeletonLoop_eq (x : Char) (s : List Char) : ∀ (key cs vs done : List Char),
    key = x :: firsts (done.filter fun c => decide (c ≠ x ∧ ¬ Vowel c)) ++ firsts (done.filter fun c => decide (c ≠ x ∧ Vowel c)) →
    (∀ c, c ∈ cs ↔ c ∈ firsts (done.filter fun c => decide (c ≠ x ∧ ¬ Vowel c))) →
    vs.Perm (firsts (done.filter fun c => decide (c ≠ x ∧ Vowel c))) →
    skeletonLoop x s key cs vs = skeletonSpec (x :: (done ++ s)) := by
  induction s with
  | nil => intro key cs vs done hk _ _; rw [skeletonLoop, List.append_nil, hk]; rfl
  | cons y s ih =>
      intro key cs vs done hk hc hv
      rw [skeletonLoop]
      have hd : done ++ y :: s = (done ++ [y]) ++ s := by simp
      rw [hd]
      by_cases hyx : y = x
      · rw [if_pos hyx]
        apply ih
        · simp [hk, hyx]
        · simpa [hyx] using hc
        · simpa [hyx] using hv
      rw [if_neg hyx]
      simp only [mem_vowels]
      by_cases hvow : Vowel y
      · have f1 : (done ++ [y]).filter (fun c => decide (c ≠ x ∧ ¬ Vowel c)) = done.filter fun c => decide (c ≠ x ∧ ¬ Vowel c) := by
          simp [hvow]
        have f2 : (done ++ [y]).filter (fun c => decide (c ≠ x ∧ Vowel c)) = (done.filter fun c => decide (c ≠ x ∧ Vowel c)) ++ [y] := by
          simp [hyx, hvow]
        rw [if_pos hvow]
        have hm : y ∈ vs ↔ y ∈ done.filter fun c => decide (c ≠ x ∧ Vowel c) := by rw [hv.mem_iff, mem_firsts]
        by_cases hin : y ∈ vs
        · rw [if_neg (not_not.mpr hin)]
          apply ih
          · rw [f1, f2, firsts_append_singleton, if_pos (hm.mp hin), hk]
          · rw [f1]; exact hc
          · rw [f2, firsts_append_singleton, if_pos (hm.mp hin)]; exact hv
        · rw [if_pos hin]
          have hn : y ∉ done.filter fun c => decide (c ≠ x ∧ Vowel c) := fun h => hin (hm.mpr h)
          apply ih
          · rw [f1, f2, firsts_append_singleton, if_neg hn, hk]; simp
          · rw [f1]; exact hc
          · rw [f2, firsts_append_singleton, if_neg hn]
            exact (hv.cons y).trans (List.perm_append_comm (l₁ := [y]))
      · have f1 : (done ++ [y]).filter (fun c => decide (c ≠ x ∧ ¬ Vowel c)) = (done.filter fun c => decide (c ≠ x ∧ ¬ Vowel c)) ++ [y] := by
          simp [hyx, hvow]
        have f2 : (done ++ [y]).filter (fun c => decide (c ≠ x ∧ Vowel c)) = done.filter fun c => decide (c ≠ x ∧ Vowel c) := by
          simp [hvow]
        rw [if_neg hvow]
        have hm : y ∈ cs ↔ y ∈ done.filter fun c => decide (c ≠ x ∧ ¬ Vowel c) := by rw [hc, mem_firsts]
        by_cases hin : y ∈ cs
        · rw [if_neg (not_not.mpr hin)]
          apply ih
          · rw [f1, f2, firsts_append_singleton, if_pos (hm.mp hin), hk]
          · rw [f1, firsts_append_singleton, if_pos (hm.mp hin)]; exact hc
          · rw [f2]; exact hv
        · rw [if_pos hin]
          have hn : y ∉ done.filter fun c => decide (c ≠ x ∧ ¬ Vowel c) := fun h => hin (hm.mpr h)
          apply ih
          · rw [f1, f2, firsts_append_singleton, if_neg hn, hk, hv.length_eq]
            generalize firsts (done.filter fun c => decide (c ≠ x ∧ ¬ Vowel c)) = A
            generalize firsts (done.filter fun c => decide (c ≠ x ∧ Vowel c)) = B
            unfold KeyLetters.insert
            have : (x :: A ++ B).length - B.length = (x :: A).length := by rw [List.length_append]; omega
            rw [this, List.take_left, List.drop_left]
            simp
          · intro c
            rw [f1, firsts_append_singleton, if_neg hn, List.mem_cons, List.mem_append, List.mem_singleton, hc, or_comm]
          · rw [f2]; exact hv

theorem skeleton_key_eq (unidecode : List Char → List Char) (s : List Char) :
    skeletonKey unidecode s = skeletonSpec (letters unidecode s) := by
  unfold skeletonKey
  cases h : letters unidecode s with
  | nil => rfl
  | cons x t => exact skeletonLoop_eq x t [x] [] [] [] (by simp [firsts]) (by simp [firsts]) (by simp [firsts])

/-- **C54**: the skeleton key has each letter of the string once: its first letter, then the other consonants in order of appearance,
then the other vowels in order of appearance; the key of a key is itself. -/
theorem skeleton_key_spec (unidecode : List Char → List Char) (hu : ∀ s, (∀ c ∈ s, Capital c) → unidecode s = s) (s : List Char) :
    (skeletonKey unidecode s).Nodup ∧ (∀ c, c ∈ skeletonKey unidecode s ↔ c ∈ letters unidecode s) ∧
    skeletonKey unidecode s = skeletonSpec (letters unidecode s) ∧
    skeletonKey unidecode (skeletonKey unidecode s) = skeletonKey unidecode s := by
  rw [skeleton_key_eq, skeleton_key_eq unidecode (skeletonSpec _)]
  generalize hs : letters unidecode s = t
  have ht : ∀ c ∈ t, Capital c := by rw [← hs]; exact letters_capital
  cases t with
  | nil =>
      refine ⟨by simp [skeletonSpec], by simp [skeletonSpec], rfl, ?_⟩
      rw [skeletonSpec, letters_id hu (by simp)]
      rfl
  | cons x t =>
      have hmem : ∀ c, c ∈ skeletonSpec (x :: t) ↔ c ∈ x :: t := by
        intro c
        rw [skeletonSpec]
        simp only [List.cons_append, List.mem_cons, List.mem_append, mem_firsts, List.mem_filter, decide_eq_true_eq]
        by_cases h1 : c = x <;> by_cases h2 : Vowel c <;> simp [h1, h2]
      have hcap : ∀ c ∈ skeletonSpec (x :: t), Capital c := fun c hc => ht c ((hmem c).mp hc)
      refine ⟨?_, hmem, rfl, ?_⟩
      · rw [skeletonSpec, List.cons_append, List.nodup_cons, List.nodup_append]
        refine ⟨?_, nodup_firsts _, nodup_firsts _, ?_⟩
        · simp [mem_firsts]
        · rintro a ha b hb rfl
          simp only [mem_firsts, List.mem_filter, decide_eq_true_eq] at ha hb
          exact ha.2.2 hb.2.2
      · rw [letters_id hu hcap]
        have e1 : ∀ p : Char → Prop, ∀ [DecidablePred p], (firsts (t.filter fun c => decide (p c))).filter (fun c => decide (p c)) =
            firsts (t.filter fun c => decide (p c)) := by
          intro p _
          rw [List.filter_eq_self]
          intro c hc
          rw [mem_firsts, List.mem_filter] at hc
          exact hc.2
        have e2 : ∀ p q : Char → Prop, ∀ [DecidablePred p] [DecidablePred q], (∀ c, p c → ¬ q c) →
            (firsts (t.filter fun c => decide (p c))).filter (fun c => decide (q c)) = [] := by
          intro p q _ _ hpq
          rw [List.filter_eq_nil_iff]
          intro c hc
          rw [mem_firsts, List.mem_filter] at hc
          simpa using hpq c (of_decide_eq_true hc.2)
        rw [skeletonSpec, List.cons_append, skeletonSpec]
        simp only [List.filter_append]
        rw [e1 (fun c => c ≠ x ∧ ¬ Vowel c), e1 (fun c => c ≠ x ∧ Vowel c), e2 (fun c => c ≠ x ∧ ¬ Vowel c) (fun c => c ≠ x ∧ Vowel c)
          (by intro c h h'; exact h.2 h'.2), e2 (fun c => c ≠ x ∧ Vowel c) (fun c => c ≠ x ∧ ¬ Vowel c) (by intro c h h'; exact h'.2 h.2),
          List.nil_append, List.append_nil, firsts_of_nodup (nodup_firsts _), firsts_of_nodup (nodup_firsts _)]
        rfl

-- `unidecode` which does nothing meets the hypothesis.
example : omissionKey id "Boston".toList = "BNTSO".toList ∧ skeletonKey id "Boston".toList = "BSTNO".toList ∧
    (∀ s : List Char, (∀ c ∈ s, Capital c) → id s = s) := ⟨by decide +kernel, by decide +kernel, fun _ _ => rfl⟩

end Fog.Props
