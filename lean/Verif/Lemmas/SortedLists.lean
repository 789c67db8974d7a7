import Mathlib.Order.Defs.LinearOrder
import Mathlib.Data.List.Basic
import Mathlib.Data.Finset.Card

/-! # Strictly increasing lists and what they have in common -/

namespace Fog

variable {τ : Type _} [LinearOrder τ]

theorem length_le_of_nodup_subset {α : Type _} [DecidableEq α] {l l' : List α} (h : l.Nodup) (hs : ∀ a ∈ l, a ∈ l') : l.length ≤ l'.length := by
  have h1 : l.toFinset ⊆ l'.toFinset := by intro a ha; simp only [List.mem_toFinset] at *; exact hs a ha
  have h2 := Finset.card_le_card h1
  rw [List.toFinset_card_of_nodup h] at h2
  exact h2.trans (List.toFinset_card_le l')

/-- Strictly increasing. -/
abbrev Increasing (l : List τ) : Prop := l.Pairwise (· < ·)

theorem Increasing.nodup {l : List τ} (h : Increasing l) : l.Nodup := h.imp (fun h => ne_of_lt h)

theorem Increasing.getElem_lt {l : List τ} (h : Increasing l) {i j : Nat} (hij : i < j) (hj : j < l.length) :
    l[i]'(hij.trans hj) < l[j] := (List.pairwise_iff_getElem.mp h) i j _ hj hij

theorem Increasing.lt_iff {l : List τ} (h : Increasing l) {i j : Nat} (hi : i < l.length) (hj : j < l.length) :
    l[i] < l[j] ↔ i < j := by
  constructor
  · intro hlt
    rcases Nat.lt_trichotomy i j with h1 | h1 | h1
    · exact h1
    · subst h1; exact absurd hlt (lt_irrefl _)
    · exact absurd (h.getElem_lt h1 hi) (not_lt_of_gt hlt)
  · intro hij; exact h.getElem_lt hij hj

/-- Elements below the one at position `i` are before it. -/
theorem Increasing.mem_take_of_lt {l : List τ} (h : Increasing l) {y : τ} (hy : y ∈ l) {i : Nat} (hi : i < l.length)
    (hlt : y < l[i]) : y ∈ l.take i := by
  obtain ⟨j, hj, rfl⟩ := List.getElem_of_mem hy
  have := (h.lt_iff hj hi).mp hlt
  exact List.mem_take_iff_getElem.mpr ⟨j, by omega, rfl⟩

theorem Increasing.mem_take_of_le {l : List τ} (h : Increasing l) {y : τ} (hy : y ∈ l) {i : Nat} (hi : i < l.length)
    (hle : y ≤ l[i]) : y ∈ l.take (i + 1) := by
  obtain ⟨j, hj, rfl⟩ := List.getElem_of_mem hy
  have : j ≤ i := by
    by_contra hc
    exact absurd (h.getElem_lt (by omega : i < j) hj) (not_lt_of_ge hle)
  exact List.mem_take_iff_getElem.mpr ⟨j, by omega, rfl⟩

theorem Increasing.le_of_mem_take {l : List τ} (h : Increasing l) {y : τ} {i : Nat} (hi : i < l.length)
    (hy : y ∈ l.take (i + 1)) : y ≤ l[i] := by
  obtain ⟨j, hj, rfl⟩ := List.mem_take_iff_getElem.mp hy
  rcases Nat.lt_or_ge j i with h1 | h1
  · exact le_of_lt (h.getElem_lt h1 hi)
  · have : j = i := by omega
    subst this; exact le_refl _

theorem Increasing.lt_of_mem_take {l : List τ} (h : Increasing l) {y : τ} {i : Nat} (hi : i < l.length)
    (hy : y ∈ l.take i) : y < l[i] := by
  obtain ⟨j, hj, rfl⟩ := List.mem_take_iff_getElem.mp hy
  exact h.getElem_lt (by omega) hi

/-- The number of elements in common. -/
def common (x y : List τ) : Nat := (x.filter (· ∈ y)).length

theorem common_le_left (x y : List τ) : common x y ≤ x.length := List.length_filter_le _ _

theorem common_mono_right {x y y' : List τ} (h : ∀ a ∈ x, a ∈ y → a ∈ y') : common x y ≤ common x y' := by
  unfold common
  rw [← List.countP_eq_length_filter, ← List.countP_eq_length_filter]
  apply List.countP_mono_left
  intro a ha hy
  simp only [decide_eq_true_eq] at *
  exact h a ha hy

theorem common_append (x x' y : List τ) : common (x ++ x') y = common x y + common x' y := by simp [common]

theorem common_le_of_subset {x y x' y' : List τ} (hx : x.Nodup) (h : ∀ a ∈ x, a ∈ y → a ∈ x' ∧ a ∈ y') :
    common x y ≤ common x' y' := by
  apply length_le_of_nodup_subset (hx.filter _)
  intro a ha
  simp only [List.mem_filter, decide_eq_true_eq] at *
  exact h a ha.1 ha.2

theorem common_comm {x y : List τ} (hx : x.Nodup) (hy : y.Nodup) : common x y = common y x :=
  Nat.le_antisymm (common_le_of_subset hx fun _ h1 h2 => ⟨h2, h1⟩) (common_le_of_subset hy fun _ h1 h2 => ⟨h2, h1⟩)

theorem common_le_right {x : List τ} (y : List τ) (hx : x.Nodup) : common x y ≤ y.length := by
  apply length_le_of_nodup_subset (hx.filter _)
  intro a ha
  simp only [List.mem_filter, decide_eq_true_eq] at ha
  exact ha.2

theorem common_take_add_drop (x y : List τ) (t : Nat) : common x y = common (x.take t) y + common (x.drop t) y := by
  rw [← common_append, List.take_append_drop]

theorem common_take_succ (x y : List τ) {t : Nat} (ht : t < x.length) :
    common (x.take (t + 1)) y = common (x.take t) y + (if x[t] ∈ y then 1 else 0) := by
  rw [List.take_succ_eq_append_getElem ht, common_append]
  congr 1
  by_cases h : x[t] ∈ y <;> simp [common, h]

/-- When a token is common, what is in common is counted among the tokens before, or is after it in the second record. -/
theorem common_at_match {x y : List τ} (hx : Increasing x) (hy : Increasing y) {t cp q : Nat} (ht : t < x.length)
    (hcp : cp < y.length) (hw : x[t] = y[cp]) (hq : cp ≤ q) :
    common x y ≤ common (x.take t) (y.take q) + (y.length - cp) := by
  rw [common_take_add_drop x y t]
  have h1 : common (x.take t) y ≤ common (x.take t) (y.take q) := by
    apply common_mono_right
    intro a ha hay
    have := hy.mem_take_of_lt hay hcp (hw ▸ hx.lt_of_mem_take ht ha)
    exact (List.take_subset_take_left y hq) this
  have h2 : common (x.drop t) y ≤ (y.drop cp).length := by
    apply length_le_of_nodup_subset
    · exact (hx.nodup.sublist (List.drop_sublist t x)).filter _
    · intro a ha
      simp only [List.mem_filter, decide_eq_true_eq] at ha
      obtain ⟨had, hay⟩ := ha
      rcases List.mem_append.mp (by rw [List.take_append_drop]; exact hay : a ∈ y.take cp ++ y.drop cp) with h | h
      · have h3 := hy.lt_of_mem_take hcp h
        obtain ⟨j, hj, rfl⟩ := List.getElem_of_mem had
        rw [List.getElem_drop] at h3
        rw [List.length_drop] at hj
        rw [← hw] at h3
        have := (hx.lt_iff (by omega) ht).mp h3
        omega
      · exact h
  rw [List.length_drop] at h2
  omega

/-- What is in common is before or after a common token. -/
theorem common_match_split {x y : List τ} (hx : Increasing x) (hy : Increasing y) {t cp : Nat} (ht : t < x.length)
    (hcp : cp < y.length) (hw : x[t] = y[cp]) :
    common x y ≤ common (x.take t) (y.take cp) + common (y.drop cp) (x.drop t) := by
  rw [common_take_add_drop x y t]
  have h1 : common (x.take t) y ≤ common (x.take t) (y.take cp) := by
    apply common_mono_right
    intro a ha hay
    exact hy.mem_take_of_lt hay hcp (hw ▸ hx.lt_of_mem_take ht ha)
  have h2 : common (x.drop t) y ≤ common (y.drop cp) (x.drop t) := by
    apply common_le_of_subset (hx.nodup.sublist (List.drop_sublist t x))
    intro a had hay
    refine ⟨?_, had⟩
    rcases List.mem_append.mp (by rw [List.take_append_drop]; exact hay : a ∈ y.take cp ++ y.drop cp) with h | h
    · have h3 := hy.lt_of_mem_take hcp h
      obtain ⟨j, hj, rfl⟩ := List.getElem_of_mem had
      rw [List.getElem_drop] at h3
      rw [List.length_drop] at hj
      rw [← hw] at h3
      have := (hx.lt_iff (by omega) ht).mp h3
      omega
    · exact h
  omega

/-- Prefix filtering: records with enough tokens in common have one in common in their prefixes. -/
theorem common_prefix_pos {x y : List τ} (hx : Increasing x) (hy : Increasing y) {p q : Nat} (h0 : 1 ≤ common x y)
    (hp : x.length + 1 ≤ p + common x y) (hq : y.length + 1 ≤ q + common x y) : 1 ≤ common (x.take p) (y.take q) := by
  -- the first common token
  have hne : x.filter (· ∈ y) ≠ [] := by
    intro h; simp [common, h] at h0
  obtain ⟨w, rest, hw⟩ := List.exists_cons_of_ne_nil hne
  have hwm : w ∈ x ∧ w ∈ y := by
    have : w ∈ x.filter (· ∈ y) := by rw [hw]; simp
    simpa using this
  obtain ⟨t, ht, hxt⟩ := List.getElem_of_mem hwm.1
  obtain ⟨cp, hcp, hyc⟩ := List.getElem_of_mem hwm.2
  have hfirst : ∀ a ∈ x, a ∈ y → w ≤ a := by
    intro a ha hay
    have hm : a ∈ x.filter (· ∈ y) := by simp [ha, hay]
    have hs : Increasing (w :: rest) := hw ▸ hx.filter _
    rw [hw] at hm
    rcases List.mem_cons.mp hm with h | h
    · exact h ▸ le_refl _
    · exact le_of_lt ((List.pairwise_cons.mp hs).1 a h)
  have hz : common (x.take t) y = 0 := by
    unfold common
    rw [List.length_eq_zero_iff, List.filter_eq_nil_iff]
    intro a ha
    simp only [decide_eq_true_eq]
    intro hay
    have h1 := hx.lt_of_mem_take ht ha
    have h2 := hfirst a (List.take_subset t x ha) hay
    rw [hxt] at h1
    exact absurd h1 (not_lt_of_ge h2)
  have h1 : common x y ≤ x.length - t := by
    rw [common_take_add_drop x y t, hz, Nat.zero_add]
    exact (common_le_left _ _).trans (by rw [List.length_drop])
  have h2 : common x y ≤ y.length - cp := by
    have := common_at_match hx hy ht hcp (hxt.trans hyc.symm) (Nat.le_refl cp)
    have h3 : common (x.take t) (y.take cp) ≤ common (x.take t) y :=
      common_mono_right fun a _ ha => List.take_subset cp y ha
    omega
  have h3 : w ∈ (x.take p).filter (· ∈ y.take q) := by
    simp only [List.mem_filter, decide_eq_true_eq]
    exact ⟨List.mem_take_iff_getElem.mpr ⟨t, by omega, hxt⟩, List.mem_take_iff_getElem.mpr ⟨cp, by omega, hyc⟩⟩
  exact List.length_pos_of_mem h3

/-- The first bound on what is in common when verifying a candidate. -/
theorem common_bound_left {x y : List τ} (hx : Increasing x) (hy : Increasing y) {p i q : Nat} (hp : p < x.length)
    (hi : i < y.length) (hiq : i + 1 ≤ q) (hlt : y[i] < x[p]) :
    common x y ≤ common (x.take (p + 1)) (y.take q) + (y.length - (i + 1)) := by
  rw [common_comm hx.nodup hy.nodup, common_take_add_drop y x (i + 1)]
  have h1 : common (y.take (i + 1)) x ≤ common (x.take (p + 1)) (y.take q) := by
    have hn : (y.take (i + 1)).Nodup := hy.nodup.sublist (List.take_sublist _ _)
    refine Nat.le_trans (common_le_of_subset (x' := y.take q) (y' := x.take (p + 1)) hn ?_) (Nat.le_of_eq
      (common_comm (hy.nodup.sublist (List.take_sublist q y)) (hx.nodup.sublist (List.take_sublist _ _))))
    · intro a ha hax
      have h2 := hy.le_of_mem_take hi ha
      refine ⟨List.take_subset_take_left y hiq ha, hx.mem_take_of_le hax hp (le_of_lt (lt_of_le_of_lt h2 hlt))⟩
  have h2 : common (y.drop (i + 1)) x ≤ y.length - (i + 1) := (common_le_left _ _).trans (by rw [List.length_drop])
  omega

/-- The second bound. -/
theorem common_bound_right {x y : List τ} (hx : Increasing x) (hy : Increasing y) {p i q : Nat} (hp : p < x.length)
    (hi : i < y.length) (hiq : i + 1 ≤ q) (hle : x[p] ≤ y[i]) :
    common x y ≤ common (x.take (p + 1)) (y.take q) + (x.length - (p + 1)) := by
  rw [common_take_add_drop x y (p + 1)]
  have h1 : common (x.take (p + 1)) y ≤ common (x.take (p + 1)) (y.take q) := by
    apply common_mono_right
    intro a ha hay
    exact List.take_subset_take_left y hiq (hy.mem_take_of_le hay hi ((hx.le_of_mem_take hp ha).trans hle))
  have h2 : common (x.drop (p + 1)) y ≤ x.length - (p + 1) := (common_le_left _ _).trans (by rw [List.length_drop])
  omega

end Fog
