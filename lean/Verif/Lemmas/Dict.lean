import Verif.Model.Dict

/-!
# Lemmas about dictionaries
-/

namespace Fog.Dict

variable {κ ν : Type _} [DecidableEq κ]

theorem get?_set (d : Dict κ ν) (k k' : κ) (v : ν) :
    get? (set d k v) k' = if k = k' then some v else get? d k' := by
  induction d with
  | nil => simp [set, get?]
  | cons x d ih =>
      obtain ⟨a, b⟩ := x
      by_cases h : a = k
      · subst h; by_cases h2 : a = k' <;> simp [set, get?, h2]
      · by_cases h2 : a = k'
        · subst h2; simp [set, get?, h, Ne.symm h]
        · simp [set, get?, h, h2, ih]

theorem keys_set (d : Dict κ ν) (k : κ) (v : ν) :
    keys (set d k v) = if k ∈ keys d then keys d else keys d ++ [k] := by
  induction d with
  | nil => simp [set, keys]
  | cons x d ih =>
      obtain ⟨a, b⟩ := x
      by_cases h : a = k
      · subst h; simp [set, keys]
      · simp only [keys] at ih
        simp only [set, h, if_false, keys, List.map_cons, List.mem_cons, ih]
        by_cases h2 : k ∈ List.map Prod.fst d <;> simp [h2, Ne.symm h]

theorem nodup_keys_set {d : Dict κ ν} (h : (keys d).Nodup) (k : κ) (v : ν) : (keys (set d k v)).Nodup := by
  rw [keys_set]
  split
  · exact h
  · next hk =>
      rw [List.nodup_append]
      exact ⟨h, by simp, by rintro a ha b hb rfl; simp at hb; subst hb; exact hk ha⟩

theorem get?_eq_none_iff (d : Dict κ ν) (k : κ) : get? d k = none ↔ k ∉ keys d := by
  induction d with
  | nil => simp [get?, keys]
  | cons x d ih =>
      obtain ⟨a, b⟩ := x
      by_cases h : a = k
      · subst h; simp [get?, keys]
      · simp [get?, keys, h, Ne.symm h] at ih ⊢; exact ih

theorem mem_keys_iff (d : Dict κ ν) (k : κ) : k ∈ keys d ↔ ∃ v, get? d k = some v := by
  have := get?_eq_none_iff d k
  cases h : get? d k with
  | none => simp [h] at this ⊢; exact this
  | some v =>
      simp [h] at this ⊢; exact this

theorem mem_of_get? {d : Dict κ ν} {k : κ} {v : ν} (h : get? d k = some v) : (k, v) ∈ d := by
  induction d with
  | nil => simp [get?] at h
  | cons x d ih =>
      obtain ⟨a, b⟩ := x
      by_cases h2 : a = k
      · subst h2; simp [get?] at h; simp [h]
      · simp [get?, h2] at h; simp [ih h]

theorem get?_of_mem {d : Dict κ ν} (hd : (keys d).Nodup) {k : κ} {v : ν} (h : (k, v) ∈ d) : get? d k = some v := by
  induction d with
  | nil => simp at h
  | cons x d ih =>
      obtain ⟨a, b⟩ := x
      simp only [keys, List.map_cons, List.nodup_cons] at hd
      by_cases h2 : a = k
      · subst h2
        simp only [List.mem_cons, Prod.mk.injEq] at h
        rcases h with ⟨_, rfl⟩ | h
        · simp [get?]
        · exact absurd (List.mem_map_of_mem (f := Prod.fst) h) hd.1
      · simp only [List.mem_cons, Prod.mk.injEq] at h
        rcases h with ⟨h, _⟩ | h
        · exact absurd h.symm h2
        · simp [get?, h2]; exact ih hd.2 h

theorem mem_iff_get? {d : Dict κ ν} (hd : (keys d).Nodup) {k : κ} {v : ν} : (k, v) ∈ d ↔ get? d k = some v :=
  ⟨get?_of_mem hd, mem_of_get?⟩

theorem get?_update (d : Dict κ ν) (k k' : κ) (dflt : ν) (f : ν → ν) :
    get? (update d k dflt f) k' = if k = k' then some (f ((get? d k).getD dflt)) else get? d k' := by
  simp [update, get?_set]

theorem keys_update (d : Dict κ ν) (k : κ) (dflt : ν) (f : ν → ν) :
    keys (update d k dflt f) = if k ∈ keys d then keys d else keys d ++ [k] := keys_set ..

theorem nodup_keys_update {d : Dict κ ν} (h : (keys d).Nodup) (k : κ) (dflt : ν) (f : ν → ν) :
    (keys (update d k dflt f)).Nodup := nodup_keys_set h ..

end Fog.Dict
