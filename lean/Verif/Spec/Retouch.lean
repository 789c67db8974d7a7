/-!
# Specification: writing the same words otherwise

Independent of the code.
-/

namespace Fog.Spec

/-- One change to a text. `plain` gives the plain characters for which a character stands, none for punctuation, and `space` tells the
white space. -/
inductive Retouch (plain : Char → List Char) (space : Char → Bool) : List Char → List Char → Prop
  /-- A character is replaced by the plain ones: case, accents, punctuation. -/
  | character (s t : List Char) (c : Char) : Retouch plain space (s ++ c :: t) (s ++ plain c ++ t)
  /-- Another white space. -/
  | white (s t : List Char) {c : Char} (hc : space c = true) (hp : plain c = [c]) : Retouch plain space (s ++ c :: t) (s ++ ' ' :: t)
  /-- The words are put in another order. -/
  | order {ws ws' : List (List Char)} (h : ws.Perm ws') : Retouch plain space ([' '].intercalate ws) ([' '].intercalate ws')
  /-- A word which is already there is dropped. -/
  | again {w : List Char} {ws : List (List Char)} (h : w ∈ ws) : Retouch plain space ([' '].intercalate (w :: ws)) ([' '].intercalate ws)
  /-- A space is dropped, before the first word. Other spaces are put there by changing the order. -/
  | blank (ws : List (List Char)) : Retouch plain space ([' '].intercalate ([] :: ws)) ([' '].intercalate ws)

/-- Two texts which can be made equal by some changes. -/
inductive Alike (plain : Char → List Char) (space : Char → Bool) : List Char → List Char → Prop
  | refl (s : List Char) : Alike plain space s s
  | step {s t : List Char} (h : Retouch plain space s t) : Alike plain space s t
  | symm {s t : List Char} (h : Alike plain space s t) : Alike plain space t s
  | trans {s t v : List Char} (h : Alike plain space s t) (h' : Alike plain space t v) : Alike plain space s v

/-- Disjoint groups of at least two different values of a list, where two different values are together exactly when they are linked. -/
structure Groups {α : Type _} (values : List α) (linked : α → α → Prop) (groups : List (List α)) : Prop where
  each : ∀ g ∈ groups, g.Nodup ∧ 2 ≤ g.length ∧ ∀ v ∈ g, v ∈ values
  apart : groups.Pairwise fun g g' => ∀ v ∈ g, v ∉ g'
  together : ∀ v ∈ values, ∀ w ∈ values, v ≠ w → ((∃ g ∈ groups, v ∈ g ∧ w ∈ g) ↔ linked v w)

end Fog.Spec
