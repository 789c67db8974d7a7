/-!
# Specification: cutting a string at a separator, and TOML basic strings

Independent of the code.
-/

namespace Fog.Spec

/-- `SplitBy sep s pieces`: the pieces are what is found by cutting `s` at the leftmost occurrence of the separator, then cutting what
follows in the same way. -/
inductive SplitBy (sep : List Char) : List Char → List (List Char) → Prop
  | last {s : List Char} : ¬ sep <:+: s → SplitBy sep s [s]
  | cut {p s : List Char} {pieces : List (List Char)} : (∀ a b, p ++ sep = a ++ sep ++ b → b = []) → SplitBy sep s pieces →
      SplitBy sep (p ++ sep ++ s) (p :: pieces)

namespace Toml

/-- The characters which may stand for themselves in a basic string of TOML: not quotes, not backslashes, no control character but the
tab. -/
def Plain (c : Char) : Prop := c ≠ '"' ∧ c ≠ '\\' ∧ (32 ≤ c.toNat ∨ c = '\t') ∧ c.toNat ≠ 127

/-- The short escapes of TOML: what the character after a backslash stands for. -/
def short (c : Char) : Option Char :=
  if c = 'b' then some '\x08' else if c = 't' then some '\t' else if c = 'n' then some '\n' else if c = 'f' then some '\x0c'
  else if c = 'r' then some '\r' else if c = '"' then some '"' else if c = '\\' then some '\\' else none

/-- Hexadecimal digits. -/
def Hex (c : Char) : Prop := ('0' ≤ c ∧ c ≤ '9') ∨ ('a' ≤ c ∧ c ≤ 'f') ∨ ('A' ≤ c ∧ c ≤ 'F')

/-- `Reads text string`: the text between the quotes of a basic string of TOML denotes the string. Which character a long escape denotes is
left open (`x`), as nothing depends on it. -/
inductive Reads : List Char → List Char → Prop
  | nil : Reads [] []
  | plain {c : Char} {text s : List Char} : Plain c → Reads text s → Reads (c :: text) (c :: s)
  | short {c x : Char} {text s : List Char} : short c = some x → Reads text s → Reads ('\\' :: c :: text) (x :: s)
  | long {u x : Char} {ds text s : List Char} : (u = 'u' ∧ ds.length = 4) ∨ (u = 'U' ∧ ds.length = 8) → (∀ d ∈ ds, Hex d) →
      Reads text s → Reads ('\\' :: u :: ds ++ text) (x :: s)

end Toml

end Fog.Spec
