import Verif.Spec.Split

/-!
# Specification: reading a TOML document

A reader of the part of TOML made of tables, arrays of tables, integers, basic strings, booleans, arrays, and bare words such as dates and
floats, which are left as they are. Long escapes are refused.
-/

namespace Fog.Spec.Toml

/-- Values. -/
inductive Value
  | int (n : Nat)
  | str (s : List Char)
  | bool (b : Bool)
  | bare (s : List Char)
  | arr (vs : List Value)

/-- Statements: the header of a table, the header of an element of an array of tables, a key with its value. -/
inductive Statement
  | table (name : List Char)
  | element (name : List Char)
  | pair (key : List Char) (value : Value)

instance (c : Char) : Decidable (Plain c) := by unfold Plain; infer_instance

/-- A basic string, after its opening quote, and what follows its closing quote. -/
def readString : List Char → Option (List Char × List Char)
  | [] => none
  | c :: text =>
      if c = '"' then some ([], text)
      else if c = '\\' then
        match text with
        | [] => none
        | d :: text => (short d).bind fun x => (readString text).map fun r => (x :: r.1, r.2)
      else if Plain c then (readString text).map fun r => (c :: r.1, r.2)
      else none

/-- Characters of keys, numbers and dates. -/
def bareChar (c : Char) : Bool := c.isAlphanum || ['_', '-', ':', '.', '+'].contains c

/-- What a bare word denotes. -/
def readBare (w : List Char) : Option Value :=
  if w = [] then none
  else if w.all Char.isDigit then some (.int (Nat.ofDigitChars 10 w 0))
  else if w = "true".toList then some (.bool true)
  else if w = "false".toList then some (.bool false)
  else some (.bare w)

/-- Spaces and newlines. -/
def blank (c : Char) : Bool := c == ' ' || c == '\n'

mutual

/-- A value and what follows it. -/
def readValue : Nat → List Char → Option (Value × List Char)
  | 0, _ => none
  | n + 1, text =>
      match text with
      | '"' :: text => (readString text).map fun r => (.str r.1, r.2)
      | '[' :: text => (readItems n (text.dropWhile blank)).map fun r => (.arr r.1, r.2)
      | text => (readBare (text.takeWhile bareChar)).map fun v => (v, text.dropWhile bareChar)

/-- The items of an array, from one of them or from its end. -/
def readItems : Nat → List Char → Option (List Value × List Char)
  | 0, _ => none
  | n + 1, text =>
      match text with
      | ']' :: text => some ([], text)
      | text =>
          match readValue n text with
          | none => none
          | some (v, text) =>
              match text.dropWhile blank with
              | ',' :: text => (readItems n (text.dropWhile blank)).map fun r => (v :: r.1, r.2)
              | ']' :: text => some ([v], text)
              | _ => none

end

/-- The statements of a document. -/
def readStatements : Nat → List Char → Option (List Statement)
  | 0, _ => none
  | n + 1, text =>
      match text.dropWhile blank with
      | [] => some []
      | '[' :: '[' :: text =>
          match text.dropWhile bareChar with
          | ']' :: ']' :: '\n' :: rest => (readStatements n rest).map (.element (text.takeWhile bareChar) :: ·)
          | _ => none
      | '[' :: text =>
          match text.dropWhile bareChar with
          | ']' :: '\n' :: rest => (readStatements n rest).map (.table (text.takeWhile bareChar) :: ·)
          | _ => none
      | text =>
          if text.takeWhile bareChar = [] then none
          else
            match (text.dropWhile bareChar).dropWhile (· == ' ') with
            | '=' :: rest =>
                match readValue n (rest.dropWhile (· == ' ')) with
                | some (v, '\n' :: rest) => (readStatements n rest).map (.pair (text.takeWhile bareChar) v :: ·)
                | _ => none
            | _ => none

/-- The statements of a document: every step reads a character. -/
def read (text : List Char) : Option (List Statement) := readStatements (text.length + 1) text

end Fog.Spec.Toml
