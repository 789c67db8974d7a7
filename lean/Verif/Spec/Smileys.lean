/-!
# Smileys

Nothing here refers to the model.
-/

namespace Fog.Spec

/-- The eyes of a smiley. -/
def Eyes (c : Char) : Prop := c ∈ [':', ';', '=', '8']

/-- The nose of a smiley. -/
def Nose (c : Char) : Prop := c ∈ ['-', 'o', '*', '\'']

/-- The mouth of a smiley. -/
def Mouth (c : Char) : Prop := c ∈ [')', ']', '(', '[', 'd', 'D', 'p', 'P', '/', ':', '}', '{', '@', '|', '\\']

/-- Smileys: arrows, faces in both directions, of which the first may have a hat, hearts, and `^^`. -/
inductive Smiley : List Char → Prop
  | right_arrow (n : Nat) : Smiley (List.replicate (n + 1) '-' ++ ['>'])
  | left_arrow (n : Nat) : Smiley ('<' :: List.replicate (n + 1) '-')
  | face {hat nose : List Char} {e m : Char} (hhat : hat = [] ∨ hat = ['<'] ∨ hat = ['>']) (he : Eyes e)
      (hnose : nose = [] ∨ ∃ c, Nose c ∧ nose = [c]) (hm : Mouth m) : Smiley (hat ++ e :: nose ++ [m])
  | reversed {nose : List Char} {e m : Char} (hm : Mouth m) (hnose : nose = [] ∨ ∃ c, Nose c ∧ nose = [c]) (he : Eyes e) :
      Smiley (m :: nose ++ [e])
  | heart : Smiley ['<', '3']
  | kiss : Smiley [':', '3']
  | hats : Smiley ['^', '^']

end Fog.Spec
