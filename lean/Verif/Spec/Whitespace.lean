import Verif.Basic.Bytes
/-!
# Specification: white space
-/

namespace Verif.Spec
open Verif

/-- The UTF-8 encodings of the characters with the Unicode property White_Space (Unicode 15,
`PropList.txt`): U+0009-000D, U+0020, U+0085, U+00A0, U+1680, U+2000-200A, U+2028, U+2029, U+202F,
U+205F, U+3000. -/
def whitespace : List Bytes :=
  [[9], [10], [11], [12], [13], [32], [194, 133], [194, 160], [225, 154, 128],
   [226, 128, 128], [226, 128, 129], [226, 128, 130], [226, 128, 131], [226, 128, 132],
   [226, 128, 133], [226, 128, 134], [226, 128, 135], [226, 128, 136], [226, 128, 137],
   [226, 128, 138], [226, 128, 168], [226, 128, 169], [226, 128, 175], [226, 129, 159],
   [227, 128, 128]]

/-- A byte string that consists of white space characters only. -/
def AllWhitespace (s : Bytes) : Prop := ∃ ws : List Bytes, (∀ w ∈ ws, w ∈ whitespace) ∧ ws.flatten = s

/-- The byte string does not begin with a white space character. -/
def NoLeadingWhitespace (s : Bytes) : Prop := ∀ w ∈ whitespace, ¬ w <+: s

/-- The byte string does not end with a white space character. -/
def NoTrailingWhitespace (s : Bytes) : Prop := ∀ w ∈ whitespace, ¬ w <:+ s

/-- `mid` is `s` without the white space at both ends. -/
def Trimmed (s mid : Bytes) : Prop := ∃ l r, AllWhitespace l ∧ AllWhitespace r ∧ s = l ++ mid ++ r ∧
  NoLeadingWhitespace mid ∧ NoTrailingWhitespace mid

end Verif.Spec
