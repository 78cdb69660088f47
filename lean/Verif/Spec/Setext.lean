import Verif.Spec.Lines
/-!
# The width of a text, for the underlines of headings
-/

namespace Verif.Spec
open Verif

/-- The characters of a text (code points; a byte that is not valid UTF-8 counts as U+FFFD); `skip`
bytes belong to the character before. -/
def charactersFrom : Nat → Bytes → List Nat
  | _, [] => []
  | skip + 1, _ :: bs => charactersFrom skip bs
  | 0, b :: bs => (decodeRune (b :: bs)).1 :: charactersFrom ((decodeRune (b :: bs)).2 - 1) bs

/-- The characters of a text. -/
def characters (s : Bytes) : List Nat := charactersFrom 0 s

/-- The number of characters in the longest line of a text, not counting the internal escape marker
(U+0007). -/
def widest (s : Bytes) : Nat :=
  ((lines s).map fun l => ((characters l).filter (· ≠ 7)).length).foldr max 0

/-- The underline of a heading of level 1 or 2 (CommonMark 4.3): `=` for level 1, `-` for level 2. -/
def underline (level width : Nat) : Bytes := List.replicate width (if level = 1 then 61 else 45)

end Verif.Spec
