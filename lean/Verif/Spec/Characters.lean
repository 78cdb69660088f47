import Verif.Spec.Whitespace
/-!
# Specification: UTF-8 text as a sequence of characters
-/

namespace Verif.Spec
open Verif

/-- The UTF-8 encoding of one character: one ASCII byte, or a leading byte and as many continuation bytes as it says. -/
def isChar : Bytes → Bool
  | [a] => a < 0x80
  | [a, b] => 0xC0 ≤ a && a < 0xE0 && isCont b
  | [a, b, c] => 0xE0 ≤ a && a < 0xF0 && isCont b && isCont c
  | [a, b, c, d] => 0xF0 ≤ a && a < 0xF8 && isCont b && isCont c && isCont d
  | _ => false

/-- Cut a byte string in front of every byte that is not a continuation byte. -/
def chars : Bytes → List Bytes
  | [] => []
  | b :: s =>
    match chars s with
    | [] => [[b]]
    | c :: cs => if (c.head?.map isCont) = some true then (b :: c) :: cs else [b] :: c :: cs

/-- The byte string is a sequence of UTF-8 characters. -/
def Utf8 (s : Bytes) : Prop := ∀ c ∈ chars s, isChar c = true

/-- The visible characters of a text: those that are not white space.  The two characters the library uses internally (the bell
and U+F002) count as invisible. -/
def visibleChars (s : Bytes) : List Bytes :=
  (chars s).filter fun c => c ∉ whitespace ∧ c ≠ [7] ∧ c ≠ [239, 128, 130]

/-- How the characters of a text may be spelled in Markdown: as they are, `<` and `>` also as entities, and the null character as
the replacement character U+FFFD. -/
inductive Spelled : List Bytes → List Bytes → Prop
  | nil : Spelled [] []
  | same (c : Bytes) {cs ds : List Bytes} : Spelled cs ds → Spelled (c :: cs) (c :: ds)
  | lt {cs ds : List Bytes} : Spelled cs ds → Spelled ([60] :: cs) (chars b!"&lt;" ++ ds)
  | gt {cs ds : List Bytes} : Spelled cs ds → Spelled ([62] :: cs) (chars b!"&gt;" ++ ds)
  | null {cs ds : List Bytes} : Spelled cs ds → Spelled ([0] :: cs) (chars b!"�" ++ ds)

/-- All characters of `cs` can be found in `out`, in this order. -/
def Shows (out cs : List Bytes) : Prop := ∃ ds, Spelled cs ds ∧ ds.Sublist out

end Verif.Spec
