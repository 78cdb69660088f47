import Verif.Spec.Whitespace
/-!
# Specification: the visible part of a text
-/

namespace Verif.Spec
open Verif

/-- The length of the white space character a byte string begins with, if it does. -/
def whitespaceAt (s : Bytes) : Option Nat := (whitespace.find? fun w => w.isPrefixOf s).map List.length

/-- Leave out the white space characters; `skip` counts the bytes of the current one. -/
def visibleGo : Nat → Bytes → Bytes
  | _, [] => []
  | skip + 1, _ :: s => visibleGo skip s
  | 0, b :: s =>
    match whitespaceAt (b :: s) with
    | some n => visibleGo (n - 1) s
    | none => b :: visibleGo 0 s

/-- A text without its white space characters. -/
def visible (s : Bytes) : Bytes := visibleGo 0 s

/-- The byte string does not begin in the middle of a character. -/
def StartsCharacter (s : Bytes) : Prop := ∀ b ∈ s.head?, isCont b = false

end Verif.Spec
