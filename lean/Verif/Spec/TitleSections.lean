import Verif.Spec.Sections
import Verif.Spec.Page
/-!
# Documents with a title

A heading or a paragraph that consists of one text, in the content of a document.
-/

namespace Verif.Spec
open Verif

/-- Headings and paragraphs. -/
def titleNames : List Bytes := [b!"p", b!"h1", b!"h2", b!"h3", b!"h4", b!"h5", b!"h6"]

/-- `<h2>text</h2>`. -/
def titled (n : Bytes) (a : List (Bytes × Bytes)) (text : Bytes) : Node := .elem n a [.text text]

/-- There is a text, and what is seen of it does not end with a white space character (it may be a no-break space, others are not seen). -/
def EndsVisible (text : Bytes) : Prop := shown text ≠ [] ∧ NoTrailingWhitespace (shown text)

/-- `alone`, `front`, `back` and `whole` are the Markdown of a title, of something with this title behind it, of the title with something behind it, and of all
of it together. What comes behind the title is the same (`v`) in `back` and in `whole`, and it is nothing or begins with a blank line; what comes before it is
the same in `front` and in `whole`. -/
def Continued (alone front back whole : Option Bytes) : Prop :=
  ∃ m u v, alone = some m ∧ front = some u ∧ back = some (m ++ v) ∧ whole = some (u ++ v) ∧ (v = [] ∨ ∃ v', v = NL :: NL :: v')

/-- White space aside, the text consists of ASCII letters, digits and some punctuation that means nothing in Markdown. -/
def PlainWords (text : Bytes) : Prop := shown text ≠ [] ∧ ∀ b ∈ shown text, isWordByte b = true ∨ b ∈ b!" ,:;?/%@"

/-- The Markdown of a title (for headings: in the style with pound signs). -/
def titleLine (n text : Bytes) : Bytes :=
  match n with
  | [104, level] => List.replicate (level.toNat - 48) 35 ++ [32] ++ shown text
  | _ => shown text

end Verif.Spec
