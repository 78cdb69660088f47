import Verif.Spec.TitleSections
import Verif.Spec.Characters
import Verif.Spec.Collapse
/-!
# Documents with a paragraph

A paragraph (or a heading) with any content between its first text and its last text.
-/

namespace Verif.Spec
open Verif

/-- Headings, quotes, and elements of which only the content counts (`p`, `div`, `section`, `li` …). -/
def BlockName (n : Bytes) : Prop := n ∈ [b!"h1", b!"h2", b!"h3", b!"h4", b!"h5", b!"h6"] ∨ n = b!"blockquote" ∨ n ∉ markdownNames

/-- The content begins with a text, and this is not only white space. -/
def StartsWithText (content : List Node) : Prop := ∃ text rest, content = .text text :: rest ∧ ∃ b ∈ text, isHtmlSpace b = false

/-- The last character of a text, apart from spaces and newlines, is not a white space character. -/
def EndsWithChar (text : Bytes) : Prop := ∃ front char spaces, text = front ++ char ++ spaces ∧ isChar char = true ∧ char ∉ whitespace ∧ ∀ b ∈ spaces, isHtmlSpace b = true

/-- The first character of a text, apart from spaces and newlines, is not a white space character. -/
def StartsWithChar (text : Bytes) : Prop := ∃ spaces char back, text = spaces ++ char ++ back ∧ isChar char = true ∧ char ∉ whitespace ∧ ∀ b ∈ spaces, isHtmlSpace b = true

/-- The content ends with a text. -/
def EndsWithText (content : List Node) : Prop := ∃ front text, content = front ++ [.text text] ∧ EndsWithChar text

end Verif.Spec
