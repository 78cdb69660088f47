import Verif.Spec.CodeSections
/-!
# Documents one behind the other

Contents of documents that begin and end with a block with text, a code block or a rule.
-/

namespace Verif.Spec
open Verif

/-- The content begins with a text, and its first character is not a white space character (apart from spaces and newlines). -/
def BeginsWithText (content : List Node) : Prop := ∃ text rest, content = .text text :: rest ∧ StartsWithChar text

/-- A block (a paragraph, a heading, a `div` …) that begins and ends with text. -/
def TextBlock (isBlock : Bytes → Bool) (x : Node) : Prop :=
  ∃ n a content, x = .elem n a content ∧ BlockName n ∧ isBlock n = true ∧ BeginsWithText content ∧ EndsWithText content

/-- A block with text, a code block, or a rule. -/
def EdgeBlock (isBlock : Bytes → Bool) (x : Node) : Prop :=
  TextBlock isBlock x ∨ (CodeNames isBlock ∧ CodeBlock x) ∨ (isBlock b!"hr" = true ∧ ∃ a, x = rule a)

/-- The first and the last node are such blocks (there can be only one node). -/
def Chapter (isBlock : Bytes → Bool) (content : List Node) : Prop :=
  (∃ x rest, content = x :: rest ∧ EdgeBlock isBlock x) ∧ ∃ front x, content = front ++ [x] ∧ EdgeBlock isBlock x

/-- The options for code blocks and rules. -/
structure EdgeConfig (fence rule : Bytes) : Prop where
  fence : Fence fence
  rule : PlainRule rule

/-- Pieces of Markdown with a blank line between them. -/
def blankLines : List Bytes → Bytes
  | [] => []
  | [piece] => piece
  | piece :: pieces => piece ++ [NL, NL] ++ blankLines pieces

end Verif.Spec
