import Verif.Model.Dom
/-!
# Documents with a rule

A document whose content is in the middle of some containers (as `html` and `body`), and a rule (`hr`) in this content.
-/

namespace Verif.Spec
open Verif

/-- Elements that are written in a special way in Markdown, that are part of such an element, or that are removed. All others (`html`, `body`, `div`,
`section`, `p`, `form`, `label`, `my-element` …) can be containers: only their content counts. -/
def markdownNames : List Bytes := [b!"b", b!"strong", b!"i", b!"em", b!"del", b!"s", b!"strike", b!"code", b!"var", b!"samp", b!"kbd", b!"tt", b!"a", b!"img", b!"br", b!"span",
  b!"hr", b!"pre", b!"h1", b!"h2", b!"h3", b!"h4", b!"h5", b!"h6", b!"blockquote", b!"ul", b!"ol", b!"table", b!"tr",
  b!"#text", b!"#comment", b!"head", b!"script", b!"style", b!"link", b!"meta", b!"iframe", b!"noscript", b!"input", b!"textarea"]

/-- The content in containers (names and attributes, from the outside). -/
def within : List (Bytes × List (Bytes × Bytes)) → List Node → List Node
  | [], content => content
  | (n, a) :: outer, content => [.elem n a (within outer content)]

/-- A document with this content in containers, for example `<html><body>…</body></html>`. -/
def documentOf (outer : List (Bytes × List (Bytes × Bytes))) (content : List Node) : Node := .document (within outer content)

/-- Something in containers that have other content too: `before` and `behind` are, for every container from the outside, the nodes before and behind the way
to it (the first lists are beside the outermost container, the last ones are beside the thing itself; lists that are missing are empty). -/
def around : List (Bytes × List (Bytes × Bytes)) → (before behind : List (List Node)) → Node → List Node
  | [], before, behind, s => before.headD [] ++ s :: behind.headD []
  | (n, a) :: outer, before, behind, s => before.headD [] ++ .elem n a (around outer before.tail behind.tail s) :: behind.headD []

/-- A document with something in containers that have other content too. -/
def treeAround (outer : List (Bytes × List (Bytes × Bytes))) (before behind : List (List Node)) (s : Node) : Node := .document (around outer before behind s)

/-- What a parser makes of a page: a doctype, a head and a body with this content. -/
def wholePage (doctype : Bytes) (htmlAttrs headAttrs : List (Bytes × Bytes)) (head : List Node) (bodyAttrs : List (Bytes × Bytes)) (content : List Node) : Node :=
  .document [.doctype doctype, .elem b!"html" htmlAttrs [.elem b!"head" headAttrs head, .elem b!"body" bodyAttrs content]]

/-- `<hr>`. -/
def rule (a : List (Bytes × Bytes)) : Node := .elem b!"hr" a []

/-- The Markdown of a rule: `*`, `-`, `_` and spaces, without spaces at the ends. -/
structure PlainRule (r : Bytes) : Prop where
  ne : r ≠ []
  chars : ∀ b ∈ r, b = 42 ∨ b = 45 ∨ b = 95 ∨ b = 32
  first : r.head? ≠ some 32
  last : r.getLast? ≠ some 32

/-- `whole` is `front` and `back` put together: `front` ends with the rule, `back` begins with it, and `whole` has it once. What is behind the rule is
nothing or begins with a blank line. -/
def Separated (r : Bytes) (front back whole : Option Bytes) : Prop :=
  ∃ u v, front = some (u ++ r) ∧ back = some (r ++ v) ∧ whole = some (u ++ r ++ v) ∧ (v = [] ∨ ∃ v', v = NL :: NL :: v')

end Verif.Spec
