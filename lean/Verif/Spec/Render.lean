import Verif.Spec.Dom
import Verif.Spec.Characters
/-!
# Specification: the visible text of a page
-/

namespace Verif.Spec
open Verif

/-- Nodes whose content is not part of the text of a page (comments and some elements). -/
def hiddenTags : List Bytes :=
  [b!"#comment", b!"head", b!"script", b!"style", b!"link", b!"meta", b!"iframe", b!"noscript", b!"input", b!"textarea"]

/-- Elements that cannot have content in HTML, and that are not rendered by rendering their content. -/
def voidTags : List Bytes := [b!"hr", b!"br", b!"img"]

/-- The texts of a page that are not inside a hidden element. -/
def pageTexts (doc : Node) : List Bytes :=
  ((items [] doc).filter fun i => i.anc.all (· ∉ hiddenTags)).filterMap fun i => i.what.text?

/-- The visible characters of a page. -/
def pageChars (doc : Node) : List Bytes := (pageTexts doc).flatMap visibleChars

/-- What the HTML parser guarantees about a tree: texts and attribute values are UTF-8, void elements have no content, there is no
document node below the root.  The root is not hidden. -/
structure Page (doc : Node) : Prop where
  texts : ∀ i ∈ items [] doc, ∀ d, i.what = .text d → Utf8 d
  attrs : ∀ i ∈ items [] doc, ∀ n a, i.what = .elem n a → ∀ p ∈ a, Utf8 p.2
  void : ∀ x ∈ nodes doc, x.name ∈ voidTags → x.children = []
  document : ∀ i ∈ items [] doc, i.what = .document → i.anc = []
  root : doc.name ∉ hiddenTags

end Verif.Spec
