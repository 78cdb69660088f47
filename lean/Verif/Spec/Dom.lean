import Verif.Model.Dom
/-!
# Vocabulary for statements about HTML trees
-/

namespace Verif.Spec
open Verif

/-- What a node is, apart from its children. -/
inductive What where
  | text (data : Bytes)
  | comment (data : Bytes)
  | doctype (data : Bytes)
  | document
  | elem (name : Bytes) (attrs : List (Bytes × Bytes))
deriving DecidableEq

/-- A node as seen from the outside: what it is, and the names of the nodes it is inside of (innermost first). -/
structure Item where
  anc : List Bytes
  what : What
deriving DecidableEq

mutual
/-- All nodes of a tree in document order; `anc` are the names of the nodes around the tree. -/
def items (anc : List Bytes) : Node → List Item
  | .text d => [⟨anc, .text d⟩]
  | .comment d => [⟨anc, .comment d⟩]
  | .doctype d => [⟨anc, .doctype d⟩]
  | .document cs => ⟨anc, .document⟩ :: itemsL (b!"#document" :: anc) cs
  | .elem n a cs => ⟨anc, .elem n a⟩ :: itemsL (n :: anc) cs
def itemsL (anc : List Bytes) : List Node → List Item
  | [] => []
  | n :: ns => items anc n ++ itemsL anc ns
end

/-- The name of a node. -/
def What.name : What → Bytes
  | .text _ => b!"#text"
  | .comment _ => b!"#comment"
  | .doctype _ => b!"#doctype"
  | .document => b!"#document"
  | .elem n _ => n

/-- The text of a node that is a text. -/
def What.text? : What → Option Bytes
  | .text d => some d
  | _ => none

/-- The texts among some nodes, each with what `f` says about the names around it. -/
def textsWith {α : Type} (f : List Bytes → α) (l : List Item) : List (Bytes × α) :=
  l.filterMap fun i => i.what.text?.map fun d => (d, f i.anc)

/-- The texts of a tree, one for each text node, in document order. -/
def texts (n : Node) : List Bytes := (items [] n).filterMap fun i => i.what.text?

/-- The text of a tree. -/
def text (n : Node) : Bytes := (texts n).flatten

/-- All nodes that are not texts, with their surroundings. -/
def nonTexts (n : Node) : List Item := (items [] n).filter fun i => i.what.text?.isNone

mutual
/-- All nodes of a tree, each with its children. -/
def nodes : Node → List Node
  | .text d => [.text d]
  | .comment d => [.comment d]
  | .doctype d => [.doctype d]
  | .document cs => .document cs :: nodesL cs
  | .elem n a cs => .elem n a cs :: nodesL cs
def nodesL : List Node → List Node
  | [] => []
  | n :: ns => nodes n ++ nodesL ns
end

/-- A tree as HTML source: start tags, end tags, texts and comments. -/
inductive Tag where
  | start (name : Bytes)
  | stop (name : Bytes)
  | text (data : Bytes)
  | comment (data : Bytes)
  | doctype (data : Bytes)
deriving DecidableEq

mutual
/-- The HTML source of a tree (the document is shown as a tag `#document`). -/
def tags : Node → List Tag
  | .text d => [.text d]
  | .comment d => [.comment d]
  | .doctype d => [.doctype d]
  | .document cs => .start b!"#document" :: (tagsL cs ++ [.stop b!"#document"])
  | .elem n _ cs => .start n :: (tagsL cs ++ [.stop n])
def tagsL : List Node → List Tag
  | [] => []
  | n :: ns => tags n ++ tagsL ns
end

/-- `ul` and `ol` -/
def isList (n : Bytes) : Prop := n = b!"ul" ∨ n = b!"ol"

/-- What may stand between two lists that follow each other directly: other beginnings and ends (but not of a list
item or a horizontal rule) and comments. -/
def Tag.between : Tag → Prop
  | .start n => ¬ isList n ∧ n ≠ b!"li" ∧ n ≠ b!"hr"
  | .stop _ => True
  | .comment _ => True
  | .doctype _ => True
  | .text _ => False

/-- Going forward, spans and the ends of elements do not count. -/
def Tag.skipForward : Tag → Prop
  | .start n => n = b!"span"
  | .stop _ => True
  | _ => False

/-- Going backward, spans and the beginnings of elements do not count. -/
def Tag.skipBackward : Tag → Prop
  | .stop n => n = b!"span"
  | .start _ => True
  | _ => False

/-- What follows the start tag of an element: does the element begin with inline code?  (If it is not empty.) -/
def BeginsWithCode (y : List Tag) : Prop :=
  (∀ n, y.head? ≠ some (.stop n)) ∧
  ∃ z m w, y = z ++ .start m :: w ∧ m ∈ [b!"code", b!"var", b!"samp", b!"kbd", b!"tt"] ∧ ∀ t ∈ z, t.skipForward

/-- What precedes the end tag of an element: does the element end with inline code?  (If it is not empty.) -/
def EndsWithCode (x : List Tag) : Prop :=
  (∀ n, x.getLast? ≠ some (.start n)) ∧
  ∃ w m z, x = w ++ .stop m :: z ∧ m ∈ [b!"code", b!"var", b!"samp", b!"kbd", b!"tt"] ∧ ∀ t ∈ z, t.skipBackward

/-- What a node is, apart from its children. -/
def whatIs : Node → What
  | .text d => .text d
  | .comment d => .comment d
  | .doctype d => .doctype d
  | .document _ => .document
  | .elem n a _ => .elem n a

end Verif.Spec
