import Verif.Spec.Dom
/-!
# Specification: collapsing white space

What a browser does with the white space of a page: within a line a run of spaces, tabs and line breaks counts as one
space, and spaces at the beginning and the end of a line do not count.
-/

namespace Verif.Spec
open Verif

/-- White space of HTML that is collapsed: space, tab, line feed, carriage return. -/
def isHtmlSpace (b : UInt8) : Bool := b = 32 || b = 9 || b = 10 || b = 13

/-- Each run of white space becomes one space; `inRun` says that the run has begun before. -/
def oneSpaceAfter : Bool → Bytes → Bytes
  | _, [] => []
  | inRun, b :: s =>
    if isHtmlSpace b then (if inRun then oneSpaceAfter true s else 32 :: oneSpaceAfter true s)
    else b :: oneSpaceAfter false s

/-- Each run of white space becomes one space. -/
def oneSpace (s : Bytes) : Bytes := oneSpaceAfter false s

/-- What is seen of a page from left to right. -/
inductive Piece where
  /-- a piece of text -/
  | text (data : Bytes)
  /-- a line ends and another one begins -/
  | line
  /-- something that is not text, such as an image -/
  | solid
deriving DecidableEq

/-- How a tree is laid out: which elements begin and end a line, which are no text, which keep their white space. -/
structure FlowLayout where
  isBlock : Bytes → Bool
  isVoid : Bytes → Bool
  isPre : Bytes → Bool

/-- What an element is seen as where it begins and where it ends. -/
def FlowLayout.boundary (f : FlowLayout) (name : Bytes) : List Piece :=
  if f.isBlock name || name = b!"br" then [.line]
  else if f.isVoid name || f.isPre name || name = b!"code" then [.solid]
  else []

mutual
/-- The pieces of a tree. -/
def flow (f : FlowLayout) : Node → List Piece
  | .text d => [.text d]
  | .comment _ => []
  | .doctype _ => []
  | .document cs => flowL f cs
  | .elem n _ cs =>
    if f.isPre n then f.boundary n
    else f.boundary n ++ flowL f cs ++ f.boundary n
/-- The pieces of trees that follow each other. -/
def flowL (f : FlowLayout) : List Node → List Piece
  | [] => []
  | n :: ns => flow f n ++ flowL f ns
end

/-- The text between two boundaries, `left` and `right` say whether they are boundaries of a line. -/
def tidyText (left right : Bool) (s : Bytes) : List Piece :=
  let s := oneSpace s
  let s := if left && s.head? = some 32 then s.tail else s
  let s := if right && s.getLast? = some 32 then s.dropLast else s
  if s = [] then [] else [.text s]

/-- The pieces with their white space collapsed: `acc` is the text since the last boundary, which was one of a line if `left`. -/
def tidy (left : Bool) (acc : Bytes) : List Piece → List Piece
  | [] => tidyText left true acc
  | .text d :: ps => tidy left (acc ++ d) ps
  | .line :: ps => tidyText left true acc ++ .line :: tidy true [] ps
  | .solid :: ps => tidyText left false acc ++ .solid :: tidy false [] ps

/-- The pieces with neighbouring texts joined. -/
def joined (acc : Bytes) : List Piece → List Piece
  | [] => if acc = [] then [] else [.text acc]
  | .text d :: ps => joined (acc ++ d) ps
  | .line :: ps => (if acc = [] then [] else [.text acc]) ++ .line :: joined [] ps
  | .solid :: ps => (if acc = [] then [] else [.text acc]) ++ .solid :: joined [] ps

end Verif.Spec

namespace Verif.Spec
open Verif

/-- What is seen of a node: a visible character, or the node as it is. -/
inductive Seen where
  | char (anc : List Bytes) (b : UInt8)
  | node (i : Item)
deriving DecidableEq

/-- What is seen of a node: outside of preformatted elements, the visible characters of a text, and nothing of a doctype. -/
def seen (isPre : Bytes → Bool) (visible : Bytes → Bytes) (i : Item) : List Seen :=
  if i.anc.any isPre then [.node i]
  else
    match i.what with
    | .text d => (visible d).map (.char i.anc)
    | .doctype _ => []
    | _ => [.node i]

end Verif.Spec

namespace Verif.Spec
open Verif

/-- A text without content. -/
def isEmptyTextNode : Node → Bool
  | .text d => d.isEmpty
  | _ => false

mutual
/-- A tree without empty texts, apart from the content of preformatted elements. -/
def withoutEmpty (isPre : Bytes → Bool) : Node → Node
  | .document cs => .document (withoutEmptyL isPre cs)
  | .elem n a cs => if isPre n then .elem n a cs else .elem n a (withoutEmptyL isPre cs)
  | .text d => .text d
  | .comment d => .comment d
  | .doctype d => .doctype d
/-- The same for trees that follow each other. -/
def withoutEmptyL (isPre : Bytes → Bool) : List Node → List Node
  | [] => []
  | n :: ns => if isEmptyTextNode n then withoutEmptyL isPre ns else withoutEmpty isPre n :: withoutEmptyL isPre ns
end

/-- Between two texts that are children of the same node there is an element. -/
def TextsApart (doc : Node) : Prop :=
  ∀ x ∈ nodes doc, ∀ (pre mid post : List Node) (d d' : Bytes), x.children = pre ++ .text d :: (mid ++ .text d' :: post) →
    ∃ n a cs, .elem n a cs ∈ mid

end Verif.Spec
