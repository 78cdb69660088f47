import Verif.Model.Dom
/-!
# Specification for C93: the code of an element

Code is often coloured, that is, there are elements inside of it.
-/

namespace Verif.Spec
open Verif

/-- What one comes across in a tree, in document order. -/
inductive CodePiece
  | start (name : Bytes) (attrs : List (Bytes × Bytes))
  | text (content : Bytes)

mutual
/-- All start tags and texts of a tree, in document order, each with the names of the elements around it (a start tag also with its own). -/
def pieces (around : List Bytes) : Node → List (List Bytes × CodePiece)
  | .elem n a cs => (n :: around, .start n a) :: piecesL (n :: around) cs
  | .document cs => piecesL around cs
  | .text d => [(around, .text d)]
  | .comment _ => []
  | .doctype _ => []
/-- For a list of siblings. -/
def piecesL (around : List Bytes) : List Node → List (List Bytes × CodePiece)
  | [] => []
  | n :: ns => pieces around n ++ piecesL around ns
end

/-- The elements whose content is no code. -/
def noCode : List Bytes := [b!"style", b!"script", b!"textarea"]

/-- The pieces that are not in such an element. -/
def shownPieces (n : Node) : List CodePiece := ((pieces [] n).filter fun p => p.1.all fun name => !noCode.contains name).map (·.2)

/-- The code of an element: its texts, and a line break for each `br` and at the start of each `div`. -/
def codeOf (n : Node) : Bytes :=
  (shownPieces n).flatMap fun
    | .text d => d
    | .start name _ => if name ∈ [b!"br", b!"div"] then [10] else []

/-- The classes of the `pre` and `code` elements in it. -/
def codeClasses (n : Node) : List Bytes :=
  (shownPieces n).filterMap fun
    | .text _ => none
    | .start name attrs => if name ∈ [b!"pre", b!"code"] then some (Node.attrOr b!"class" [] (.elem name attrs [])) else none

end Verif.Spec
