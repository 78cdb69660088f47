import Verif.Spec.Stock
/-!
# Registrations for some tags
-/

namespace Verif.Spec
open Verif Verif.Engine

/-- A registration that is about elements with these names only: a tag type or a renderer for one of them, a renderer that leaves all other
nodes to the next one, or a plugin that makes such registrations and succeeds. -/
inductive Concerns (names : List Bytes) : Op Bool → Prop
  | tagType {name : Bytes} (t : TagType) (priority : Int) : name ∈ names → Concerns names (.tagType name t priority)
  | rendererFor {name : Bytes} (t : TagType) (h : Engine.Render Bool) (priority : Int) : name ∈ names → Concerns names (.rendererFor name t h priority)
  | renderer {h : Engine.Render Bool} (priority : Int) : (∀ ctx l, l.name ∉ names → h ctx l = .ret .tryNext) → Concerns names (.renderer h priority)
  | plugin {plugin : Bytes} {init : List (Op Bool)} : plugin ≠ [] → (∀ op ∈ init, Concerns names op) → Concerns names (.plugin plugin init none)

mutual
/-- The names of the elements of a tree. -/
def elementNames : Node → List Bytes
  | .elem n _ cs => n :: elementNamesL cs
  | .document cs => elementNamesL cs
  | _ => []
/-- For a list of siblings. -/
def elementNamesL : List Node → List Bytes
  | [] => []
  | n :: ns => elementNames n ++ elementNamesL ns
end

mutual
/-- No document node is inside of the tree. -/
def noDocument : Node → Bool
  | .elem _ _ cs => noDocumentL cs
  | .document _ => false
  | _ => true
/-- For a list of siblings. -/
def noDocumentL : List Node → Bool
  | [] => true
  | n :: ns => noDocument n && noDocumentL ns
end

/-- The names of nodes that are no elements, and of the elements that the normalisation makes of others. -/
def madeNames : List Bytes := [b!"#text", b!"#comment", b!"#doctype", b!"#document", b!"div", b!"span", b!"strong", b!"code", b!"br", b!"li"]

/-- A tree as the parser makes them (the root may be a document), in which no element has one of these names, also not after the
normalisation. -/
structure Without (names : List Bytes) (doc : Node) : Prop where
  tree : noDocumentL doc.children = true
  absent : ∀ n ∈ elementNames doc, n ∉ names
  made : ∀ n ∈ madeNames, n ∉ names

end Verif.Spec
