import Verif.Spec.Dom
import Verif.Model.CliDom
/-!
# Specification: nodes in their surroundings
-/

namespace Verif.Spec
open Verif Verif.CliDom

/-- A node in its surroundings. -/
abbrev Place := List Frame × Node

mutual
/-- All nodes of a tree in document order, each in its surroundings. -/
def places (up : List Frame) : Node → List Place
  | .text d => [(up, .text d)]
  | .comment d => [(up, .comment d)]
  | .doctype d => [(up, .doctype d)]
  | .document cs => (up, .document cs) :: placesL up (.document []) [] cs
  | .elem n a cs => (up, .elem n a cs) :: placesL up (.elem n a []) [] cs
def placesL (up : List Frame) (parent : Node) (before : List Node) : List Node → List Place
  | [] => []
  | c :: cs => places (⟨parent, before, cs⟩ :: up) c ++ placesL up parent (before ++ [c]) cs
end

/-- The nodes a node is inside of, innermost first. -/
def ancestors : List Frame → Node → List Place
  | [], _ => []
  | f :: up, n => (up, f.fill n) :: ancestors up (f.fill n)

/-- A node and the nodes it is inside of. -/
def trail (p : Place) : List Place := p :: ancestors p.1 p.2

/-- What a node is, apart from its children. -/
def whatOf : Node → What
  | .text d => .text d
  | .comment d => .comment d
  | .doctype d => .doctype d
  | .document _ => .document
  | .elem n a _ => .elem n a

/-- A node as seen from the outside. -/
def itemOf (p : Place) : Item := ⟨p.1.map (·.parent.name), whatOf p.2⟩

/-- Does the selector match the node at this place? -/
def hits (sel : Selector) (p : Place) : Bool := sel p.1 p.2

/-- The selector does not look at what follows a node (or follows a node around it). -/
def IgnoresFollowing (sel : Selector) : Prop :=
  ∀ up up' n, up.map (fun f => (f.parent, f.before)) = up'.map (fun f => (f.parent, f.before)) → sel up n = sel up' n

/-- The selector only looks at what a node is and at what the nodes around it are: type, class, id and attribute selectors, and the
descendant and child combinators. -/
def OnlyLooksUp (sel : Selector) : Prop :=
  ∀ up up' n n', up.map (fun f => whatOf f.parent) = up'.map (fun f => whatOf f.parent) → whatOf n = whatOf n' → sel up n = sel up' n'

end Verif.Spec
