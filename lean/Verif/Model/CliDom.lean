import Verif.Model.DomUtils
/-!
# Model of the selectors of the command line tool

`/repo/cli/html2markdown/cmd/cmd_convert.go`

A CSS selector (package cascadia, not part of `/repo`) decides about a node by looking at the node and at everything
around it.  Here it is an arbitrary function of the node and its surroundings.
-/

namespace Verif.CliDom
open Verif Verif.DomUtils

/-- One step from a node to its parent: the parent without its children, and the siblings of the node. `Parent`, `PrevSibling` and `NextSibling` of `html.Node`, as package cascadia uses them at `/repo/cli/html2markdown/cmd/cmd_convert.go:40-53`. -/
structure Frame where
  parent : Node
  before : List Node
  after : List Node

/-- The parent of a node. `Parent` of `html.Node`, see `/repo/cli/html2markdown/cmd/cmd_convert.go:40-53`. -/
def Frame.fill (f : Frame) (n : Node) : Node := withChildren f.parent (f.before ++ n :: f.after)

/-- `cascadia.Matcher`: does the node match?  The frames lead from the node to the root of its tree. `/repo/cli/html2markdown/cmd/cmd_convert.go:40` and `:53`. -/
abbrev Selector := List Frame → Node → Bool

mutual
/-- `/repo/cli/html2markdown/cmd/cmd_convert.go:55-69`: the function `finder`; `none` if the node is removed.  The calls for the
children are deferred: they run last to first, so a node is looked at when what follows it has been changed already, and
what is before it has not. -/
def excludeIn (sel : Selector) (up : List Frame) : Node → Option Node
  | .text d => if sel up (.text d) then none else some (.text d)
  | .comment d => if sel up (.comment d) then none else some (.comment d)
  | .doctype d => if sel up (.doctype d) then none else some (.doctype d)
  | .document cs => if sel up (.document cs) then none else some (.document (excludeL sel up (.document []) [] cs))
  | .elem n a cs => if sel up (.elem n a cs) then none else some (.elem n a (excludeL sel up (.elem n a []) [] cs))
/-- `/repo/cli/html2markdown/cmd/cmd_convert.go:62-67`: the loop over the children. -/
def excludeL (sel : Selector) (up : List Frame) (parent : Node) (before : List Node) : List Node → List Node
  | [] => []
  | c :: cs =>
    let rest := excludeL sel up parent (before ++ [c]) cs
    match excludeIn sel (⟨parent, before, rest⟩ :: up) c with
    | none => rest
    | some c' => c' :: rest
end

/-- `/repo/cli/html2markdown/cmd/cmd_convert.go:50-72` `excludeNodesFromDoc`; `none` is an empty selector.  The root has no parent,
so it is not removed. -/
def exclude (sel : Option Selector) (doc : Node) : Node :=
  match sel with
  | none => doc
  | some sel => (excludeIn sel [] doc).getD doc

mutual
/-- `/repo/cli/html2markdown/cmd/cmd_convert.go:40-47`: the node without the matching nodes inside of it, and these nodes in document order
(`cascadia.QueryAll` returns all matching descendants in document order, before anything is changed).  A matching node inside of
another one is taken out of it. -/
def pickIn (sel : Selector) (up : List Frame) : Node → Node × List Node
  | .text d => (.text d, [])
  | .comment d => (.comment d, [])
  | .doctype d => (.doctype d, [])
  | .document cs => let r := pickL sel up (.document []) [] cs; (.document r.1, r.2)
  | .elem n a cs => let r := pickL sel up (.elem n a []) [] cs; (.elem n a r.1, r.2)
/-- `/repo/cli/html2markdown/cmd/cmd_convert.go:40-47`, for a list of siblings. -/
def pickL (sel : Selector) (up : List Frame) (parent : Node) (before : List Node) : List Node → List Node × List Node
  | [] => ([], [])
  | c :: cs =>
    let r := pickIn sel (⟨parent, before, cs⟩ :: up) c
    let rs := pickL sel up parent (before ++ [c]) cs
    if sel (⟨parent, before, cs⟩ :: up) c then (rs.1, r.1 :: r.2 ++ rs.2) else (r.1 :: rs.1, r.2 ++ rs.2)
end

/-- `/repo/cli/html2markdown/cmd/cmd_convert.go:36-49` `includeNodesFromDoc`; `none` is an empty selector.  The new root is a node of no
type (`html.ErrorNode`), without name; here it is an element with the empty name. -/
def includeNodes (sel : Option Selector) (doc : Node) : Node :=
  match sel with
  | none => doc
  | some sel => .elem [] [] (pickIn sel [] doc).2

/-- `/repo/cli/html2markdown/cmd/cmd_convert.go:73-92` `parseInputWithSelectors`, after the parser. -/
def withSelectors (incl excl : Option Selector) (doc : Node) : Node := exclude excl (includeNodes incl doc)

end Verif.CliDom
