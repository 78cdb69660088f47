import Verif.Basic.Bytes
/-!
# Model of the HTML tree

`golang.org/x/net/html.Node` and the queries of `github.com/JohannesKaufmann/dom` that the code uses.  Neither is
part of `/repo`; this is what `/repo` relies on (trusted, see DESIGN.md).

A pointer tree is an inductive tree.  Functions that mutate the tree in place become functions that return the new
tree.  Error and raw nodes (never produced by `html.Parse`) are left out.
-/

namespace Verif

/-- `html.Node`.  Package html is not in `/repo`; see for example `/repo/converter/convert.go:58`. -/
inductive Node where
  /-- `html.TextNode` -/
  | text (data : Bytes)
  /-- `html.CommentNode` -/
  | comment (data : Bytes)
  /-- `html.DoctypeNode` -/
  | doctype (data : Bytes)
  /-- `html.DocumentNode` -/
  | document (children : List Node)
  /-- `html.ElementNode` -/
  | elem (name : Bytes) (attrs : List (Bytes × Bytes)) (children : List Node)

namespace Node

/-- `dom.AllChildNodes`.  Called at `/repo/converter/ctx.go:172`. -/
def children : Node → List Node
  | document cs => cs
  | elem _ _ cs => cs
  | _ => []

/-- `dom.NodeName`.  Called at `/repo/converter/render.go:15`. -/
def name : Node → Bytes
  | text _ => b!"#text"
  | comment _ => b!"#comment"
  | doctype _ => b!"#doctype"
  | document _ => b!"#document"
  | elem n _ _ => n

/-- `dom.GetAttribute`: the first attribute of that name. Called at `/repo/plugin/table/utils.go:48`. -/
def attr? (key : Bytes) : Node → Option Bytes
  | elem _ as _ => (as.find? fun a => a.1 == key).map (·.2)
  | _ => none

/-- `dom.GetAttributeOr`.  Called at `/repo/plugin/commonmark/render_link.go:50`. -/
def attrOr (key default : Bytes) (n : Node) : Bytes := (n.attr? key).getD default

end Node

/-- `dom.NameIsBlockNode` and `dom.NameIsInlineNode`: tables of names.  The theorems hold for any tables. Called at `/repo/converter/register.go:210-212`. -/
structure NameTables where
  isBlock : Bytes → Bool
  isInline : Bytes → Bool

end Verif
