import Verif.Model.Dom
import Verif.Spec.Lists
/-!
# The size of a page
-/

namespace Verif.Spec
open Verif

/-- The number that the digits of an attribute `rowspan` or `colspan` stand for; nothing for other attributes. -/
def spanNumber (key value : Bytes) : Nat :=
  if key = b!"rowspan" ∨ key = b!"colspan" then decimalValue value else 0

/-- The bytes of the attributes; a span of `n` cells counts as `n` more bytes. -/
def attrsSize (attrs : List (Bytes × Bytes)) : Nat := (attrs.map fun a => a.1.length + a.2.length + spanNumber a.1 a.2).sum

mutual
/-- The size of a page: one for each node, and the bytes of the texts, names and attributes.  A tree that is written
as HTML has more bytes than this if no cell of a table spans several rows or columns. -/
def pageSize : Node → Nat
  | .text d => 1 + d.length
  | .comment d => 1 + d.length
  | .doctype d => 1 + d.length
  | .document cs => 1 + pageSizeL cs
  | .elem n a cs => 1 + n.length + attrsSize a + pageSizeL cs
/-- The size of a list of nodes. -/
def pageSizeL : List Node → Nat
  | [] => 0
  | n :: ns => pageSize n + pageSizeL ns
end

end Verif.Spec
