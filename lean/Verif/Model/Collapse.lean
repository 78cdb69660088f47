import Verif.Model.Dom
/-!
# Model of package collapse

`/repo/collapse/collapse.go`, `whitespace.go`, `is_node.go`

`Collapse` walks over the tree once, from left to right.  It changes the text it is at (`text`), and, when it comes to a
block or to the end, the one it saw last (`prevText`).  The model separates these two: `first` goes from left to right
and does all except for the change of `prevText`, `second` goes from right to left and does this.  That is the same,
since `prevText` is forgotten as soon as it has been changed, so that the decisions of the walk depend on texts that are
not changed any more only.
-/

namespace Verif.Collapse
open Verif

/-! ## whitespace.go -/

/-- `/repo/collapse/whitespace.go:30`. -/
def isWs (b : UInt8) : Bool := b = SP || b = 13 || b = NL || b = 9

/-- `/repo/collapse/whitespace.go:18-79` `replaceAnyWhitespaceWithSpace`.  `ret` is the new slice, if there is one, `normal` is
`source[startNormal:startMatch]` (or up to the current position if there is no match), `run` is the match so far (empty for
`startMatch == -1`); `startNormal` is 0 exactly if there is no new slice. -/
def replaceGo (source : Bytes) (ret : Option Bytes) (normal run : Bytes) : Bytes → Bytes
  | [] =>
    if run = [] ∧ ret = none then source
    else if run = [] then ret.getD [] ++ normal
    else if ret = none ∧ run = [SP] then source
    else ret.getD [] ++ normal ++ [SP]
  | b :: rest =>
    if isWs b then replaceGo source ret normal (run ++ [b]) rest
    else if run = [] then replaceGo source ret (normal ++ [b]) [] rest
    else if run = [SP] then replaceGo source ret (normal ++ run ++ [b]) [] rest
    else replaceGo source (some (ret.getD [] ++ normal ++ [SP])) [b] [] rest

/-- `/repo/collapse/whitespace.go:12-79` `replaceAnyWhitespaceWithSpace`. -/
def replaceWs (source : Bytes) : Bytes := if source = [] then source else replaceGo source none [] [] source

/-! ## collapse.go -/

/-- `/repo/collapse/collapse.go:84-88` `DomFuncs`; all of the functions that are used look at the name of the node only. -/
structure DomFuncs where
  isBlock : Bytes → Bool
  isVoid : Bytes → Bool
  isPre : Bytes → Bool

/-- `/repo/collapse/is_node.go:12-15` `voidElements`. -/
def voidElements : List Bytes := [b!"area", b!"base", b!"br", b!"col", b!"command", b!"embed", b!"hr", b!"img", b!"input",
  b!"keygen", b!"link", b!"meta", b!"param", b!"track", b!"wbr"]

/-- `/repo/plugin/base/base.go:87-99` `preRenderCollapse` with `/repo/collapse/collapse.go:90-105` `fillDefaultDomFuncs` and
`/repo/collapse/is_node.go:27-43`: what the base plugin uses; `isBlock` are the names whose tag type is block. -/
def baseFuncs (isBlock : Bytes → Bool) : DomFuncs where
  isBlock := isBlock
  isVoid := fun n => n ∈ voidElements
  isPre := fun n => n = b!"pre" || n = b!"code"

/-- The variables of the walk, `/repo/collapse/collapse.go:114-115`: `prevText` (here: whether it ends with a space) and
`keepLeadingWs`. -/
structure Vars where
  prev : Option Bool
  keep : Bool
deriving DecidableEq

/-- `/repo/collapse/collapse.go:138-153` at an element, without the change of `prevText`. -/
def visit (f : DomFuncs) (s : Vars) (name : Bytes) : Vars :=
  if f.isBlock name || name = b!"br" then ⟨none, false⟩
  else if f.isVoid name || f.isPre name || name = b!"code" then ⟨none, true⟩
  else if s.prev.isSome then { s with keep := false }
  else s

/-- `/repo/collapse/collapse.go:121-137` at a text. -/
def firstText (s : Vars) (d : Bytes) : List Node × Vars :=
  let text := replaceWs d
  let text := if (s.prev = none ∨ s.prev = some true) ∧ s.keep = false ∧ text.head? = some SP then text.tail else text
  if text = [] then ([], s) else ([.text text], { s with prev := some (text.getLast? = some SP) })

mutual
/-- `/repo/collapse/collapse.go:120-166`: the walk, without the changes of `prevText`.  The next node is the first child, or after
the last child again the parent (`nextNode`, 53-70; a text that is removed makes no difference, 72-82), so that elements
are visited before and after their children, preformatted ones once.  Visiting an element without children a second
time changes nothing. -/
def first (f : DomFuncs) (s : Vars) : Node → List Node × Vars
  | .text d => firstText s d
  | .comment d => ([.comment d], s)
  | .doctype _ => ([], s)
  | .document _ => ([], s)
  | .elem n a cs =>
    if f.isPre n then ([.elem n a cs], visit f s n)
    else
      let r := firstL f (visit f s n) cs
      ([.elem n a r.1], visit f r.2 n)
/-- `/repo/collapse/collapse.go:120-166`, for a list of siblings. -/
def firstL (f : DomFuncs) (s : Vars) : List Node → List Node × Vars
  | [] => ([], s)
  | n :: ns =>
    let r := first f s n
    let rs := firstL f r.2 ns
    (r.1 ++ rs.1, rs.2)
end

/-- What happens next to a text when it is `prevText`. `/repo/collapse/collapse.go:138-142` and `:168-173`. -/
inductive Next
  /-- a block or `br` comes -/
  | block
  /-- the walk ends -/
  | stop
  /-- another text becomes `prevText`, or it is forgotten -/
  | other
deriving DecidableEq

/-- The branches of `/repo/collapse/collapse.go:138-153` as seen by the text before. -/
def before (f : DomFuncs) (next : Next) (name : Bytes) : Next :=
  if f.isBlock name || name = b!"br" then .block
  else if f.isVoid name || f.isPre name || name = b!"code" then .other
  else next

/-- `strings.TrimSuffix(s, " ")`.  Called at `/repo/collapse/collapse.go:141` and `:169`. -/
def trimSuffix (s : Bytes) : Bytes := if s.getLast? = some SP then s.dropLast else s

mutual
/-- `/repo/collapse/collapse.go:140-142` and `:168-173`: the changes of `prevText`. -/
def second (f : DomFuncs) (next : Next) : Node → List Node × Next
  | .text d =>
    match next with
    | .other => ([.text d], .other)
    | .block => ([.text (trimSuffix d)], .other)
    | .stop => (if trimSuffix d = [] then [] else [.text (trimSuffix d)], .other)
  | .comment d => ([.comment d], next)
  | .doctype d => ([.doctype d], next)
  | .document cs => ([.document cs], next)
  | .elem n a cs =>
    if f.isPre n then ([.elem n a cs], before f next n)
    else
      let r := secondL f (before f next n) cs
      ([.elem n a r.1], before f r.2 n)
/-- `/repo/collapse/collapse.go:140-142` and `:168-173`, for a list of siblings. -/
def secondL (f : DomFuncs) (next : Next) : List Node → List Node × Next
  | [] => ([], next)
  | n :: ns =>
    let rs := secondL f next ns
    let r := second f rs.2 n
    (r.1 ++ rs.1, r.2)
end

/-- The children after both parts of the walk. `/repo/collapse/collapse.go:106-174`. -/
def children (f : DomFuncs) (cs : List Node) : List Node := (secondL f .stop (firstL f ⟨none, false⟩ cs).1).1

/-- `/repo/collapse/collapse.go:106-174` `Collapse`; the root itself is not visited. -/
def collapse (f : DomFuncs) : Node → Node
  | .document cs => if f.isPre b!"#document" then .document cs else .document (children f cs)
  | .elem n a cs => if f.isPre n then .elem n a cs else .elem n a (children f cs)
  | n => n

end Verif.Collapse
