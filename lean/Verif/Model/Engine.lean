import Verif.Model.Dom
import Verif.Model.Escape
/-!
# Model of the conversion engine

`/repo/converter/prioritized.go`, `register.go`, `converter.go`, `plugin.go`, `convert.go`, `render.go`, `ctx.go`

A handler is arbitrary Go code that gets a `Context` and a `Writer`.  What it can do with these is modelled as an
interaction tree (`Prog`): write bytes, ask for the tag type of a name, render nodes into the writer or into a buffer
of its own, escape and un-escape content, get and set values of the per-conversion state, and panic.  So the theorems
hold for every handler.
Handlers that register further handlers while a conversion runs are not modelled.

A handler may render any nodes, also the one it was called for, so rendering need not terminate.  The model is
fuelled, `none` is "not yet finished" (also after a panic); all theorems hold for any fuel.
-/

namespace Verif.Engine
open Verif

/-! ## prioritized.go -/

/-- `/repo/converter/prioritized.go:18-21` `prioritizedValue`. -/
structure Prio (α : Type) where
  value : α
  priority : Int
deriving DecidableEq

/-- One round of Go's `insertionSort_func` (package sort): the new element is swapped to the left as long as it is
less than its left neighbour.  `rev` is the already sorted part, from right to left. See `/repo/converter/prioritized.go:25-29`. -/
def insertLeft {α} (x : Prio α) : List (Prio α) → List (Prio α)
  | [] => [x]
  | y :: rev => if x.priority < y.priority then y :: insertLeft x rev else x :: y :: rev

/-- `insertionSort_func` of package sort, with the comparison of `/repo/converter/prioritized.go:25-29`. -/
def insertionSort {α} (l : List (Prio α)) : List (Prio α) := (l.foldl (fun rev x => insertLeft x rev) []).reverse

/-- Ascending priorities. The comparison of `/repo/converter/prioritized.go:27`. -/
def Ascending {α} (l : List (Prio α)) : Prop := l.Pairwise fun a b => a.priority ≤ b.priority

/-- What the model assumes about `sort.Slice` (`/repo/converter/prioritized.go:25-29` `Sort`): it is a function of the
slice, it permutes and sorts it, it leaves a sorted slice alone, and for at most 12 elements it is insertion sort. -/
structure GoSort where
  sort : {α : Type} → List (Prio α) → List (Prio α)
  perm : ∀ {α : Type} (l : List (Prio α)), (sort l).Perm l
  ascending : ∀ {α : Type} (l : List (Prio α)), Ascending (sort l)
  sorted : ∀ {α : Type} (l : List (Prio α)), Ascending l → sort l = l
  small : ∀ {α : Type} (l : List (Prio α)), l.length ≤ 12 → sort l = insertionSort l

/-! ## ctx.go, status.go -/

/-- `/repo/converter/register.go:186-194` `tagType`. -/
inductive TagType | block | inline | remove
deriving DecidableEq

/-- `/repo/converter/ctx.go:152-155` `converterContext`: the domain, and the values attached by `WithValue`. -/
structure Ctx (V : Type) where
  domain : Bytes := []
  values : Bytes → Option V := fun _ => none

/-- `/repo/converter/ctx.go:185-190` `WithValue`. -/
def Ctx.withValue {V} (c : Ctx V) (key : Bytes) (v : V) : Ctx V :=
  { c with values := fun k => if k = key then some v else c.values k }

/-- A node where it is in the tree: with the nodes around it, the nearest first.  The pointer `Parent` of `html.Node`, which
`/repo/plugin/table/2_collect.go:46-68` follows. -/
structure Loc where
  parents : List Node := []
  node : Node

/-- `dom.NodeName`.  Called at `/repo/converter/render.go:15`. -/
def Loc.name (l : Loc) : Bytes := l.node.name

/-- `dom.AllChildNodes`.  Called at `/repo/converter/ctx.go:172`. -/
def Loc.children (l : Loc) : List Loc := l.node.children.map fun c => ⟨l.node :: l.parents, c⟩

/-- What a handler does, see above.  `α` is its result. What the handlers of `/repo/converter/register.go` can do with a `Context` and a `Writer`. -/
inductive Prog (V : Type) (α : Type) where
  /-- `return a` -/
  | ret (a : α)
  /-- `w.Write(b)` (`/repo/converter/register.go:57-63`) -/
  | write (b : Bytes) (next : Prog V α)
  /-- `ctx.GetTagType(name)` (`/repo/converter/ctx.go:175-177`) -/
  | getTagType (name : Bytes) (next : Option TagType → Prog V α)
  /-- `ctx.GetTagType` for as many names as one likes, nothing else happening in between -/
  | getTagTypes (next : (Bytes → Option TagType) → Prog V α)
  /-- `ctx.RenderNodes(ctx, w, nodes...)` (`/repo/converter/ctx.go:168-170`) -/
  | render (ctx : Ctx V) (nodes : List Loc) (next : Prog V α)
  /-- `var buf bytes.Buffer; ctx.RenderNodes(ctx, &buf, nodes...)` -/
  | renderTo (ctx : Ctx V) (nodes : List Loc) (next : Bytes → Prog V α)
  /-- `GetState` (`/repo/converter/ctx.go:87-89`, `:104-110`) -/
  | getState (key : Bytes) (next : Option V → Prog V α)
  /-- `SetState`, `UpdateState` (`/repo/converter/ctx.go:81-86`, `:112-130`) -/
  | setState (key : Bytes) (v : V) (next : Prog V α)
  /-- `ctx.EscapeContent` (`/repo/converter/ctx.go:178-180`), for any contents -/
  | escape (next : (Bytes → Bytes) → Prog V α)
  /-- `ctx.UnEscapeContent` (`/repo/converter/ctx.go:181-183`), for any contents -/
  | unEscape (next : (Bytes → Bytes) → Prog V α)
  /-- a panic -/
  | panic

/-- `/repo/converter/status.go:3-8` `RenderStatus`. -/
inductive Status | tryNext | success
deriving DecidableEq

/-! ## converter.go, register.go -/

/-- The errors of this package. Package `/repo/converter`. -/
inductive Err where
  /-- `/repo/converter/register.go:18` -/
  | noName
  /-- `/repo/converter/register.go:28` -/
  | init (plugin : Bytes) (msg : Bytes)
  /-- `/repo/converter/converter.go:38-41` -/
  | option (msg : Bytes)
  /-- `/repo/converter/convert.go:50` -/
  | noRenderHandlers
  /-- `/repo/converter/convert.go:51` -/
  | basePluginMissing
deriving DecidableEq

/-- `HandlePreRenderFunc` (`/repo/converter/register.go:35`); the new tree instead of a mutation. -/
abbrev PreRender (V : Type) := Ctx V → Node → Prog V Node
/-- `HandleRenderFunc` (`/repo/converter/register.go:65`) -/
abbrev Render (V : Type) := Ctx V → Loc → Prog V Status
/-- `HandlePostRenderFunc` (`/repo/converter/register.go:104`) -/
abbrev PostRender (V : Type) := Ctx V → Bytes → Prog V Bytes
/-- `HandleTextTransformFunc` (`/repo/converter/register.go:126`) -/
abbrev TextTransform (V : Type) := Ctx V → Bytes → Prog V Bytes

/-- The `tagTypes` map of a converter. `/repo/converter/converter.go:21`. -/
abbrev TagTypes := Bytes → List (Prio TagType)

/-- `/repo/converter/converter.go:17-18` and `:23`: what a converter knows about escaping. -/
structure Escaping where
  mode : Escape.Mode := .smart
  markdownChars : List Nat := []
  unEscapers : List (Prio Escape.Handler) := []

/-- `/repo/converter/converter.go:5-26` `Converter`. -/
structure Conv (V : Type) where
  err : Option Err := none
  plugins : List Bytes := []
  pre : List (Prio (PreRender V)) := []
  renderers : List (Prio (Render V)) := []
  post : List (Prio (PostRender V)) := []
  text : List (Prio (TextTransform V)) := []
  tagTypes : TagTypes := fun _ => []
  escaping : Escaping := {}

/-- The calls of `conv.Register`, and `WithEscapeMode`. `/repo/converter/register.go`. -/
inductive Op (V : Type) where
  | preRenderer (h : PreRender V) (priority : Int)
  | renderer (h : Render V) (priority : Int)
  | postRenderer (h : PostRender V) (priority : Int)
  | textTransformer (h : TextTransform V) (priority : Int)
  | tagType (name : Bytes) (t : TagType) (priority : Int)
  | rendererFor (name : Bytes) (t : TagType) (h : Render V) (priority : Int)
  | escapedChar (chars : List Nat)
  | unEscaper (h : Escape.Handler) (priority : Int)
  /-- the option `WithEscapeMode` (`/repo/converter/converter.go:67-72`) -/
  | escapeMode (mode : Escape.Mode)
  /-- a plugin: its name, the registrations of its `Init`, and the error `Init` returns -/
  | plugin (name : Bytes) (init : List (Op V)) (err : Option Bytes)

/-- `/repo/converter/register.go:77-89` `RendererFor`: the wrapper around the renderer of `RendererFor`. -/
def onlyFor {V} (name : Bytes) (h : Render V) : Render V := fun ctx n =>
  if n.name = name then h ctx n else .ret .tryNext

/-- `/repo/converter/register.go:196-202` `TagType`. -/
def addTagType (m : TagTypes) (name : Bytes) (t : TagType) (priority : Int) : TagTypes :=
  fun n => if n = name then m n ++ [⟨t, priority⟩] else m n

mutual
/-- `/repo/converter/register.go`: `Plugin` (15-31), `PreRenderer` (37-43), `Renderer` (67-73), `RendererFor` (77-89),
`PostRenderer` (106-112), `TextTransformer` (128-134), `EscapedChar` (148-155), `UnEscaper` (166-172), `TagType` (196-202);
`/repo/converter/converter.go:67-72` `WithEscapeMode`. -/
def apply {V} (c : Conv V) : Op V → Conv V
  | .preRenderer h p => { c with pre := c.pre ++ [⟨h, p⟩] }
  | .renderer h p => { c with renderers := c.renderers ++ [⟨h, p⟩] }
  | .postRenderer h p => { c with post := c.post ++ [⟨h, p⟩] }
  | .textTransformer h p => { c with text := c.text ++ [⟨h, p⟩] }
  | .tagType n t p => { c with tagTypes := addTagType c.tagTypes n t p }
  | .rendererFor n t h p =>
    { c with tagTypes := addTagType c.tagTypes n t p, renderers := c.renderers ++ [⟨onlyFor n h, p⟩] }
  | .escapedChar rs => { c with escaping := { c.escaping with markdownChars := c.escaping.markdownChars ++ rs } }
  | .unEscaper h p => { c with escaping := { c.escaping with unEscapers := c.escaping.unEscapers ++ [⟨h, p⟩] } }
  | .escapeMode m => { c with escaping := { c.escaping with mode := m } }
  | .plugin name init err =>
    if name = [] then { c with err := some .noName }
    else
      let c := applyAll { c with plugins := c.plugins ++ [name] } init
      match err with
      | none => c
      | some e => { c with err := some (.init name e) }
/-- One call after the other. `/repo/converter/plugin.go:14-22` and the like. -/
def applyAll {V} (c : Conv V) : List (Op V) → Conv V
  | [] => c
  | op :: ops => applyAll (apply c op) ops
end

/-- `/repo/converter/converter.go:30-46` `NewConverter`: an option makes some registrations and may fail. -/
def newConverterGo {V} (c : Conv V) : List (List (Op V) × Option Bytes) → Conv V
  | [] => c
  | (ops, err) :: opts =>
    let c := applyAll c ops
    match err with
    | none => newConverterGo c opts
    | some e => { c with err := some (.option e) }

/-- `/repo/converter/converter.go:30-46` `NewConverter`. -/
def newConverter {V} (opts : List (List (Op V) × Option Bytes)) : Conv V := newConverterGo {} opts

/-- `/repo/converter/plugin.go:15-22` `WithPlugins`. -/
def withPlugins {V} (ops : List (Op V)) : List (Op V) × Option Bytes := (ops, none)

/-! ## Tag types -/

/-- `/repo/converter/register.go:203-222` `getTagType`.  It sorts the slice of the map in place, so it also returns
the new map. -/
def getTagType (S : GoSort) (T : NameTables) (m : TagTypes) (name : Bytes) : Option TagType × TagTypes :=
  match S.sort (m name) with
  | [] => (if T.isBlock name then some .block else if T.isInline name then some .inline else none, m)
  | first :: rest => (some first.value, fun n => if n = name then first :: rest else m n)

/-! ## render.go -/

/-- What changes during a conversion: the bytes in the current writer, the per-conversion state, and the tag types
(sorted in place). `/repo/converter/convert.go:87-108`. -/
structure St (V : Type) where
  out : Bytes
  state : Bytes → Option V
  tagTypes : TagTypes

/-- What a handler finds outside of the state: the tables of names, and the escaping of the converter. `/repo/converter/ctx.go:152-155`. -/
structure World where
  tables : NameTables
  escaping : Escaping

/-- `/repo/converter/register.go:156-162` `checkIsEscapedChar`. -/
def Escaping.isChar (e : Escaping) (r : Nat) : Bool := e.markdownChars.contains r

/-- `/repo/converter/escape.go:17-41` `escapeContent`. -/
def Escaping.escape (e : Escaping) (content : Bytes) : Bytes := Escape.escapeContent e.mode e.isChar content

/-- `/repo/converter/escape.go:43-89` `unEscapeContent`, with `/repo/converter/register.go:173-182` `getUnEscapeHandlers`. -/
def Escaping.unEscape (S : GoSort) (e : Escaping) (content : Bytes) : Bytes :=
  Escape.unEscapeContent e.mode ((S.sort e.unEscapers).map (·.value)) content

/-- Run a handler; `renderNodes` is `conv.handleRenderNodes`. `/repo/converter/ctx.go:164-190`.  Simplification: `getTagTypes` leaves out
that the slices of the names it asks for are sorted in place (as in `getTagType`, which is never seen, see `getTagType_eq`). -/
def runProg {V α} (S : GoSort) (T : World) (renderNodes : Ctx V → List Loc → St V → Option (St V)) :
    Prog V α → St V → Option (α × St V)
  | .ret a, st => some (a, st)
  | .write b next, st => runProg S T renderNodes next { st with out := st.out ++ b }
  | .getTagType name next, st =>
    let r := getTagType S T.tables st.tagTypes name
    runProg S T renderNodes (next r.1) { st with tagTypes := r.2 }
  | .getTagTypes next, st => runProg S T renderNodes (next fun name => (getTagType S T.tables st.tagTypes name).1) st
  | .render ctx nodes next, st => (renderNodes ctx nodes st).bind (runProg S T renderNodes next)
  | .renderTo ctx nodes next, st =>
    (renderNodes ctx nodes { st with out := [] }).bind fun st' =>
      runProg S T renderNodes (next st'.out) { st' with out := st.out }
  | .getState key next, st => runProg S T renderNodes (next (st.state key)) st
  | .setState key v next, st =>
    runProg S T renderNodes next { st with state := fun k => if k = key then some v else st.state k }
  | .escape next, st => runProg S T renderNodes (next T.escaping.escape) st
  | .unEscape next, st => runProg S T renderNodes (next (T.escaping.unEscape S)) st
  | .panic, _ => none

/-- `/repo/converter/render.go:22-28`: the loop over the render handlers; `none` if no handler was successful. -/
def tryHandlers {V} (S : GoSort) (T : World) (renderNodes : Ctx V → List Loc → St V → Option (St V))
    (ctx : Ctx V) (node : Loc) : List (Prio (Render V)) → St V → Option (Bool × St V)
  | [], st => some (false, st)
  | h :: hs, st =>
    (runProg S T renderNodes (h.value ctx node) st).bind fun r =>
      if r.1 = .success then some (true, r.2) else tryHandlers S T renderNodes ctx node hs r.2

/-- `/repo/converter/render.go:35-51` `handleRenderFallback`. -/
def fallback {V} : Render V := fun ctx node =>
  .getTagType node.name fun t =>
    if t = some .block then .write [NL] (.write [NL] (.render ctx node.children (.write [NL] (.write [NL] (.ret .success)))))
    else .render ctx node.children (.ret .success)

/-- `/repo/converter/render.go:52-61` `handleRenderText`: the loop over the text transformers. -/
def transformText {V} (S : GoSort) (T : World) (renderNodes : Ctx V → List Loc → St V → Option (St V))
    (ctx : Ctx V) : List (Prio (TextTransform V)) → Bytes → St V → Option (Bytes × St V)
  | [], content, st => some (content, st)
  | h :: hs, content, st =>
    (runProg S T renderNodes (h.value ctx content) st).bind fun r => transformText S T renderNodes ctx hs r.1 r.2

/-- `/repo/converter/render.go:14-33` `handleRenderNode`. -/
def renderNode {V} (S : GoSort) (T : NameTables) (c : Conv V)
    (renderNodes : Ctx V → List Loc → St V → Option (St V)) (ctx : Ctx V) (node : Loc) (st : St V) : Option (St V) :=
  match node.node with
  | .text data =>
    (transformText S ⟨T, c.escaping⟩ renderNodes ctx (S.sort c.text) data st).map fun r => { r.2 with out := r.2.out ++ r.1 }
  | _ =>
    (tryHandlers S ⟨T, c.escaping⟩ renderNodes ctx node (S.sort c.renderers) st).bind fun r =>
      if r.1 then some r.2 else (runProg S ⟨T, c.escaping⟩ renderNodes (fallback ctx node) r.2).map (·.2)

/-- `/repo/converter/render.go:8-12` `handleRenderNodes`: the loop. -/
def renderList {V} (one : Loc → St V → Option (St V)) : List Loc → St V → Option (St V)
  | [], st => some st
  | n :: ns, st => (one n st).bind (renderList one ns)

/-- `/repo/converter/render.go:8-12` `handleRenderNodes`, fuelled. -/
def renderNodes {V} (S : GoSort) (T : NameTables) (c : Conv V) : Nat → Ctx V → List Loc → St V → Option (St V)
  | 0, _, _, _ => none
  | fuel + 1, ctx, nodes, st => renderList (renderNode S T c (renderNodes S T c fuel) ctx) nodes st

/-! ## convert.go -/

/-- `/repo/converter/convert.go:101-104`: the loop over the pre-render handlers. -/
def runPre {V} (S : GoSort) (T : World) (rn : Ctx V → List Loc → St V → Option (St V)) (ctx : Ctx V) :
    List (Prio (PreRender V)) → Node → St V → Option (Node × St V)
  | [], doc, st => some (doc, st)
  | h :: hs, doc, st => (runProg S T rn (h.value ctx doc) st).bind fun r => runPre S T rn ctx hs r.1 r.2

/-- `/repo/converter/convert.go:110-114`: the loop over the post-render handlers. -/
def runPost {V} (S : GoSort) (T : World) (rn : Ctx V → List Loc → St V → Option (St V)) (ctx : Ctx V) :
    List (Prio (PostRender V)) → Bytes → St V → Option (Bytes × St V)
  | [], content, st => some (content, st)
  | h :: hs, content, st => (runProg S T rn (h.value ctx content) st).bind fun r => runPost S T rn ctx hs r.1 r.2

/-- `/repo/converter/convert.go:58-117` `ConvertNode`: the result, and the converter afterwards (its tag types may have
been sorted).  `doc` is a whole tree, there is nothing around it.  `ctx` is what the options give. -/
def convertNode {V} (S : GoSort) (T : NameTables) (c : Conv V) (fuel : Nat) (ctx : Ctx V) (doc : Node) :
    Option (Except Err Bytes × Conv V) :=
  match c.err with
  | some e => some (.error e, c)
  | none =>
    if (S.sort c.renderers).length = 0 then some (.error .noRenderHandlers, c)
    else if c.plugins.contains b!"commonmark" && !c.plugins.contains b!"base" then some (.error .basePluginMissing, c)
    else
      let rn := renderNodes S T c fuel
      (runPre S ⟨T, c.escaping⟩ rn ctx (S.sort c.pre) doc ⟨[], fun _ => none, c.tagTypes⟩).bind fun r =>
      (rn ctx [{ node := r.1 }] { r.2 with out := [] }).bind fun st =>
      (runPost S ⟨T, c.escaping⟩ rn ctx (S.sort c.post) st.out st).bind fun r =>
      some (.ok r.1, { c with tagTypes := r.2.tagTypes })

/-- A history of conversions with one converter: the results. `/repo/converter/convert.go:58-117`, several times. -/
def convertAll {V} (S : GoSort) (T : NameTables) (c : Conv V) (fuel : Nat) :
    List (Ctx V × Node) → Option (List (Except Err Bytes))
  | [] => some []
  | (ctx, doc) :: jobs =>
    (convertNode S T c fuel ctx doc).bind fun r => (convertAll S T r.2 fuel jobs).map (r.1 :: ·)

end Verif.Engine
