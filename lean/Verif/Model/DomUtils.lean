import Verif.Model.Dom
/-!
# Model of `/repo/internal/domutils` and of the pre-render handlers of the base and the CommonMark plugin

The Go code changes the tree in place; the functions here return the new tree.  Predicates on nodes depend on the node
name only (all callers in `/repo` pass such ones).  The tree is assumed to be a whole document: the node that is
converted has no parent and no siblings.
-/

namespace Verif.DomUtils
open Verif

/-- The HTML tree walk of package `dom`, as far as the code looks at it: what `dom.GetNextNeighborNode` and its
variants see one after the other. Called at `/repo/internal/domutils/domutils.go:8-43`. -/
inductive Ev where
  /-- an element, document or doctype begins -/
  | op (name : Bytes)
  /-- its children are over -/
  | cl (name : Bytes)
  | text
  | comment (data : Bytes)
deriving DecidableEq

mutual
/-- The walk through one node. See `/repo/internal/domutils/domutils.go:8-43`. -/
def events : Node → List Ev
  | .text _ => [.text]
  | .comment d => [.comment d]
  | .doctype _ => [.op b!"#doctype", .cl b!"#doctype"]
  | .document cs => .op b!"#document" :: (eventsL cs ++ [.cl b!"#document"])
  | .elem n _ cs => .op n :: (eventsL cs ++ [.cl n])
/-- The walk through a list of siblings. See `/repo/internal/domutils/domutils.go:8-43`. -/
def eventsL : List Node → List Ev
  | [] => []
  | n :: ns => events n ++ eventsL ns
end

/-! ## adjacent.go: MergeAdjacentTextNodes -/

/-- The pending text node `prev` of the loop. `/repo/internal/domutils/adjacent.go:62-74`. -/
def flush : Option Bytes → List Node
  | none => []
  | some d => [.text d]

mutual
/-- `/repo/internal/domutils/adjacent.go:57-75` `MergeAdjacentTextNodes`. -/
def mergeText : Node → Node
  | .document cs => .document (mergeTextGo none cs)
  | .elem n a cs => .elem n a (mergeTextGo none cs)
  | .text d => .text d
  | .comment d => .comment d
  | .doctype d => .doctype d
/-- `/repo/internal/domutils/adjacent.go:62-74`: the loop over the children; `prev` is the data of the previous child if it is a text. -/
def mergeTextGo : Option Bytes → List Node → List Node
  | prev, [] => flush prev
  | none, .text d :: cs => mergeTextGo (some d) cs
  | some p, .text d :: cs => mergeTextGo (some (p ++ d)) cs
  | prev, .document ks :: cs => flush prev ++ mergeText (.document ks) :: mergeTextGo none cs
  | prev, .elem n a ks :: cs => flush prev ++ mergeText (.elem n a ks) :: mergeTextGo none cs
  | prev, .comment d :: cs => flush prev ++ .comment d :: mergeTextGo none cs
  | prev, .doctype d :: cs => flush prev ++ .doctype d :: mergeTextGo none cs
end

/-! ## base.go: preRenderRemove -/

mutual
/-- `/repo/plugin/base/base.go:62-76` of `preRenderRemove`, for a node that is not removed itself; `remove` says whether the tag type of a name is
`TagTypeRemove`.  The children are visited last to first (`defer`), so that removing one does not disturb the others. -/
def removeIn (remove : Bytes → Bool) : Node → Node
  | .document cs => .document (removeInL remove cs)
  | .elem n a cs => .elem n a (removeInL remove cs)
  | .text d => .text d
  | .comment d => .comment d
  | .doctype d => .doctype d
/-- The children of a node. `/repo/plugin/base/base.go:62-76`. -/
def removeInL (remove : Bytes → Bool) : List Node → List Node
  | [] => []
  | n :: ns => if remove n.name then removeInL remove ns else removeIn remove n :: removeInL remove ns
end

/-- `/repo/plugin/base/base.go:60-85` `preRenderRemove`.  `dom.RemoveNode` does nothing for a node without parent. -/
def preRenderRemove (remove : Bytes → Bool) (doc : Node) : Node :=
  mergeText (if remove doc.name then doc else removeIn remove doc)

/-- `/repo/plugin/base/base.go:30-41`: the names the base plugin registers with `TagTypeRemove`. -/
def baseRemoves : List Bytes :=
  [b!"#comment", b!"head", b!"script", b!"style", b!"link", b!"meta", b!"iframe", b!"noscript", b!"input", b!"textarea"]

/-! ## span.go -/

mutual
/-- `/repo/internal/domutils/span.go:18-30`: is there a block node in the tree? -/
def hasBlock (T : NameTables) : Node → Bool
  | .document cs => T.isBlock b!"#document" || hasBlockL T cs
  | .elem n _ cs => T.isBlock n || hasBlockL T cs
  | .text _ => T.isBlock b!"#text"
  | .comment _ => T.isBlock b!"#comment"
  | .doctype _ => T.isBlock b!"#doctype"
/-- `/repo/internal/domutils/span.go:18-30`, for a list of siblings. -/
def hasBlockL (T : NameTables) : List Node → Bool
  | [] => false
  | n :: ns => hasBlock T n || hasBlockL T ns
end

mutual
/-- `/repo/internal/domutils/span.go:37-50` `RenameFakeSpans`, with `isFakeSpan` (10-33). -/
def renameFakeSpans (T : NameTables) : Node → Node
  | .document cs => .document (renameFakeSpansL T cs)
  | .elem n a cs =>
    .elem (if n = b!"span" ∧ (T.isBlock n || hasBlockL T cs) = true then b!"div" else n) a (renameFakeSpansL T cs)
  | .text d => .text d
  | .comment d => .comment d
  | .doctype d => .doctype d
/-- `/repo/internal/domutils/span.go:37-50`, for a list of siblings. -/
def renameFakeSpansL (T : NameTables) : List Node → List Node
  | [] => []
  | n :: ns => renameFakeSpans T n :: renameFakeSpansL T ns
end

/-! ## redundant.go -/

mutual
/-- `/repo/internal/domutils/redundant.go:8-15` `RemoveRedundant`, with `hasSameTypeAncestor` (17-29); `anc` are the names of the ancestors, from
the inside.  The nodes are visited in document order, so the ancestors of a node have already been unwrapped where necessary. -/
def removeRedundantIn (same : Bytes → Bytes → Bool) (anc : List Bytes) : Node → List Node
  | .elem n a cs =>
    if same n n && anc.any (same n) then removeRedundantL same anc cs
    else [.elem n a (removeRedundantL same (n :: anc) cs)]
  | .document cs => [.document (removeRedundantL same (b!"#document" :: anc) cs)]
  | .text d => [.text d]
  | .comment d => [.comment d]
  | .doctype d => [.doctype d]
/-- `/repo/internal/domutils/redundant.go:8-15`, for a list of siblings. -/
def removeRedundantL (same : Bytes → Bytes → Bool) (anc : List Bytes) : List Node → List Node
  | [] => []
  | n :: ns => removeRedundantIn same anc n ++ removeRedundantL same anc ns
end

/-- `/repo/internal/domutils/redundant.go:8-15` `RemoveRedundant`, for the root. -/
def removeRedundant (same : Bytes → Bytes → Bool) : Node → Node
  | .elem n a cs => .elem n a (removeRedundantL same [n] cs)
  | .document cs => .document (removeRedundantL same [b!"#document"] cs)
  | .text d => .text d
  | .comment d => .comment d
  | .doctype d => .doctype d

/-! ## adjacent.go: MergeAdjacent -/

/-- What `collectAdjacentNodes` and `mergeChildren` do to the siblings that follow: the children of the
collected nodes, what is left, and whether the end was reached (so that the search goes on behind the parent). `/repo/internal/domutils/adjacent.go:8-39`. -/
structure Collected where
  moved : List Node
  left : List Node
  goOn : Bool

mutual
/-- `/repo/internal/domutils/adjacent.go:12-24`: one node of the walk; `left` is empty if it was collected. -/
def collectNode (m : Bytes → Bool) : Node → Collected
  | .elem n a ks =>
    if n = b!"span" then
      let r := collectL m ks
      ⟨r.moved, [.elem n a r.left], r.goOn⟩
    else if m n then ⟨ks, [], true⟩
    else ⟨[], [.elem n a ks], false⟩
  | n => ⟨[], [n], false⟩
/-- `/repo/internal/domutils/adjacent.go:8-27` `collectAdjacentNodes` and `:29-39` `mergeChildren`, on a list of siblings. -/
def collectL (m : Bytes → Bool) : List Node → Collected
  | [] => ⟨[], [], true⟩
  | n :: ns =>
    let r := collectNode m n
    if r.goOn then
      let r' := collectL m ns
      ⟨r.moved ++ r'.moved, r.left ++ r'.left, r'.goOn⟩
    else ⟨r.moved, r.left ++ ns, false⟩
end

/-- The same on what follows a node: its siblings, the siblings of its parent, and so on. `/repo/internal/domutils/adjacent.go:8-39`. -/
def collectFrames (m : Bytes → Bool) : List (List Node) → List Node × List (List Node)
  | [] => ([], [])
  | f :: fs =>
    let r := collectL m f
    if r.goOn then
      let r' := collectFrames m fs
      (r.moved ++ r'.1, r.left :: r'.2)
    else (r.moved, r.left :: fs)

mutual
/-- The number of nodes (for termination). Not in the code; `/repo/internal/domutils/adjacent.go:41-53` ends because the tree does not grow. -/
def size : Node → Nat
  | .elem _ _ cs => 1 + sizeL cs
  | .document cs => 1 + sizeL cs
  | .text _ => 1
  | .comment _ => 1
  | .doctype _ => 1
/-- Not in the code, see `size` and `/repo/internal/domutils/adjacent.go:41-53`. -/
def sizeL : List Node → Nat
  | [] => 0
  | n :: ns => size n + sizeL ns
end

/-- The number of nodes in the part of the tree that is still to be visited. Not in the code; `/repo/internal/domutils/adjacent.go:41-53` ends because it gets smaller. -/
def sizeF : List (List Node) → Nat
  | [] => 0
  | f :: fs => sizeL f + sizeF fs

mutual
theorem collectNode_size (m : Bytes → Bool) : ∀ n : Node, sizeL (collectNode m n).moved + sizeL (collectNode m n).left ≤ size n
  | .elem n a ks => by
    have := collectL_size m ks
    rw [collectNode]
    split
    · simp only [sizeL, size]; omega
    · split <;> simp [sizeL, size]
  | .document _ => by simp [collectNode, sizeL]
  | .text _ => by simp [collectNode, sizeL]
  | .comment _ => by simp [collectNode, sizeL]
  | .doctype _ => by simp [collectNode, sizeL]
theorem collectL_size (m : Bytes → Bool) : ∀ ns : List Node, sizeL (collectL m ns).moved + sizeL (collectL m ns).left ≤ sizeL ns
  | [] => by simp [collectL, sizeL]
  | n :: ns => by
    have h1 := collectNode_size m n
    have h2 := collectL_size m ns
    have app : ∀ a b : List Node, sizeL (a ++ b) = sizeL a + sizeL b := by
      intro a b
      induction a with
      | nil => simp [sizeL]
      | cons x a ih => simp [sizeL, ih]; omega
    rw [collectL]
    simp only
    split
    · simp only [app, sizeL]; omega
    · simp only [app, sizeL]; omega
end

theorem sizeL_append (a b : List Node) : sizeL (a ++ b) = sizeL a + sizeL b := by
  induction a with
  | nil => simp [sizeL]
  | cons x a ih => simp [sizeL, ih]; omega

theorem collectFrames_size (m : Bytes → Bool) : ∀ fs, sizeL (collectFrames m fs).1 + sizeF (collectFrames m fs).2 ≤ sizeF fs
  | [] => by simp [collectFrames, sizeL, sizeF]
  | f :: fs => by
    have h1 := collectL_size m f
    have h2 := collectFrames_size m fs
    rw [collectFrames]
    simp only
    split
    · simp only [sizeL_append, sizeF]; omega
    · simp only [sizeF]; omega

/-- A node with other children. For example `/repo/internal/domutils/swap.go:12-28` changes a node and keeps its children. -/
def withChildren : Node → List Node → Node
  | .elem n a _, cs => .elem n a cs
  | .document _, cs => .document cs
  | n, _ => n

/-- What is still to be visited after the node `n` has been looked at (`/repo/internal/domutils/adjacent.go:45-49`): its children, and what
follows it (`fs`).  The search for adjacent nodes starts with the next sibling; without one nothing is collected. -/
def mergeStep (m : Bytes → Bool) (n : Node) (cs : List Node) (fs : List (List Node)) : List (List Node) :=
  if m n.name && !cs.isEmpty then
    let r := collectFrames m (cs :: fs)
    (n.children ++ r.1) :: r.2
  else n.children :: cs :: fs

theorem size_children (n : Node) : size n = 1 + sizeL n.children := by
  cases n <;> simp [size, Node.children, sizeL]

theorem mergeStep_size (m : Bytes → Bool) (n : Node) (cs : List Node) (fs : List (List Node)) :
    sizeF (mergeStep m n cs fs) < sizeF ((n :: cs) :: fs) := by
  have h := collectFrames_size m (cs :: fs)
  have hn := size_children n
  rw [mergeStep]
  split
  · simp only [sizeF, sizeL_append, sizeL] at *; omega
  · simp only [sizeF, sizeL] at *; omega

/-- `/repo/internal/domutils/adjacent.go:41-53` `MergeAdjacent`: the walk in document order, through what is still to be visited. -/
def mergeAdjacentF (m : Bytes → Bool) : List (List Node) → List (List Node)
  | [] => []
  | [] :: fs => [] :: mergeAdjacentF m fs
  | (n :: cs) :: fs =>
    match mergeAdjacentF m (mergeStep m n cs fs) with
    | ks :: cs' :: fs' => (withChildren n ks :: cs') :: fs'
    | _ => []
termination_by fs => (sizeF fs, fs.length)
decreasing_by
  · simp_wf
    simp only [sizeF, sizeL, Nat.zero_add]
    exact Prod.Lex.right _ (by simp)
  · simp_wf
    exact Prod.Lex.left _ _ (mergeStep_size m n cs fs)

/-- `/repo/internal/domutils/adjacent.go:41-53` `MergeAdjacent`. -/
def mergeAdjacent (m : Bytes → Bool) (doc : Node) : Node := ((mergeAdjacentF m [[doc]]).headD []).headD doc

/-! ## empty_code.go -/

mutual
/-- `/repo/internal/domutils/empty_code.go:10-26` `hasTextChildNodes`. -/
def hasText : Node → Bool
  | .text d => !d.isEmpty
  | .elem _ _ cs => hasTextL cs
  | .document cs => hasTextL cs
  | .comment _ => false
  | .doctype _ => false
/-- `/repo/internal/domutils/empty_code.go:10-26`, for a list of siblings. -/
def hasTextL : List Node → Bool
  | [] => false
  | n :: ns => hasText n || hasTextL ns
end

mutual
/-- `/repo/internal/domutils/empty_code.go:28-42` `RemoveEmptyCode`.  The root is assumed not to be a `code` element without text. -/
def removeEmptyCode : Node → Node
  | .document cs => .document (removeEmptyCodeL cs)
  | .elem n a cs => .elem n a (removeEmptyCodeL cs)
  | .text d => .text d
  | .comment d => .comment d
  | .doctype d => .doctype d
/-- `/repo/internal/domutils/empty_code.go:28-42`, for a list of siblings. -/
def removeEmptyCodeL : List Node → List Node
  | [] => []
  | n :: ns => if n.name = b!"code" ∧ hasText n = false then removeEmptyCodeL ns else removeEmptyCode n :: removeEmptyCodeL ns
end

/-! ## swap.go -/

/-- `/repo/internal/domutils/swap.go:30-32` `isEmptyText`. -/
def isEmptyText : Node → Bool
  | .text d => trimSpace d = []
  | _ => false

mutual
/-- `/repo/internal/domutils/swap.go:33-51` `SwapTags`, with `swapTagsOfNodes` (12-28): the names and attributes of the two nodes are swapped, and the
walk does not go into them. -/
def swapTags (outer inner : Bytes → Bool) : Node → Node
  | .elem n a cs =>
    match cs.filter fun c => !isEmptyText c with
    | [.elem n' a' ks] =>
      if outer n && inner n' then
        .elem n' a' (cs.map fun c => if isEmptyText c then c else .elem n a ks)
      else .elem n a (swapTagsL outer inner cs)
    | _ => .elem n a (swapTagsL outer inner cs)
  | .document cs => .document (swapTagsL outer inner cs)
  | .text d => .text d
  | .comment d => .comment d
  | .doctype d => .doctype d
/-- `/repo/internal/domutils/swap.go:33-51`, for a list of siblings. -/
def swapTagsL (outer inner : Bytes → Bool) : List Node → List Node
  | [] => []
  | n :: ns => swapTags outer inner n :: swapTagsL outer inner ns
end

/-! ## add_space.go, domutils.go -/

/-- `/repo/internal/domutils/add_space.go:10-25` `getFirstChildNode`: is there such a node?  The argument is the walk after the
beginning of the node `outer` has been passed.  Spans are skipped, and the walk may leave the node. -/
def firstIsInner (inner : Bytes → Bool) : List Ev → Bool
  | [] => false
  | .cl _ :: _ => false
  | evs => go evs
where
  go : List Ev → Bool
  | [] => false
  | .cl _ :: evs => go evs
  | .op n :: evs => if n = b!"span" then go evs else inner n
  | .text :: _ => inner b!"#text"
  | .comment _ :: _ => inner b!"#comment"

/-- `/repo/internal/domutils/add_space.go:27-42` `getLastChildNode`: the same backwards, from the end of the node. -/
def lastIsInner (inner : Bytes → Bool) : List Ev → Bool
  | [] => false
  | .op _ :: _ => false
  | evs => go evs
where
  go : List Ev → Bool
  | [] => false
  | .op _ :: evs => go evs
  | .cl n :: evs => if n = b!"span" then go evs else inner n
  | .text :: _ => inner b!"#text"
  | .comment _ :: _ => inner b!"#comment"

/-- `/repo/internal/domutils/domutils.go:8-25` `getNextTextNode`: does the walk behind a node come to a text next? -/
def nextIsText : List Ev → Bool
  | [] => false
  | .cl _ :: evs => nextIsText evs
  | .op n :: evs => if n = b!"span" then nextIsText evs else false
  | .text :: _ => true
  | .comment _ :: _ => false

/-- `/repo/internal/domutils/domutils.go:26-43` `getPrevTextNode`: the same backwards, from the beginning of a node. -/
def prevIsText : List Ev → Bool
  | [] => false
  | .op _ :: evs => prevIsText evs
  | .cl n :: evs => if n = b!"span" then prevIsText evs else false
  | .text :: _ => true
  | .comment _ :: _ => false

/-- `/repo/internal/domutils/add_space.go:43-66` `AddSpace`: the spaces it adds, as numbers of text nodes (in document order) at
whose end (`.1`) and in front of which (`.2`) a space is added.  `before` is the walk so far, backwards, `k` the number of texts in
it. -/
def addedSpaces (outer inner : Bytes → Bool) (before : List Ev) (k : Nat) : List Ev → List Nat × List Nat
  | [] => ([], [])
  | e :: after =>
    let r := addedSpaces outer inner (e :: before) (if e = .text then k + 1 else k) after
    match e with
    | .op n => if outer n && firstIsInner inner after && prevIsText before then ((k - 1) :: r.1, r.2) else r
    | .cl n => if outer n && lastIsInner inner before && nextIsText after then (r.1, k :: r.2) else r
    | _ => r

mutual
/-- Change the texts of a tree; they are numbered in document order. `/repo/internal/domutils/add_space.go:43-66` adds spaces to some texts. -/
def mapTexts (f : Nat → Bytes → Bytes) (k : Nat) : Node → Node × Nat
  | .text d => (.text (f k d), k + 1)
  | .comment d => (.comment d, k)
  | .doctype d => (.doctype d, k)
  | .document cs => let r := mapTextsL f k cs; (.document r.1, r.2)
  | .elem n a cs => let r := mapTextsL f k cs; (.elem n a r.1, r.2)
/-- `/repo/internal/domutils/add_space.go:43-66`, for a list of siblings. -/
def mapTextsL (f : Nat → Bytes → Bytes) (k : Nat) : List Node → List Node × Nat
  | [] => ([], k)
  | n :: ns =>
    let r := mapTexts f k n
    let r' := mapTextsL f r.2 ns
    (r.1 :: r'.1, r'.2)
end

/-- `/repo/internal/domutils/add_space.go:43-66` `AddSpace`.  The spaces do not influence the walk, so all of them can be added at the end. -/
def addSpace (outer inner : Bytes → Bool) (doc : Node) : Node :=
  let s := addedSpaces outer inner [] 0 (events doc)
  (mapTexts (fun i d => List.replicate (s.2.count i) SP ++ d ++ List.replicate (s.1.count i) SP) 0 doc).1

/-! ## alternatives.go -/

/-- The result of `/repo/internal/domutils/alternatives.go:11-38` `getMarkdownStructure`. -/
inductive Structure | container | leaf | inline | other
deriving DecidableEq

/-- `/repo/internal/domutils/alternatives.go:11-38` `getMarkdownStructure`. -/
def getStructure (name : Bytes) : Structure :=
  if name ∈ [b!"#document", b!"html", b!"head", b!"body", b!"blockquote", b!"ul", b!"ol", b!"li"] then .container
  else if name ∈ [b!"hr", b!"pre", b!"h1", b!"h2", b!"h3", b!"h4", b!"h5", b!"h6"] then .leaf
  else if name ∈ [b!"#text", b!"span", b!"code", b!"b", b!"strong", b!"i", b!"em", b!"a", b!"img", b!"br"] then .inline
  else .other

/-- `/repo/internal/domutils/alternatives.go:40-76`: the alternatives for an element with these children; others become a
`span` (line 96). -/
def alternative (name : Bytes) (attrs : List (Bytes × Bytes)) (cs : List Node) : List Node :=
  if name ∈ [b!"h1", b!"h2", b!"h3", b!"h4", b!"h5", b!"h6"] then [.elem b!"strong" attrs cs, .elem b!"br" [] []]
  else if name = b!"blockquote" then [.text b!" \"", .elem b!"span" attrs cs, .text b!"\" "]
  else if name = b!"pre" then [.elem b!"code" attrs cs]
  else if name = b!"hr" then []
  else [.elem b!"span" attrs cs]

mutual
/-- `/repo/internal/domutils/alternatives.go:78-114` `LeafBlockAlternatives`: the function `finder`.  The children are visited after the
function has changed the node (`defer`), last to first; nodes that are inserted next to a child are not visited.
Simplified: a document node below the root (there is none) stays as it is. -/
def leafAlternativesIn (insideLeaf insideInline : Bool) : Node → List Node
  | .elem n a cs =>
    let s := getStructure n
    let cs' := leafAlternativesL (insideLeaf || s = .leaf) (insideInline || s = .inline) cs
    if (s = .container ∨ s = .leaf) ∧ (insideLeaf || insideInline) = true then alternative n a cs'
    else [.elem n a cs']
  | .document cs => [.document (leafAlternativesL insideLeaf insideInline cs)]
  | .text d => [.text d]
  | .comment d => [.comment d]
  | .doctype d => [.doctype d]
/-- `/repo/internal/domutils/alternatives.go:78-114`, for a list of siblings. -/
def leafAlternativesL (insideLeaf insideInline : Bool) : List Node → List Node
  | [] => []
  | n :: ns => leafAlternativesIn insideLeaf insideInline n ++ leafAlternativesL insideLeaf insideInline ns
end

/-- `/repo/internal/domutils/alternatives.go:78-114` `LeafBlockAlternatives`, for the root (line 113), which is inside of nothing. -/
def leafAlternatives (doc : Node) : Node := (leafAlternativesIn false false doc).headD doc

/-! ## list_items.go -/

/-- `/repo/internal/domutils/list_items.go:21`: is it an `li` element? -/
def isLi : Node → Bool
  | .elem n _ _ => n = b!"li"
  | _ => false

/-- `/repo/internal/domutils/list_items.go:20-47`: the loop over the children of a list.  `cur` is the current item (`previousLi`): its attributes,
its children so far, and the blank texts that follow it. -/
def moveItemsGo : Option (List (Bytes × Bytes) × List Node × List Node) → List Node → List Node
  | none, [] => []
  | some (a, ks, blanks), [] => .elem b!"li" a ks :: blanks
  | cur, c :: cs =>
    if isLi c then
      (match cur with | none => [] | some (a, ks, blanks) => .elem b!"li" a ks :: blanks) ++
        moveItemsGo (some (match c with | .elem _ a ks => (a, ks, []) | _ => ([], [], []))) cs
    else if isEmptyText c then
      match cur with
      | none => c :: moveItemsGo none cs
      | some (a, ks, blanks) => moveItemsGo (some (a, ks, blanks ++ [c])) cs
    else
      match cur with
      | none => moveItemsGo (some ([], [c], [])) cs
      | some (a, ks, blanks) => moveItemsGo (some (a, ks ++ [c], blanks)) cs

mutual
/-- `/repo/internal/domutils/list_items.go:13-53` `MoveListItems`.  The model first treats the children (also those that are moved), then the
node itself: the function looks at the kinds of the children only, and these do not change. -/
def moveListItems : Node → Node
  | .elem n a cs =>
    let cs' := moveListItemsL cs
    .elem n a (if n = b!"ol" ∨ n = b!"ul" then moveItemsGo none cs' else cs')
  | .document cs => .document (moveListItemsL cs)
  | .text d => .text d
  | .comment d => .comment d
  | .doctype d => .doctype d
/-- `/repo/internal/domutils/list_items.go:13-53`, for a list of siblings. -/
def moveListItemsL : List Node → List Node
  | [] => []
  | n :: ns => moveListItems n :: moveListItemsL ns
end

/-! ## list_end_comment.go -/

/-- `/repo/internal/domutils/list_end_comment.go:10` `ListEndCommentData`. -/
def listEndComment : Bytes := b!"THE END"

/-- `/repo/internal/domutils/list_end_comment.go:23-26` `nameIsList`. -/
def isListName (n : Bytes) : Bool := n = b!"ul" ∨ n = b!"ol"

/-- `/repo/internal/domutils/list_end_comment.go:36-74` `nextNameIsList`, for the walk behind a list. -/
def nextIsList : List Ev → Bool
  | [] => false
  | .cl _ :: evs => nextIsList evs
  | .op n :: evs => if isListName n then true else if n = b!"li" then false else if n = b!"hr" then false else nextIsList evs
  | .comment d :: evs => if d = listEndComment then false else nextIsList evs
  | .text :: _ => false

mutual
/-- `/repo/internal/domutils/list_end_comment.go:12-21` `AddListEndComments`, with `insertComment` (28-34); `after` is the walk behind the
node (with a comment already inserted behind it). -/
def addListEndIn (after : List Ev) : Node → Node
  | .elem n a cs => .elem n a (addListEndL (.cl n :: after) cs)
  | .document cs => .document (addListEndL (.cl b!"#document" :: after) cs)
  | .text d => .text d
  | .comment d => .comment d
  | .doctype d => .doctype d
/-- `/repo/internal/domutils/list_end_comment.go:12-21`, for a list of siblings. -/
def addListEndL (after : List Ev) : List Node → List Node
  | [] => []
  | n :: ns =>
    if isListName n.name && nextIsList (eventsL ns ++ after) then
      addListEndIn (.comment listEndComment :: eventsL ns ++ after) n :: .comment listEndComment :: addListEndL after ns
    else addListEndIn (eventsL ns ++ after) n :: addListEndL after ns
end

/-- `/repo/internal/domutils/list_end_comment.go:12-21` `AddListEndComments`. -/
def addListEndComments (doc : Node) : Node := addListEndIn [] doc

/-! ## handle_pre_render.go -/

/-- `/repo/plugin/commonmark/handle_pre_render.go:10-13` `nameIsBold`. -/
def isBold (n : Bytes) : Bool := n = b!"strong" ∨ n = b!"b"
/-- `/repo/plugin/commonmark/handle_pre_render.go:14-17` `nameIsItalic`. -/
def isItalic (n : Bytes) : Bool := n = b!"em" ∨ n = b!"i"
/-- `/repo/plugin/commonmark/handle_pre_render.go:19-21` `nameIsBoldOrItalic`. -/
def isBoldOrItalic (n : Bytes) : Bool := isBold n || isItalic n
/-- `/repo/plugin/commonmark/handle_pre_render.go:22-31` `nameIsBothBoldOrItalic`. -/
def bothBoldOrItalic (a b : Bytes) : Bool := (isBold a && isBold b) || (isItalic a && isItalic b)
/-- `/repo/plugin/commonmark/handle_pre_render.go:33-36` `nameIsPre`. -/
def isPre (n : Bytes) : Bool := n = b!"pre"
/-- `/repo/plugin/commonmark/handle_pre_render.go:37-40` `nameIsInlineCode`. -/
def isInlineCode (n : Bytes) : Bool := n = b!"code" ∨ n = b!"var" ∨ n = b!"samp" ∨ n = b!"kbd" ∨ n = b!"tt"
/-- `/repo/plugin/commonmark/handle_pre_render.go:42-44` `nameIsLink`. -/
def isLink (n : Bytes) : Bool := n = b!"a"
/-- `/repo/plugin/commonmark/handle_pre_render.go:46-48` `nameIsBothLink`. -/
def bothLink (a b : Bytes) : Bool := isLink a && isLink b
/-- `/repo/plugin/commonmark/handle_pre_render.go:50-57` `nameIsHeading`. -/
def isHeading (n : Bytes) : Bool :=
  n = b!"h1" ∨ n = b!"h2" ∨ n = b!"h3" ∨ n = b!"h4" ∨ n = b!"h5" ∨ n = b!"h6"

/-- `/repo/plugin/commonmark/handle_pre_render.go:63-94` `handlePreRender`. -/
def handlePreRender (T : NameTables) (doc : Node) : Node :=
  let doc := renameFakeSpans T doc
  let doc := removeRedundant bothBoldOrItalic doc
  let doc := mergeAdjacent isBoldOrItalic doc
  let doc := removeEmptyCode doc
  let doc := swapTags isInlineCode isPre doc
  let doc := mergeAdjacent isInlineCode doc
  let doc := addSpace isBoldOrItalic isInlineCode doc
  let doc := removeRedundant bothLink doc
  let doc := swapTags isBoldOrItalic isLink doc
  let doc := swapTags isLink isHeading doc
  let doc := leafAlternatives doc
  moveListItems doc

end Verif.DomUtils
