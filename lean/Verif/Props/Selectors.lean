import Verif.Proofs.Selectors
/-!
# C63: selectors of the command line tool keep exactly what was asked for

`places [] doc` (`Verif/Spec/Selectors.lean`) lists the nodes of a document in document order, each with its surroundings;
`trail p` is a node followed by the nodes it is inside of; `hits sel p` says that the selector matches the node.
-/

namespace Verif.Props
open Verif Verif.Spec Verif.Dom Verif.DomUtils Verif.CliDom

/-- The nodes that are left are those that do not match and are not inside of a node that does, each unchanged, in document order.
Missing from the full property: the selector must not look at what follows a node (no `:last-child`, `:nth-last-child`, `:only-child`,
…), see `c63_counterexample_cascade` and `c63_counterexample_left`; and it must not match the root (the document node; selectors match elements only). -/
theorem c63_exclude_partial (sel : Selector) (doc : Node) (hsel : IgnoresFollowing sel) (hroot : sel [] doc = false) :
    items [] (exclude (some sel) doc) = ((places [] doc).filter fun p => (trail p).all fun q => !hits sel q).map itemOf := by
  have h := (exclude_items hsel).1 doc [] [] rfl rfl
  have hsome : ∃ m, excludeIn sel [] doc = some m := by
    cases doc <;> exact ⟨_, by rw [excludeIn, if_neg (by rw [hroot]; decide)]⟩
  obtain ⟨m, hm⟩ := hsome
  rw [exclude, hm, Option.getD_some]
  rw [hm] at h
  exact h

/-- After excluding, the selector finds nothing in the document that the converter gets.
Missing: selectors that look at siblings or into nodes (`p + p`, `:first-child`, `:has(…)`); removing nodes can make others match. -/
theorem c63_nothing_left_partial (sel : Selector) (doc : Node) (hsel : OnlyLooksUp sel) (hroot : sel [] doc = false) :
    ∀ p ∈ places [] (exclude (some sel) doc), hits sel p = false := by
  have hsome : ∃ m, excludeIn sel [] doc = some m := by
    cases doc <;> exact ⟨_, by rw [excludeIn, if_neg (by rw [hroot]; decide)]⟩
  obtain ⟨m, hm⟩ := hsome
  rw [exclude, hm, Option.getD_some]
  exact (exclude_none hsel).1 doc [] [] m rfl hm

/-- Every selector: below the new root there are the matching nodes, in document order.  (A selector is not asked about the root.) -/
theorem c63_include_nodes (sel : Selector) (doc : Node) :
    (includeNodes (some sel) doc).children.map whatOf = ((places [] doc).tail.filter (hits sel)).map fun p => whatOf p.2 :=
  pick_order.1 doc []

/-- When no matching node is inside of another one, the matching nodes arrive with everything they contain, unchanged.
Missing: matching nodes inside of each other, see `c63_counterexample_nested`. -/
theorem c63_include_whole_partial (sel : Selector) (doc : Node)
    (h : ∀ p ∈ (places [] doc).tail, hits sel p = true → ∀ q ∈ ancestors p.1 p.2, q.1 ≠ [] → hits sel q = false) :
    (includeNodes (some sel) doc).children = ((places [] doc).tail.filter (hits sel)).map (·.2) := by
  refine pick_whole.1 doc [] ?_
  intro p hp hh q hq hl
  exact h p hp hh q hq (by intro e; rw [e] at hl; simp at hl)

/-- Every selector: the texts of the result are the texts inside of matching nodes, each as often as it is in the document.
(Their order is not always the same, see `c63_counterexample_nested`.) -/
theorem c63_include_texts_partial (sel : Selector) (doc : Node) :
    (texts (includeNodes (some sel) doc)).Perm
      (((places [] doc).tail.filter fun p => (trail p).any fun q => !q.1.isEmpty && hits sel q).filterMap fun p => (whatOf p.2).text?) := by
  have h := (pick_texts (sel := sel)).1 doc []
  have e : (fun p : Place => (trail p).any fun q => !q.1.isEmpty && hits sel q) = within sel ([] : List Frame).length := by
    funext p
    rw [within]
    congr 1
    funext q
    cases q.1 <;> simp
  have e2 : texts (includeNodes (some sel) doc) = txtsL (pickIn sel [] doc).2 := by
    rw [includeNodes, texts_txts]; rfl
  rw [e2, e]
  exact h

/-- Both at once, for class selectors and the like: what the converter gets has no node that matches the exclude selector,
whatever the include selector was. -/
theorem c63_both_partial (incl : Option Selector) (sel : Selector) (doc : Node) (hsel : OnlyLooksUp sel) (hroot : sel [] (includeNodes incl doc) = false) :
    ∀ p ∈ places [] (withSelectors incl (some sel) doc), hits sel p = false :=
  c63_nothing_left_partial sel (includeNodes incl doc) hsel hroot

/-- No selectors: the document is converted as it is. -/
theorem c63_no_selectors (doc : Node) : withSelectors none none doc = doc := rfl

/-! ## The hypotheses can be met, and what happens without them -/

/-- The selector `.x`, for a class attribute with this one class. -/
def classX : Selector
  | _, .elem _ a _ => a.contains (b!"class", b!"x")
  | _, _ => false

/-- The selector `li:last-child`. -/
def liLast : Selector
  | f :: _, .elem n _ _ => n == b!"li" && f.after.isEmpty
  | _, _ => false

/-- The selector `li:nth-last-child(2), .x`. -/
def secondLast : Selector
  | f :: up, .elem n a cs => (n == b!"li" && f.after.length == 1) || classX (f :: up) (.elem n a cs)
  | _, _ => false

theorem classX_onlyLooksUp : OnlyLooksUp classX := by
  intro up up' n n' _ h
  cases n <;> cases n' <;> simp [whatOf] at h <;> simp [classX, h]

theorem classX_ignores : IgnoresFollowing classX := by
  intro up up' n _
  cases n <;> rfl

def li (s : Bytes) : Node := .elem b!"li" [] [.text s]
def xli (s : Bytes) : Node := .elem b!"li" [(b!"class", b!"x")] [.text s]

def demoDoc : Node := .document [.elem b!"ul" [] [li b!"a", xli b!"b", li b!"c"]]

example : IgnoresFollowing classX ∧ OnlyLooksUp classX ∧ classX [] demoDoc = false ∧
    exclude (some classX) demoDoc = .document [.elem b!"ul" [] [li b!"a", li b!"c"]] :=
  ⟨classX_ignores, classX_onlyLooksUp, rfl, rfl⟩

example : (∀ p ∈ (places [] demoDoc).tail, hits classX p = true → ∀ q ∈ ancestors p.1 p.2, q.1 ≠ [] → hits classX q = false) ∧
    (includeNodes (some classX) demoDoc).children = [xli b!"b"] := by
  refine ⟨?_, rfl⟩
  intro p hp hh q hq hn
  simp [demoDoc, places, placesL, li, xli] at hp
  rcases hp with rfl | rfl | rfl | rfl | rfl | rfl | rfl <;> simp [hits, classX] at hh
  simp [ancestors, Frame.fill, withChildren] at hq
  rcases hq with rfl | rfl
  · rfl
  · exact absurd rfl hn

/-- The code violates the property: `li:last-child` matches one node of this list, and all three are removed, because the nodes are visited
from the last to the first and removed at once. -/
theorem c63_counterexample_cascade :
    ((places [] demoDoc).filter (hits liLast)).map itemOf = [⟨[b!"ul", b!"#document"], .elem b!"li" []⟩] ∧
    exclude (some liLast) demoDoc = .document [.elem b!"ul" [] []] := by
  constructor <;> rfl

/-- The code violates the property: `li:nth-last-child(2), .x` matches the second and third item of this list; the second is left and the
first, which does not match, is removed. -/
theorem c63_counterexample_left :
    let doc := Node.document [.elem b!"ul" [] [li b!"a", li b!"b", xli b!"c"]]
    ((places [] doc).filter (hits secondLast)).map (fun p => texts p.2) = [[b!"b"], [b!"c"]] ∧
    exclude (some secondLast) doc = .document [.elem b!"ul" [] [li b!"b"]] := by
  constructor <;> rfl

/-- The code violates the property: when a matching node is inside of another one, the text of the inner one moves behind the outer one. -/
theorem c63_counterexample_nested :
    let doc := Node.document [.elem b!"div" [(b!"class", b!"x")] [.text b!"1", .elem b!"b" [(b!"class", b!"x")] [.text b!"2"], .text b!"3"]]
    texts doc = [b!"1", b!"2", b!"3"] ∧ texts (includeNodes (some classX) doc) = [b!"1", b!"3", b!"2"] := by
  constructor <;> rfl

end Verif.Props
