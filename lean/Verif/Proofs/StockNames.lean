import Verif.Model.Stock
import Verif.Proofs.DomKind
/-!
# The names of the elements of a tree
-/

namespace Verif.Stock
open Verif Verif.Engine Verif.DomUtils Verif.Dom Verif.Collapse

mutual
/-- All elements have good names. -/
def Names (good : Bytes → Prop) : Node → Prop
  | .elem n _ cs => good n ∧ NamesL good cs
  | .document cs => NamesL good cs
  | _ => True
/-- For a list of siblings. -/
def NamesL (good : Bytes → Prop) : List Node → Prop
  | [] => True
  | n :: ns => Names good n ∧ NamesL good ns
end

theorem names_all : (∀ n : Node, Names (fun _ => True) n) ∧ (∀ ns : List Node, NamesL (fun _ => True) ns) := by
  apply induct
  · intro d; trivial
  · intro d; trivial
  · intro d; trivial
  · intro cs ih; exact ih
  · intro n a cs ih; exact ⟨trivial, ih⟩
  · trivial
  · intro n ns h1 h2; exact ⟨h1, h2⟩

/-- Names that are good for nodes that are no elements. -/
structure Marks (good : Bytes → Prop) : Prop where
  text : good b!"#text"
  comment : good b!"#comment"
  doctype : good b!"#doctype"
  document : good b!"#document"

variable {good : Bytes → Prop}

theorem Marks.name (h : Marks good) {n : Node} (hn : Names good n) : good n.name := by
  cases n with
  | elem n a cs => exact hn.1
  | document cs => exact h.document
  | text d => exact h.text
  | comment d => exact h.comment
  | doctype d => exact h.doctype

/-! ## Functions that ask for the tag types of names -/

theorem removeIn_congr (hm : Marks good) {p q : Bytes → Bool} (h : ∀ n, good n → p n = q n) :
    (∀ n, Names good n → removeIn p n = removeIn q n) ∧ (∀ ns, NamesL good ns → removeInL p ns = removeInL q ns) := by
  apply induct
  · intro d _; rfl
  · intro d _; rfl
  · intro d _; rfl
  · intro cs ih hn; rw [removeIn, removeIn, ih hn]
  · intro n a cs ih hn; rw [removeIn, removeIn, ih hn.2]
  · intro _; rfl
  · intro n ns h1 h2 hn
    rw [removeInL, removeInL, h _ (hm.name hn.1), h1 hn.1, h2 hn.2]

theorem preRenderRemove_congr (hm : Marks good) {p q : Bytes → Bool} (h : ∀ n, good n → p n = q n) {n : Node} (hn : Names good n) :
    preRenderRemove p n = preRenderRemove q n := by
  rw [preRenderRemove, preRenderRemove, h _ (hm.name hn), (removeIn_congr hm h).1 n hn]

section
variable {f g : DomFuncs} (hb : ∀ n, good n → f.isBlock n = g.isBlock n) (hv : f.isVoid = g.isVoid) (hp : f.isPre = g.isPre)
include hb hv hp

theorem visit_congr {s : Vars} {n : Bytes} (hn : good n) : visit f s n = visit g s n := by
  rw [visit, visit, hb n hn, hv, hp]

theorem before_congr {s : Next} {n : Bytes} (hn : good n) : before f s n = before g s n := by
  rw [before, before, hb n hn, hv, hp]

theorem first_congr : (∀ n, Names good n → ∀ s, first f s n = first g s n) ∧ (∀ ns, NamesL good ns → ∀ s, firstL f s ns = firstL g s ns) := by
  apply induct
  · intro d _ s; rfl
  · intro d _ s; rfl
  · intro d _ s; rfl
  · intro cs ih hn s; rfl
  · intro n a cs ih hn s
    rw [first, first, hp]
    simp only [visit_congr hb hv hp hn.1, ih hn.2]
  · intro _ s; rfl
  · intro n ns h1 h2 hn s
    rw [firstL, firstL]
    simp only [h1 hn.1, h2 hn.2]

theorem second_congr : (∀ n, Names good n → ∀ s, second f s n = second g s n) ∧ (∀ ns, NamesL good ns → ∀ s, secondL f s ns = secondL g s ns) := by
  apply induct
  · intro d _ s; rfl
  · intro d _ s; rfl
  · intro d _ s; rfl
  · intro cs ih hn s; rfl
  · intro n a cs ih hn s
    rw [second, second, hp]
    simp only [before_congr hb hv hp hn.1, ih hn.2]
  · intro _ s; rfl
  · intro n ns h1 h2 hn s
    rw [secondL, secondL]
    simp only [h1 hn.1, h2 hn.2]

omit hb hv hp in
theorem namesL_append {a b : List Node} : NamesL good (a ++ b) ↔ NamesL good a ∧ NamesL good b := by
  induction a with
  | nil => simp [NamesL]
  | cons x a ih => simp [NamesL, ih, and_assoc]

omit hb hv hp in
theorem first_names (f : DomFuncs) : (∀ n, Names good n → ∀ s, NamesL good (first f s n).1) ∧ (∀ ns, NamesL good ns → ∀ s, NamesL good (firstL f s ns).1) := by
  apply induct
  · intro d _ s
    rw [first, firstText]
    split <;> split <;> first | trivial | exact ⟨trivial, trivial⟩
  · intro d _ s; exact ⟨trivial, trivial⟩
  · intro d _ s; trivial
  · intro cs ih hn s; trivial
  · intro n a cs ih hn s
    rw [first]
    split
    · exact ⟨hn, trivial⟩
    · exact ⟨⟨hn.1, ih hn.2 _⟩, trivial⟩
  · intro _ s; trivial
  · intro n ns h1 h2 hn s
    rw [firstL]
    exact namesL_append.2 ⟨h1 hn.1 _, h2 hn.2 _⟩

theorem children_congr {cs : List Node} (h : NamesL good cs) : Collapse.children f cs = Collapse.children g cs := by
  rw [Collapse.children, Collapse.children, (second_congr hb hv hp).2 _ ((first_names f).2 cs h _), (first_congr hb hv hp).2 cs h]

theorem collapse_congr {n : Node} (h : Names good n) : collapse f n = collapse g n := by
  cases n with
  | document cs => rw [collapse, collapse, hp, children_congr hb hv hp h]
  | elem n a cs => rw [collapse, collapse, hp, children_congr hb hv hp h.2]
  | _ => rfl
end

/-! ## The names after each step -/

/-- Only the names matter. -/
def only (good : Bytes → Prop) : Kinds := ⟨good, fun _ => True, fun _ => True, fun _ => False⟩

theorem names_of_ok : (∀ n, ∀ t, ok (only good) t n → Names good n) ∧ (∀ ns, okL (only good) ns → NamesL good ns) := by
  apply induct
  · intro d t _; trivial
  · intro d t _; trivial
  · intro d t _; trivial
  · intro cs ih t h; exact ih h.2
  · intro n a cs ih t h; exact ⟨h.1, ih h.2.2.2⟩
  · intro _; trivial
  · intro n ns h1 h2 h; exact ⟨h1 false h.1, h2 h.2⟩

/-- The names that the normalisation puts into a tree. -/
structure Made (good : Bytes → Prop) : Prop where
  div : good b!"div"
  span : good b!"span"
  strong : good b!"strong"
  code : good b!"code"
  br : good b!"br"
  li : good b!"li"

theorem only_remove (p : Bytes → Bool) : (∀ n, ∀ t, ok (only good) t n → ok (only good) t (removeIn p n)) ∧
    (∀ ns, okL (only good) ns → okL (only good) (removeInL p ns)) := by
  apply induct
  · intro d t h; exact h
  · intro d t h; exact h
  · intro d t h; exact h
  · intro cs ih t h; exact ⟨h.1, ih h.2⟩
  · intro n a cs ih t h; exact ⟨h.1, trivial, fun h => h.elim, ih h.2.2.2⟩
  · intro _; trivial
  · intro n ns h1 h2 h
    rw [removeInL]
    split
    · exact h2 h.2
    · exact ⟨h1 false h.1, h2 h.2⟩

theorem only_flush (prev : Option Bytes) : okL (only good) (flush prev) := by
  cases prev
  · trivial
  · exact ⟨trivial, trivial⟩

theorem only_mergeText : (∀ n, ∀ t, ok (only good) t n → ok (only good) t (mergeText n)) ∧
    (∀ ns, okL (only good) ns → ∀ prev, okL (only good) (mergeTextGo prev ns)) := by
  apply induct
  · intro d t h; exact h
  · intro d t h; exact h
  · intro d t h; exact h
  · intro cs ih t h; rw [mergeText]; exact ⟨h.1, ih h.2 _⟩
  · intro n a cs ih t h; rw [mergeText]; exact ⟨h.1, trivial, fun h => h.elim, ih h.2.2.2 _⟩
  · intro _ prev
    have : mergeTextGo prev [] = flush prev := by cases prev <;> rfl
    rw [this]; exact only_flush _
  · intro n ns h1 h2 h prev
    cases n with
    | text d => cases prev <;> (rw [mergeTextGo]; exact h2 h.2 _)
    | comment d => rw [mergeTextGo]; exact okL_append.2 ⟨only_flush _, trivial, h2 h.2 _⟩
    | doctype d => rw [mergeTextGo]; exact okL_append.2 ⟨only_flush _, trivial, h2 h.2 _⟩
    | document ks => rw [mergeTextGo]; exact okL_append.2 ⟨only_flush _, h1 _ h.1, h2 h.2 _⟩
    | elem n a ks => rw [mergeTextGo]; exact okL_append.2 ⟨only_flush _, h1 _ h.1, h2 h.2 _⟩

theorem only_handlePreRender (hm : Made good) (T : NameTables) (doc : Node) (t : Bool) (h : ok (only good) t doc) :
    ok (only good) t (handlePreRender T doc) := by
  have nv : ∀ m : Bytes → Bool, ∀ n, m n = true → ¬ (only good).V n := fun _ _ _ h => h
  simp only [handlePreRender]
  have h1 := (ok_rename (K := only good) T hm.div id).1 doc t h
  generalize renameFakeSpans T doc = d1 at *
  have h2 := ok_redundant bothBoldOrItalic d1 t h1
  generalize removeRedundant bothBoldOrItalic d1 = d2 at *
  have h3 := ok_merge (K := only good) isBoldOrItalic id (nv _) d2 t h2
  generalize mergeAdjacent isBoldOrItalic d2 = d3 at *
  have h4 := (ok_emptyCode (K := only good)).1 d3 t h3
  generalize removeEmptyCode d3 = d4 at *
  have h5 := (ok_swap (K := only good) isInlineCode isPre (nv _) (nv _)).1 d4 t h4
  generalize swapTags isInlineCode isPre d4 = d5 at *
  have h6 := ok_merge (K := only good) isInlineCode id (nv _) d5 t h5
  generalize mergeAdjacent isInlineCode d5 = d6 at *
  have h7 : ok (only good) t (addSpace isBoldOrItalic isInlineCode d6) := (ok_mapTexts (K := only good) _ (fun k d hd => trivial)).1 d6 t h6 0
  generalize addSpace isBoldOrItalic isInlineCode d6 = d7 at *
  have h8 := ok_redundant bothLink d7 t h7
  generalize removeRedundant bothLink d7 = d8 at *
  have h9 := (ok_swap (K := only good) isBoldOrItalic isLink (nv _) (nv _)).1 d8 t h8
  generalize swapTags isBoldOrItalic isLink d8 = d9 at *
  have h10 := (ok_swap (K := only good) isLink isHeading (nv _) (nv _)).1 d9 t h9
  generalize swapTags isLink isHeading d9 = d10 at *
  have h11 := ok_leafAlternatives (K := only good) ⟨⟨hm.strong, id⟩, ⟨hm.span, id⟩, ⟨hm.code, id⟩, hm.br, trivial, trivial, trivial⟩ d10 t h10
  generalize leafAlternatives d10 = d11 at *
  exact (ok_moveListItems (K := only good) hm.li id trivial id id).1 d11 t h11

theorem only_strike (E : Render.Env) (doc : Node) (t : Bool) (h : ok (only good) t doc) : ok (only good) t (Render.strikePreRender E doc) := by
  rw [Render.strikePreRender]
  split
  · exact ok_merge (K := only good) _ id (fun _ _ h => h) _ t (ok_redundant _ _ t h)
  · exact h

theorem only_text : TextOK (only good).R := ⟨fun _ _ => trivial, fun _ _ _ => trivial, fun _ _ => trivial⟩

/-- All names are good before the whitespace is collapsed, and when the tree is rendered. -/
theorem only_preRender (hm : Made good) (E : Render.Env) {doc : Node} (h : ok (only good) true doc) :
    Names good doc ∧ Names good (Render.strikePreRender E (handlePreRender E.tables (preRenderRemove Render.isRemoved doc))) ∧
      Names good (Render.preRender E doc) := by
  have h1 : ok (only good) true (preRenderRemove Render.isRemoved doc) := by
    refine only_mergeText.1 _ _ ?_
    split
    · exact h
    · exact (only_remove _).1 _ _ h
  have h2 := only_strike E _ true (only_handlePreRender hm E.tables _ true h1)
  have h3 := ok_collapse (Collapse.baseFuncs (Render.isBlock E)) only_text _ true h2
  refine ⟨names_of_ok.1 _ _ h, names_of_ok.1 _ _ h2, ?_⟩
  simp only [Render.preRender]
  split
  · exact names_of_ok.1 _ _ h3
  · exact names_of_ok.1 _ _ (ok_listEnd.1 _ true h3 [])

end Verif.Stock
