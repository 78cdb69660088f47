import Verif.Model.DomUtils
import Verif.Spec.Dom
/-!
# Induction over HTML trees, and the transformations of the tree
-/

namespace Verif.Dom
open Verif Verif.DomUtils Verif.Spec

mutual
theorem induct_node {P : Node → Prop} {Q : List Node → Prop} (ht : ∀ d, P (.text d)) (hc : ∀ d, P (.comment d))
    (hd : ∀ d, P (.doctype d)) (hdoc : ∀ cs, Q cs → P (.document cs)) (he : ∀ n a cs, Q cs → P (.elem n a cs))
    (hnil : Q []) (hcons : ∀ n ns, P n → Q ns → Q (n :: ns)) : ∀ n, P n
  | .text d => ht d
  | .comment d => hc d
  | .doctype d => hd d
  | .document cs => hdoc cs (induct_list ht hc hd hdoc he hnil hcons cs)
  | .elem n a cs => he n a cs (induct_list ht hc hd hdoc he hnil hcons cs)
theorem induct_list {P : Node → Prop} {Q : List Node → Prop} (ht : ∀ d, P (.text d)) (hc : ∀ d, P (.comment d))
    (hd : ∀ d, P (.doctype d)) (hdoc : ∀ cs, Q cs → P (.document cs)) (he : ∀ n a cs, Q cs → P (.elem n a cs))
    (hnil : Q []) (hcons : ∀ n ns, P n → Q ns → Q (n :: ns)) : ∀ ns, Q ns
  | [] => hnil
  | n :: ns => hcons n ns (induct_node ht hc hd hdoc he hnil hcons n) (induct_list ht hc hd hdoc he hnil hcons ns)
end

theorem induct {P : Node → Prop} {Q : List Node → Prop} (ht : ∀ d, P (.text d)) (hc : ∀ d, P (.comment d))
    (hd : ∀ d, P (.doctype d)) (hdoc : ∀ cs, Q cs → P (.document cs)) (he : ∀ n a cs, Q cs → P (.elem n a cs))
    (hnil : Q []) (hcons : ∀ n ns, P n → Q ns → Q (n :: ns)) : (∀ n, P n) ∧ (∀ ns, Q ns) :=
  ⟨induct_node ht hc hd hdoc he hnil hcons, induct_list ht hc hd hdoc he hnil hcons⟩

theorem itemsL_append (anc : List Bytes) (a b : List Node) : itemsL anc (a ++ b) = itemsL anc a ++ itemsL anc b := by
  induction a with
  | nil => simp [itemsL]
  | cons x a ih => simp [itemsL, ih]

theorem itemsL_singleton (anc : List Bytes) (a : Node) : itemsL anc [a] = items anc a := by simp [itemsL]

theorem nodesL_append (a b : List Node) : nodesL (a ++ b) = nodesL a ++ nodesL b := by
  induction a with
  | nil => simp [nodesL]
  | cons x a ih => simp [nodesL, ih]

theorem textsWith_append {α : Type} (f : List Bytes → α) (a b : List Item) :
    textsWith f (a ++ b) = textsWith f a ++ textsWith f b := by simp [textsWith]

theorem textsWith_cons {α : Type} (f : List Bytes → α) (a : Item) (b : List Item) :
    textsWith f (a :: b) = textsWith f [a] ++ textsWith f b := by
  rw [← textsWith_append]; rfl

@[simp] theorem textsWith_nil {α : Type} (f : List Bytes → α) : textsWith f [] = [] := rfl
@[simp] theorem textsWith_text {α : Type} (f : List Bytes → α) (anc d) : textsWith f [⟨anc, .text d⟩] = [(d, f anc)] := rfl
@[simp] theorem textsWith_comment {α : Type} (f : List Bytes → α) (anc d) : textsWith f [⟨anc, .comment d⟩] = [] := rfl
@[simp] theorem textsWith_doctype {α : Type} (f : List Bytes → α) (anc d) : textsWith f [⟨anc, .doctype d⟩] = [] := rfl
@[simp] theorem textsWith_document {α : Type} (f : List Bytes → α) (anc) : textsWith f [⟨anc, .document⟩] = [] := rfl
@[simp] theorem textsWith_elem {α : Type} (f : List Bytes → α) (anc n a) : textsWith f [⟨anc, .elem n a⟩] = [] := rfl

theorem texts_eq (n : Node) : texts n = (textsWith (fun _ => ()) (items [] n)).map (·.1) := by
  rw [texts, textsWith, List.map_filterMap]
  congr 1
  funext i
  cases i.what.text? <;> rfl

/-! ## Removing redundant nodes -/

/-- The kinds of names that are not nested: equivalence classes. -/
structure SameOK (same : Bytes → Bytes → Bool) : Prop where
  symm : ∀ a b, same a b = true → same b a = true
  trans : ∀ a b c, same a b = true → same b c = true → same a c = true

/-- Seen from the inside, the ancestors before and after are of the same kinds. -/
def SameKinds (same : Bytes → Bytes → Bool) (a b : List Bytes) : Prop := ∀ x, a.any (same x) = b.any (same x)

theorem redundant_texts {α : Type} (same : Bytes → Bytes → Bool) (ok : SameOK same) (f : List Bytes → α)
    (hf : ∀ a b, SameKinds same a b → f a = f b) :
    (∀ n, ∀ anc anc', SameKinds same anc anc' →
      textsWith f (itemsL anc (removeRedundantIn same anc n)) = textsWith f (items anc' n)) ∧
    (∀ ns, ∀ anc anc', SameKinds same anc anc' →
      textsWith f (itemsL anc (removeRedundantL same anc ns)) = textsWith f (itemsL anc' ns)) := by
  apply induct
  · intro d anc anc' h
    simp [removeRedundantIn, itemsL, items, hf _ _ h]
  · intro d anc anc' h
    simp [removeRedundantIn, itemsL, items]
  · intro d anc anc' h
    simp [removeRedundantIn, itemsL, items]
  · intro cs ih anc anc' h
    rw [removeRedundantIn, itemsL_singleton, items, items, textsWith_cons, textsWith_cons f _ (itemsL _ cs)]
    simp only [textsWith_document, List.nil_append]
    apply ih
    intro x
    simp [h x]
  · intro n a cs ih anc anc' h
    rw [removeRedundantIn]
    split
    · rename_i hr
      rw [items, textsWith_cons f _ (itemsL _ cs)]
      simp only [textsWith_elem, List.nil_append]
      apply ih
      intro x
      rw [h x, List.any_cons]
      simp only [Bool.and_eq_true] at hr
      cases hx : same x n with
      | false => rfl
      | true =>
        rw [Bool.true_or, ← h x]
        rw [List.any_eq_true] at hr ⊢
        obtain ⟨_, y, hy, hny⟩ := hr
        exact ⟨y, hy, ok.trans _ _ _ hx hny⟩
    · rw [itemsL_singleton, items, items, textsWith_cons, textsWith_cons f _ (itemsL _ cs)]
      simp only [textsWith_elem, List.nil_append]
      apply ih
      intro x
      simp [h x]
  · intro anc anc' _
    simp [removeRedundantL, itemsL]
  · intro n ns ih1 ih2 anc anc' h
    rw [removeRedundantL, itemsL_append, textsWith_append, ih1 _ _ h, ih2 _ _ h, itemsL, textsWith_append]

/-- No node has an ancestor of its own kind. -/
def NoNested (same : Bytes → Bytes → Bool) (l : List Item) : Prop :=
  ∀ i ∈ l, same i.what.name i.what.name = true → ∀ a ∈ i.anc, same i.what.name a = false

theorem redundant_none (same : Bytes → Bytes → Bool) (h0 : same b!"#text" b!"#text" = false ∧
      same b!"#comment" b!"#comment" = false ∧ same b!"#doctype" b!"#doctype" = false ∧ same b!"#document" b!"#document" = false) :
    (∀ n, ∀ anc, NoNested same (itemsL anc (removeRedundantIn same anc n))) ∧
    (∀ ns, ∀ anc, NoNested same (itemsL anc (removeRedundantL same anc ns))) := by
  obtain ⟨h1, h2, h3, h4⟩ := h0
  apply induct
  · intro d anc i hi
    simp only [removeRedundantIn, itemsL, items, List.append_nil, List.mem_singleton] at hi
    subst hi
    simp only [What.name, h1]
    intro h; simp at h
  · intro d anc i hi
    simp only [removeRedundantIn, itemsL, items, List.append_nil, List.mem_singleton] at hi
    subst hi
    simp only [What.name, h2]
    intro h; simp at h
  · intro d anc i hi
    simp only [removeRedundantIn, itemsL, items, List.append_nil, List.mem_singleton] at hi
    subst hi
    simp only [What.name, h3]
    intro h; simp at h
  · intro cs ih anc i hi
    simp only [removeRedundantIn, itemsL, items, List.append_nil, List.mem_cons] at hi
    rcases hi with rfl | hi
    · simp only [What.name, h4]
      intro h; simp at h
    · exact ih _ i hi
  · intro n a cs ih anc i hi
    rw [removeRedundantIn] at hi
    split at hi
    · exact ih _ i hi
    · rename_i hr
      rw [itemsL_singleton, items, List.mem_cons] at hi
      rcases hi with rfl | hi
      · simp only [What.name]
        intro hs x hx
        cases hsx : same n x with
        | false => rfl
        | true =>
          exfalso
          apply hr
          rw [hs, Bool.true_and, List.any_eq_true]
          exact ⟨x, hx, hsx⟩
      · exact ih _ i hi
  · intro anc i hi
    simp [removeRedundantL, itemsL] at hi
  · intro n ns ih1 ih2 anc i hi
    rw [removeRedundantL, itemsL_append, List.mem_append] at hi
    rcases hi with hi | hi
    · exact ih1 _ i hi
    · exact ih2 _ i hi

/-! ## Merging adjacent text nodes -/

theorem flush_items (anc : List Bytes) (p : Option Bytes) :
    itemsL anc (flush p) = p.toList.map fun d => ⟨anc, .text d⟩ := by
  cases p <;> simp [flush, itemsL, items]

/-- The text of some nodes. -/
def textOf (l : List Item) : Bytes := (l.filterMap fun i => i.what.text?).flatten

theorem textOf_append (a b : List Item) : textOf (a ++ b) = textOf a ++ textOf b := by simp [textOf]

/-- The nodes that are not texts. -/
def nonTextOf (l : List Item) : List Item := l.filter fun i => i.what.text?.isNone

theorem nonTextOf_append (a b : List Item) : nonTextOf (a ++ b) = nonTextOf a ++ nonTextOf b := by simp [nonTextOf]

theorem mergeText_text :
    (∀ n, ∀ anc, textOf (items anc (mergeText n)) = textOf (items anc n)) ∧
    (∀ ns, ∀ anc p, textOf (itemsL anc (mergeTextGo p ns)) = p.getD [] ++ textOf (itemsL anc ns)) := by
  apply induct
  · intro d anc; rfl
  · intro d anc; rfl
  · intro d anc; rfl
  · intro cs ih anc
    have := ih (b!"#document" :: anc) none
    simp only [mergeText, items, textOf] at *
    simpa [What.text?] using this
  · intro n a cs ih anc
    have := ih (n :: anc) none
    simp only [mergeText, items, textOf] at *
    simpa [What.text?] using this
  · intro anc p
    cases p <;> simp [mergeTextGo, flush, itemsL, items, textOf, What.text?]
  · intro n ns ih1 ih2 anc p
    have hf : ∀ (m : Node) (p : Option Bytes), textOf (itemsL anc (flush p ++ m :: mergeTextGo none ns)) =
        p.getD [] ++ (textOf (items anc m) ++ textOf (itemsL anc ns)) := by
      intro m p
      have := ih2 anc none
      rw [itemsL_append, itemsL, textOf_append, textOf_append, this, flush_items]
      cases p <;> simp [textOf, What.text?]
    rw [itemsL, textOf_append]
    cases n with
    | text d =>
      cases p with
      | none => rw [mergeTextGo, ih2]; simp [items, textOf, What.text?]
      | some p => rw [mergeTextGo, ih2]; simp [items, textOf, What.text?]
    | comment d => cases p <;> (rw [mergeTextGo, hf])
    | doctype d => cases p <;> (rw [mergeTextGo, hf])
    | document ks => cases p <;> (rw [mergeTextGo, hf, ih1])
    | elem n a ks => cases p <;> (rw [mergeTextGo, hf, ih1])

theorem mergeText_nonText :
    (∀ n, ∀ anc, nonTextOf (items anc (mergeText n)) = nonTextOf (items anc n)) ∧
    (∀ ns, ∀ anc p, nonTextOf (itemsL anc (mergeTextGo p ns)) = nonTextOf (itemsL anc ns)) := by
  apply induct
  · intro d anc; rfl
  · intro d anc; rfl
  · intro d anc; rfl
  · intro cs ih anc
    have := ih (b!"#document" :: anc) none
    simp only [mergeText, items, nonTextOf] at *
    simpa [What.text?] using this
  · intro n a cs ih anc
    have := ih (n :: anc) none
    simp only [mergeText, items, nonTextOf] at *
    simpa [What.text?] using this
  · intro anc p
    cases p <;> simp [mergeTextGo, flush, itemsL, items, nonTextOf, What.text?]
  · intro n ns ih1 ih2 anc p
    have hf : ∀ (m : Node) (p : Option Bytes), nonTextOf (itemsL anc (flush p ++ m :: mergeTextGo none ns)) =
        (nonTextOf (items anc m) ++ nonTextOf (itemsL anc ns)) := by
      intro m p
      have := ih2 anc none
      rw [itemsL_append, itemsL, nonTextOf_append, nonTextOf_append, this, flush_items]
      cases p <;> simp [nonTextOf, What.text?]
    rw [itemsL, nonTextOf_append]
    cases n with
    | text d =>
      cases p with
      | none => rw [mergeTextGo, ih2]; simp [items, nonTextOf, What.text?]
      | some p => rw [mergeTextGo, ih2]; simp [items, nonTextOf, What.text?]
    | comment d => cases p <;> (rw [mergeTextGo, hf])
    | doctype d => cases p <;> (rw [mergeTextGo, hf])
    | document ks => cases p <;> (rw [mergeTextGo, hf, ih1])
    | elem n a ks => cases p <;> (rw [mergeTextGo, hf, ih1])

/-- Is it a text node? -/
def isText : Node → Bool
  | .text _ => true
  | _ => false

/-- No two texts stand next to each other. -/
def NoAdj : List Node → Prop
  | [] => True
  | [_] => True
  | a :: b :: l => ¬ (isText a = true ∧ isText b = true) ∧ NoAdj (b :: l)

theorem noAdj_flush (p : Option Bytes) (c : Node) (l : List Node) (hc : isText c = false) (hl : NoAdj l) :
    NoAdj (flush p ++ c :: l) := by
  have h : NoAdj (c :: l) := by
    cases l with
    | nil => trivial
    | cons b l => exact ⟨by simp [hc], hl⟩
  cases p with
  | none => exact h
  | some p => exact ⟨by simp [hc], h⟩

theorem mergeText_isText (n : Node) : isText (mergeText n) = isText n := by
  cases n <;> simp [mergeText, isText]

theorem mergeTextGo_noAdj : ∀ (ns : List Node) (p : Option Bytes), NoAdj (mergeTextGo p ns)
  | [], p => by cases p <;> simp [mergeTextGo, flush, NoAdj]
  | .text d :: ns, none => by rw [mergeTextGo]; exact mergeTextGo_noAdj ns _
  | .text d :: ns, some p => by rw [mergeTextGo]; exact mergeTextGo_noAdj ns _
  | .comment d :: ns, p => by cases p <;> (rw [mergeTextGo]; exact noAdj_flush _ _ _ rfl (mergeTextGo_noAdj ns _))
  | .doctype d :: ns, p => by cases p <;> (rw [mergeTextGo]; exact noAdj_flush _ _ _ rfl (mergeTextGo_noAdj ns _))
  | .document ks :: ns, p => by
    cases p <;> (rw [mergeTextGo]; exact noAdj_flush _ _ _ (mergeText_isText _) (mergeTextGo_noAdj ns _))
  | .elem n a ks :: ns, p => by
    cases p <;> (rw [mergeTextGo]; exact noAdj_flush _ _ _ (mergeText_isText _) (mergeTextGo_noAdj ns _))

theorem flush_nodes (p : Option Bytes) : ∀ x ∈ nodesL (flush p), NoAdj x.children := by
  cases p <;> simp [flush, nodesL, nodes, Node.children, NoAdj]

theorem mergeText_noAdj :
    (∀ n, ∀ x ∈ nodes (mergeText n), NoAdj x.children) ∧
    (∀ ns, ∀ p, ∀ x ∈ nodesL (mergeTextGo p ns), NoAdj x.children) := by
  apply induct
  · intro d x hx
    simp only [mergeText, nodes, List.mem_singleton] at hx
    subst hx; trivial
  · intro d x hx
    simp only [mergeText, nodes, List.mem_singleton] at hx
    subst hx; trivial
  · intro d x hx
    simp only [mergeText, nodes, List.mem_singleton] at hx
    subst hx; trivial
  · intro cs ih x hx
    simp only [mergeText, nodes, List.mem_cons] at hx
    rcases hx with rfl | hx
    · exact mergeTextGo_noAdj cs none
    · exact ih _ x hx
  · intro n a cs ih x hx
    simp only [mergeText, nodes, List.mem_cons] at hx
    rcases hx with rfl | hx
    · exact mergeTextGo_noAdj cs none
    · exact ih _ x hx
  · intro p x hx
    cases p <;> simp only [mergeTextGo] at hx <;> exact flush_nodes _ x hx
  · intro n ns ih1 ih2 p x hx
    have hf : ∀ (m : Node) (p : Option Bytes), x ∈ nodesL (flush p ++ m :: mergeTextGo none ns) →
        (∀ y ∈ nodes m, NoAdj y.children) → NoAdj x.children := by
      intro m p hx hm
      rw [nodesL_append, nodesL, List.mem_append, List.mem_append] at hx
      rcases hx with hx | hx | hx
      · exact flush_nodes _ x hx
      · exact hm x hx
      · exact ih2 _ x hx
    cases n with
    | text d => cases p <;> (rw [mergeTextGo] at hx; exact ih2 _ x hx)
    | comment d => cases p <;> (rw [mergeTextGo] at hx; exact hf _ _ hx (by simp [nodes, Node.children, NoAdj]))
    | doctype d => cases p <;> (rw [mergeTextGo] at hx; exact hf _ _ hx (by simp [nodes, Node.children, NoAdj]))
    | document ks => cases p <;> (rw [mergeTextGo] at hx; exact hf _ _ hx ih1)
    | elem n a ks => cases p <;> (rw [mergeTextGo] at hx; exact hf _ _ hx ih1)

/-- Nothing to merge: nothing happens. -/
theorem mergeText_id :
    (∀ n, (∀ x ∈ nodes n, NoAdj x.children) → mergeText n = n) ∧
    (∀ ns, NoAdj ns → (∀ x ∈ nodesL ns, NoAdj x.children) → ∀ p, (p.isSome = true → ∀ c ∈ ns.head?, isText c = false) →
      mergeTextGo p ns = flush p ++ ns) := by
  apply induct
  · intro d _; rfl
  · intro d _; rfl
  · intro d _; rfl
  · intro cs ih h
    rw [mergeText, ih (h (.document cs) (by simp [nodes])) (fun x hx => h x (by simp [nodes, hx])) none (by simp)]
    rfl
  · intro n a cs ih h
    rw [mergeText, ih (h (.elem n a cs) (by simp [nodes])) (fun x hx => h x (by simp [nodes, hx])) none (by simp)]
    rfl
  · intro _ _ p _
    cases p <;> simp [mergeTextGo]
  · intro n ns ih1 ih2 h1 h2 p hp
    have hn : mergeText n = n := ih1 (fun x hx => h2 x (by simp [nodesL, hx]))
    have h1' : NoAdj ns := by
      cases ns with
      | nil => trivial
      | cons b l => exact h1.2
    have h2' := fun p hp => ih2 h1' (fun x hx => h2 x (by simp [nodesL, hx])) p hp
    cases n with
    | text d =>
      cases p with
      | none =>
        rw [mergeTextGo, h2' _ (by
          intro _ c hc
          cases ns with
          | nil => simp at hc
          | cons b l =>
            simp at hc; subst hc
            exact Bool.eq_false_iff.mpr fun hb => h1.1 ⟨rfl, hb⟩)]
        rfl
      | some p => simp [isText] at hp
    | comment d => cases p <;> (rw [mergeTextGo, h2' none (by simp)]; rfl)
    | doctype d => cases p <;> (rw [mergeTextGo, h2' none (by simp)]; rfl)
    | document ks => cases p <;> (rw [mergeTextGo, h2' none (by simp), hn]; rfl)
    | elem n a ks => cases p <;> (rw [mergeTextGo, h2' none (by simp), hn]; rfl)

theorem noAdj_iff : ∀ (l : List Node), NoAdj l ↔ ∀ pre d d' post, l ≠ pre ++ .text d :: .text d' :: post
  | [] => by simp [NoAdj]
  | [a] => by
    simp only [NoAdj, true_iff]
    intro pre d d' post h
    have := congrArg List.length h
    simp at this
    omega
  | a :: b :: l => by
    rw [NoAdj, noAdj_iff (b :: l)]
    constructor
    · rintro ⟨h1, h2⟩ pre d d' post h
      cases pre with
      | nil =>
        simp only [List.nil_append, List.cons.injEq] at h
        obtain ⟨rfl, rfl, rfl⟩ := h
        exact h1 ⟨rfl, rfl⟩
      | cons x pre =>
        simp only [List.cons_append, List.cons.injEq] at h
        exact h2 _ _ _ _ h.2
    · intro h
      refine ⟨?_, fun pre d d' post h' => h (a :: pre) d d' post (by rw [h']; rfl)⟩
      rintro ⟨ha, hb⟩
      cases a <;> simp [isText] at ha
      cases b <;> simp [isText] at hb
      exact h [] _ _ _ rfl

/-! ## Removing nodes -/

/-- Neither the node nor one of the first `k` nodes around it (from the outside: all but those of `anc`) is of a removed kind. -/
def keepItem (remove : Bytes → Bool) (i : Item) : Bool := !remove i.what.name && !i.anc.any remove

theorem items_removed (remove : Bytes → Bool) :
    (∀ n, ∀ anc, anc.any remove = true → (items anc n).filter (keepItem remove) = []) ∧
    (∀ ns, ∀ anc, anc.any remove = true → (itemsL anc ns).filter (keepItem remove) = []) := by
  apply induct
  · intro d anc h; simp [items, keepItem, h]
  · intro d anc h; simp [items, keepItem, h]
  · intro d anc h; simp [items, keepItem, h]
  · intro cs ih anc h
    rw [items, List.filter_cons, ih _ (by simp [h])]
    simp [keepItem, h]
  · intro n a cs ih anc h
    rw [items, List.filter_cons, ih _ (by simp [h])]
    simp [keepItem, h]
  · intro anc _; simp [itemsL]
  · intro n ns ih1 ih2 anc h
    rw [itemsL, List.filter_append, ih1 _ h, ih2 _ h]
    rfl

theorem removeIn_items (remove : Bytes → Bool) :
    (∀ n, ∀ anc, anc.any remove = false → remove n.name = false →
      items anc (removeIn remove n) = (items anc n).filter (keepItem remove)) ∧
    (∀ ns, ∀ anc, anc.any remove = false → itemsL anc (removeInL remove ns) = (itemsL anc ns).filter (keepItem remove)) := by
  apply induct
  · intro d anc h hn
    simp only [Node.name] at hn
    simp [items, keepItem, removeIn, h, What.name, hn]
  · intro d anc h hn
    simp only [Node.name] at hn
    simp [items, keepItem, removeIn, h, What.name, hn]
  · intro d anc h hn
    simp only [Node.name] at hn
    simp [items, keepItem, removeIn, h, What.name, hn]
  · intro cs ih anc h hn
    simp only [Node.name] at hn
    rw [removeIn, items, items, List.filter_cons_of_pos (by simp [keepItem, What.name, hn, h]), ih _ (by simp [h, hn])]
  · intro n a cs ih anc h hn
    simp only [Node.name] at hn
    rw [removeIn, items, items, List.filter_cons_of_pos (by simp [keepItem, What.name, hn, h]), ih _ (by simp [h, hn])]
  · intro anc _; simp [removeInL, itemsL]
  · intro n ns ih1 ih2 anc h
    rw [removeInL, itemsL, List.filter_append]
    split
    · rename_i hr
      rw [ih2 _ h]
      have : (items anc n).filter (keepItem remove) = [] := by
        cases n with
        | text d => simp only [Node.name] at hr; simp [items, keepItem, What.name, hr]
        | comment d => simp only [Node.name] at hr; simp [items, keepItem, What.name, hr]
        | doctype d => simp only [Node.name] at hr; simp [items, keepItem, What.name, hr]
        | document cs =>
          simp only [Node.name] at hr
          rw [items, List.filter_cons_of_neg (by simp [keepItem, What.name, hr])]
          exact (items_removed remove).2 _ _ (by simp [hr])
        | elem n a cs =>
          simp only [Node.name] at hr
          rw [items, List.filter_cons_of_neg (by simp [keepItem, What.name, hr])]
          exact (items_removed remove).2 _ _ (by simp [hr])
      rw [this]; rfl
    · rename_i hr
      rw [itemsL, ih1 _ h (by simpa using hr), ih2 _ h]

end Verif.Dom
