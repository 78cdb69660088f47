import Verif.Proofs.Collapse
/-!
# Lemmas about collapsing the white space of a tree
-/
set_option linter.unusedSimpArgs false

namespace Verif.Collapse
open Verif Verif.Spec Verif.Dom

/-! ## Nothing but white space changes -/

theorem firstText_visible (s : Vars) (d : Bytes) (anc : List Bytes) (p : Bytes → Bool) (h : anc.any p = false) :
    (itemsL anc (firstText s d).1).flatMap (seen p visible) = (visible d).map (.char anc) := by
  rw [firstText, replaceWs_eq]
  have hv : ∀ t : Bytes, visible t = visible d → (itemsL anc (if t = [] then ([], s) else ([Node.text t], { s with prev := some (t.getLast? = some SP) } )).1).flatMap (seen p visible) = (visible d).map (.char anc) := by
    intro t ht
    split
    · rename_i h0
      rw [h0, visible_nil] at ht
      rw [← ht]; rfl
    · simp [itemsL, items, seen, h, ht]
  split
  · rename_i hc
    exact hv _ (by rw [visible_tail hc.2.2, visible_oneSpace])
  · exact hv _ (visible_oneSpace d)

theorem first_seen (f : DomFuncs) :
    (∀ n, ∀ anc s, anc.any f.isPre = false → (∀ i ∈ items anc n, i.what ≠ .document) →
      (itemsL anc (first f s n).1).flatMap (seen f.isPre visible) = (items anc n).flatMap (seen f.isPre visible)) ∧
    (∀ ns, ∀ anc s, anc.any f.isPre = false → (∀ i ∈ itemsL anc ns, i.what ≠ .document) →
      (itemsL anc (firstL f s ns).1).flatMap (seen f.isPre visible) = (itemsL anc ns).flatMap (seen f.isPre visible)) := by
  apply induct
  · intro d anc s h _
    rw [first, firstText_visible s d anc _ h]
    simp [items, seen, h]
  · intro d anc s h _; simp [first, itemsL, items]
  · intro d anc s h _; simp [first, itemsL, items, seen, h]
  · intro cs ih anc s h hd
    exact absurd rfl (hd ⟨anc, .document⟩ (by simp [items]))
  · intro n a cs ih anc s h hd
    rw [first]
    split
    · simp [itemsL]
    · rename_i hp
      simp only [itemsL, List.append_nil, items, List.flatMap_cons]
      rw [ih (n :: anc) _ (by simp [h, hp]) (fun i hi => hd i (by simp [items, hi]))]
  · intro anc s _ _; rfl
  · intro n ns ih1 ih2 anc s h hd
    rw [firstL]
    simp only [itemsL_append, itemsL, List.flatMap_append]
    rw [ih1 anc _ h (fun i hi => hd i (by simp [itemsL, hi])), ih2 anc _ h (fun i hi => hd i (by simp [itemsL, hi]))]

theorem second_seen (f : DomFuncs) :
    (∀ n, ∀ anc next, anc.any f.isPre = false →
      (itemsL anc (second f next n).1).flatMap (seen f.isPre visible) = (items anc n).flatMap (seen f.isPre visible)) ∧
    (∀ ns, ∀ anc next, anc.any f.isPre = false →
      (itemsL anc (secondL f next ns).1).flatMap (seen f.isPre visible) = (itemsL anc ns).flatMap (seen f.isPre visible)) := by
  apply induct
  · intro d anc next h
    cases next with
    | other => simp [second, itemsL]
    | block => simp [second, itemsL, items, seen, h, visible_trimSuffix]
    | stop =>
      rw [second]
      split
      · rename_i h0
        have := visible_trimSuffix d
        rw [h0, visible_nil] at this
        simp [itemsL, items, seen, h, ← this]
      · simp [itemsL, items, seen, h, visible_trimSuffix]
  · intro d anc next h; simp [second, itemsL, items]
  · intro d anc next h; simp [second, itemsL, items]
  · intro cs _ anc next h; simp [second, itemsL, items]
  · intro n a cs ih anc next h
    rw [second]
    split
    · simp [itemsL]
    · rename_i hp
      simp only [itemsL, List.append_nil, items, List.flatMap_cons]
      rw [ih (n :: anc) _ (by simp [h, hp])]
  · intro anc next _; rfl
  · intro n ns ih1 ih2 anc next h
    rw [secondL]
    simp only [itemsL_append, itemsL, List.flatMap_append]
    rw [ih1 anc _ h, ih2 anc _ h]

theorem children_seen (f : DomFuncs) (anc : List Bytes) (cs : List Node) (h : anc.any f.isPre = false)
    (hd : ∀ i ∈ itemsL anc cs, i.what ≠ .document) :
    (itemsL anc (children f cs)).flatMap (seen f.isPre visible) = (itemsL anc cs).flatMap (seen f.isPre visible) := by
  rw [children, (second_seen f).2 _ anc _ h, (first_seen f).2 _ anc _ h hd]

theorem items_anc :
    (∀ n, ∀ anc, (∀ i ∈ items anc n, ∃ p, i.anc = p ++ anc)) ∧
    (∀ ns, ∀ anc, (∀ i ∈ itemsL anc ns, ∃ p, i.anc = p ++ anc)) := by
  apply induct
  · intro d anc i hi; simp [items] at hi; exact ⟨[], by simp [hi]⟩
  · intro d anc i hi; simp [items] at hi; exact ⟨[], by simp [hi]⟩
  · intro d anc i hi; simp [items] at hi; exact ⟨[], by simp [hi]⟩
  · intro cs ih anc i hi
    rw [items] at hi
    rcases List.mem_cons.1 hi with rfl | hi
    · exact ⟨[], rfl⟩
    · obtain ⟨p, hp⟩ := ih _ i hi
      exact ⟨p ++ [b!"#document"], by simp [hp]⟩
  · intro n a cs ih anc i hi
    rw [items] at hi
    rcases List.mem_cons.1 hi with rfl | hi
    · exact ⟨[], rfl⟩
    · obtain ⟨p, hp⟩ := ih _ i hi
      exact ⟨p ++ [n], by simp [hp]⟩
  · intro anc i hi; simp [itemsL] at hi
  · intro n ns ih1 ih2 anc i hi
    rw [itemsL] at hi
    rcases List.mem_append.1 hi with hi | hi
    · exact ih1 anc i hi
    · exact ih2 anc i hi

/-- Below the root there is no document node. -/
def NoNestedDocument (doc : Node) : Prop := ∀ i ∈ items [] doc, i.what = .document → i.anc = []

theorem noNested_children {doc : Node} (h : NoNestedDocument doc) :
    ∀ i ∈ itemsL [doc.name] doc.children, i.what ≠ .document := by
  intro i hi he
  have hmem : i ∈ items [] doc := by cases doc <;> simp_all [items, Node.name, Node.children, itemsL]
  have := h i hmem he
  obtain ⟨p, hp⟩ := items_anc.2 _ _ i hi
  rw [hp] at this
  simp at this

theorem collapse_seen (f : DomFuncs) (doc : Node) (h : NoNestedDocument doc) :
    (items [] (collapse f doc)).flatMap (seen f.isPre visible) = (items [] doc).flatMap (seen f.isPre visible) := by
  have hd := noNested_children h
  cases doc with
  | document cs =>
    simp only [Node.name, Node.children] at hd
    rw [collapse]
    split
    · rfl
    · rename_i hp
      simp only [items, List.flatMap_cons]
      rw [children_seen f _ _ (by simpa using hp) hd]
  | elem n a cs =>
    simp only [Node.name, Node.children] at hd
    rw [collapse]
    split
    · rfl
    · rename_i hp
      simp only [items, List.flatMap_cons]
      rw [children_seen f _ _ (by simpa using hp) hd]
  | text d => rfl
  | comment d => rfl
  | doctype d => rfl

end Verif.Collapse
