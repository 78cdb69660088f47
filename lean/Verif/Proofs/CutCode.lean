import Verif.Spec.CodeSections
import Verif.Proofs.CutPair
/-!
# A code block cuts the tree

The steps before the rendering leave code as it is (apart from the joining of texts).
-/
set_option linter.unusedSimpArgs false

namespace Verif.Cut
open Verif Verif.Spec Verif.DomUtils Verif.Dom

/-- Texts, spans and line breaks. -/
inductive Pl : List Node → Prop
  | nil : Pl []
  | text (d : Bytes) {ns : List Node} : Pl ns → Pl (.text d :: ns)
  | span (a : List (Bytes × Bytes)) {cs ns : List Node} : Pl cs → Pl ns → Pl (.elem b!"span" a cs :: ns)
  | br (a : List (Bytes × Bytes)) {ns : List Node} : Pl ns → Pl (.elem b!"br" a [] :: ns)

theorem pl_of : (∀ n : Node, ∀ ns, (plainCode n).isSome → Pl ns → Pl (n :: ns)) ∧ (∀ ns : List Node, (plainCodeL ns).isSome → Pl ns) := by
  refine Dom.induct ?_ ?_ ?_ ?_ ?_ ?_ ?_
  · intro d ns _ h; exact .text d h
  · intro d ns h; simp [plainCode] at h
  · intro d ns h; simp [plainCode] at h
  · intro cs _ ns h; simp [plainCode] at h
  · intro n a cs ih ns h hns
    rw [plainCode] at h
    split at h
    · rename_i e; subst e; exact .span a (ih h) hns
    · split at h
      · rename_i e
        obtain ⟨e1, e2⟩ := e
        subst e1
        rw [List.isEmpty_iff] at e2
        subst e2
        exact .br a hns
      · simp at h
  · intro _; exact .nil
  · intro n ns ih1 ih2 h
    rw [plainCodeL] at h
    cases h1 : plainCode n with
    | none => rw [h1] at h; simp at h
    | some x =>
      cases h2 : plainCodeL ns with
      | none => rw [h1, h2] at h; simp at h
      | some y => exact ih1 ns (by simp [h1]) (ih2 (by simp [h2]))

/-- Code with something in it. -/
def Filled (cs : List Node) : Prop := Pl cs ∧ CodeContent cs

theorem filled_of {cs : List Node} (h : CodeContent cs) : Filled cs := by
  obtain ⟨c, e, hc⟩ := h
  exact ⟨pl_of.2 cs (by rw [e]; rfl), c, e, hc⟩

/-- The content of a code block. -/
def CodeKind (cs : List Node) : Prop := Filled cs ∨ ∃ b ds, cs = [.elem b!"code" b ds] ∧ Filled ds

/-- What does not change texts and spans and goes into `code` elements does not change the content. -/
theorem CodeKind.id {T : List Node → List Node} {U : List Node → List Node} (h1 : ∀ cs, Pl cs → T cs = cs) (h2 : ∀ cs, Pl cs → U cs = cs)
    (h : ∀ b ds, Filled ds → T [.elem b!"code" b ds] = [.elem b!"code" b (U ds)]) {cs : List Node} (hc : CodeKind cs) : T cs = cs := by
  rcases hc with hc | ⟨b, ds, rfl, hd⟩
  · exact h1 cs hc.1
  · rw [h b ds hd, h2 ds hd.1]

section
variable {w : Outer} {a : List (Bytes × Bytes)}

theorem pre_name : CutName b!"pre" := ⟨by decide, by decide, by decide, by decide, by decide, by decide, by decide, by decide⟩

/-- Steps that leave the content as it is. -/
theorem code_fcut {f : Node → Node} (T : List Bytes → List Node → List Node) (P : Bytes → Prop) (h0 : ∀ anc, T anc [] = [])
    (hT : ∀ anc cs, CodeKind cs → CodeKind (T anc cs)) (hw : ∀ x ∈ w, P x.1) (hn : P b!"pre")
    (h : ∀ anc n, P n → ∀ a cs A B, T anc (A ++ .elem n a cs :: B) = T anc A ++ .elem n a (T (n :: anc) cs) :: T anc B)
    (hdoc : ∀ cs, f (.document cs) = .document (T [b!"#document"] cs)) : FCut w b!"pre" a CodeKind CodeKind f :=
  fcut_of T P h0 hT hw hn h hdoc

/-! ## Removing -/

theorem pl_removeIn {cs : List Node} (h : Pl cs) : removeInL Render.isRemoved cs = cs := by
  induction h with
  | nil => rfl
  | text d _ ih => rw [removeInL, if_neg (by rw [Node.name]; decide), removeIn, ih]
  | span a _ _ ih1 ih2 => rw [removeInL, if_neg (by rw [Node.name]; decide), removeIn, ih1, ih2]
  | br a _ ih => rw [removeInL, if_neg (by rw [Node.name]; decide), removeIn, ih, removeInL]

theorem plainCodeL_flush (p : Option Bytes) (ns : List Node) : plainCodeL (flush p ++ ns) = (plainCodeL ns).map fun c => p.getD [] ++ c := by
  cases p with
  | none => cases h : plainCodeL ns <;> simp [flush, h]
  | some p => simp [flush, plainCodeL, plainCode]

theorem pl_flush (p : Option Bytes) {ns : List Node} (h : Pl ns) : Pl (flush p ++ ns) := by
  cases p with
  | none => exact h
  | some p => exact .text p h

theorem pl_merge {cs : List Node} (h : Pl cs) : ∀ p, Pl (mergeTextGo p cs) ∧ plainCodeL (mergeTextGo p cs) = (plainCodeL cs).map fun c => p.getD [] ++ c := by
  induction h with
  | nil =>
    intro p
    have h1 := pl_flush p .nil
    have h2 := plainCodeL_flush p []
    rw [List.append_nil] at h1 h2
    exact ⟨by rw [mergeTextGo]; exact h1, by rw [mergeTextGo]; exact h2⟩
  | @text d ns _ ih =>
    intro p
    cases p with
    | none =>
      obtain ⟨h1, h2⟩ := ih (some d)
      rw [mergeTextGo, h2]
      exact ⟨h1, by cases h : plainCodeL ns <;> simp [plainCodeL, plainCode, h]⟩
    | some p =>
      obtain ⟨h1, h2⟩ := ih (some (p ++ d))
      rw [mergeTextGo, h2]
      exact ⟨h1, by cases h : plainCodeL ns <;> simp [plainCodeL, plainCode, h]⟩
  | @span a cs ns _ _ ih1 ih2 =>
    intro p
    obtain ⟨h1, h2⟩ := ih1 none
    obtain ⟨h3, h4⟩ := ih2 none
    have e : mergeTextGo p (.elem b!"span" a cs :: ns) = flush p ++ .elem b!"span" a (mergeTextGo none cs) :: mergeTextGo none ns := by
      cases p <;> rw [mergeTextGo, mergeText]
    rw [e, plainCodeL_flush]
    refine ⟨pl_flush p (.span a h1 h3), ?_⟩
    simp only [plainCodeL, plainCode, if_true, h2, h4]
    cases plainCodeL cs <;> cases plainCodeL ns <;> simp
  | @br a ns _ ih =>
    intro p
    obtain ⟨h1, h2⟩ := ih none
    have e : mergeTextGo p (.elem b!"br" a [] :: ns) = flush p ++ .elem b!"br" a [] :: mergeTextGo none ns := by
      cases p <;> rw [mergeTextGo, mergeText, mergeTextGo] <;> rfl
    rw [e, plainCodeL_flush]
    refine ⟨pl_flush p (.br a h1), ?_⟩
    have hb : plainCode (.elem b!"br" a []) = some [] := rfl
    simp only [plainCodeL, hb, h2]
    cases plainCodeL ns <;> simp

theorem filled_merge {cs : List Node} (h : Filled cs) : Filled (mergeTextGo none cs) := by
  obtain ⟨h1, c, e, hc⟩ := h
  obtain ⟨h2, h3⟩ := pl_merge h1 none
  exact ⟨h2, c, by rw [h3, e]; rfl, hc⟩

theorem remove_code (hw : Good w) : FCut w b!"pre" a CodeKind CodeKind (preRenderRemove Render.isRemoved) := by
  refine code_fcut (fun _ cs => mergeTextGo none (removeInL Render.isRemoved cs)) (fun n => Render.isRemoved n = false) ?_ ?_ (fun x hx => (hw x hx).kept) pre_name.kept ?_ ?_
  · intro _; rfl
  · intro _ cs hc
    rcases hc with hc | ⟨b, ds, rfl, hd⟩
    · rw [pl_removeIn hc.1]; exact .inl (filled_merge hc)
    · have h : Render.isRemoved (Node.elem b!"code" b ds).name = false := by rw [Node.name]; decide
      refine .inr ⟨b, mergeTextGo none ds, ?_, filled_merge hd⟩
      simp only [removeInL, h, removeIn, pl_removeIn hd.1, mergeTextGo, mergeText, flush, Bool.false_eq_true, if_false, List.nil_append]
  · intro _ n hn a cs A B
    rw [removeInL_append, removeInL, if_neg (show ¬ Render.isRemoved (Node.elem n a cs).name = true from by rw [Node.name, hn]; simp), removeIn, mergeTextGo_elem]
  · intro cs
    rw [preRenderRemove, if_neg (show ¬ Render.isRemoved (Node.document cs).name = true from by rw [Node.name]; decide), removeIn, mergeText]

/-! ## The other steps -/

theorem pl_hasBlock {T : NameTables} (hs : T.isBlock b!"span" = false) (ht : T.isBlock b!"#text" = false) (hbr : T.isBlock b!"br" = false) {cs : List Node} (h : Pl cs) : hasBlockL T cs = false := by
  induction h with
  | nil => rfl
  | text d _ ih => simp only [hasBlockL, hasBlock, ht, ih, Bool.or_self]
  | span a _ _ ih1 ih2 => simp only [hasBlockL, hasBlock, hs, ih1, ih2, Bool.or_self]
  | br a _ ih => simp only [hasBlockL, hasBlock, hbr, ih, Bool.or_self]

theorem pl_rename {T : NameTables} (hs : T.isBlock b!"span" = false) (ht : T.isBlock b!"#text" = false) (hbr : T.isBlock b!"br" = false) {cs : List Node} (h : Pl cs) : renameFakeSpansL T cs = cs := by
  induction h with
  | nil => rfl
  | text d _ ih => rw [renameFakeSpansL, renameFakeSpans, ih]
  | @span a cs ns hc _ ih1 ih2 =>
    rw [renameFakeSpansL, renameFakeSpans, ih1, ih2, pl_hasBlock hs ht hbr hc, hs]
    simp
  | br a _ ih => rw [renameFakeSpansL, renameFakeSpans, ih, if_neg (by rintro ⟨h, -⟩; exact absurd h (by decide)), renameFakeSpansL]

theorem rename_code {T : NameTables} (hs : T.isBlock b!"span" = false) (ht : T.isBlock b!"#text" = false) (hbr : T.isBlock b!"br" = false) (hw : Good w) :
    FCut w b!"pre" a CodeKind CodeKind (renameFakeSpans T) := by
  refine code_fcut (fun _ => renameFakeSpansL T) (fun n => n ≠ b!"span") ?_ ?_ (fun x hx => (hw x hx).span) (by decide) ?_ ?_
  · intro _; rfl
  · intro _ cs hc
    rw [hc.id (T := renameFakeSpansL T) (U := renameFakeSpansL T) (fun _ => pl_rename hs ht hbr) (fun _ => pl_rename hs ht hbr) fun b ds _ => by
      rw [renameFakeSpansL, renameFakeSpans, if_neg (by rintro ⟨h, -⟩; exact absurd h (by decide)), renameFakeSpansL]]
    exact hc
  · intro _ n hn a cs A B
    induction A with
    | nil => simp [renameFakeSpansL, renameFakeSpans, hn]
    | cons n A ih => simp [renameFakeSpansL, ih]
  · intro cs; rw [renameFakeSpans]

theorem pl_redundant {same : Bytes → Bytes → Bool} (hs : same b!"span" b!"span" = false) (hbr : same b!"br" b!"br" = false) {cs : List Node} (h : Pl cs) : ∀ anc, removeRedundantL same anc cs = cs := by
  induction h with
  | nil => intro _; rfl
  | text d _ ih => intro anc; rw [removeRedundantL, removeRedundantIn, ih]; rfl
  | span a _ _ ih1 ih2 =>
    intro anc
    rw [removeRedundantL, removeRedundantIn, hs, ih2]
    simp [ih1]
  | br a _ ih =>
    intro anc
    rw [removeRedundantL, removeRedundantIn, hbr, ih]
    simp [removeRedundantL]

theorem redundant_code {same : Bytes → Bytes → Bool} (hs : same b!"span" b!"span" = false) (hbr : same b!"br" b!"br" = false) (hc' : same b!"code" b!"code" = false) (hw : ∀ x ∈ w, same x.1 x.1 = false)
    (hr : same b!"pre" b!"pre" = false) : FCut w b!"pre" a CodeKind CodeKind (removeRedundant same) := by
  refine code_fcut (removeRedundantL same) (fun n => same n n = false) ?_ ?_ hw hr ?_ ?_
  · intro _; rfl
  · intro anc cs hc
    rw [hc.id (T := removeRedundantL same anc) (U := removeRedundantL same (b!"code" :: anc)) (fun _ h => pl_redundant hs hbr h _) (fun _ h => pl_redundant hs hbr h _) fun b ds _ => by
      rw [removeRedundantL, removeRedundantIn, hc', removeRedundantL]; simp]
    exact hc
  · intro anc n hn a cs A B
    rw [redundantL_append, removeRedundantL, removeRedundantIn, hn]
    simp
  · intro cs; rw [removeRedundant]

theorem pl_emptyCode {cs : List Node} (h : Pl cs) : removeEmptyCodeL cs = cs := by
  induction h with
  | nil => rfl
  | text d _ ih => rw [removeEmptyCodeL, if_neg (by rintro ⟨h, -⟩; exact absurd h (by rw [Node.name]; decide)), removeEmptyCode, ih]
  | span a _ _ ih1 ih2 => rw [removeEmptyCodeL, if_neg (by rintro ⟨h, -⟩; exact absurd h (by rw [Node.name]; decide)), removeEmptyCode, ih1, ih2]
  | br a _ ih => rw [removeEmptyCodeL, if_neg (by rintro ⟨h, -⟩; exact absurd h (by rw [Node.name]; decide)), removeEmptyCode, ih, removeEmptyCodeL]

theorem pl_hasText {cs : List Node} (h : Pl cs) : hasTextL cs = false → plainCodeL cs = some [] := by
  induction h with
  | nil => intro _; rfl
  | text d _ ih =>
    intro h
    simp only [hasTextL, hasText, Bool.or_eq_false_iff, Bool.not_eq_false', List.isEmpty_iff] at h
    simp [plainCodeL, plainCode, h.1, ih h.2]
  | span a _ _ ih1 ih2 =>
    intro h
    simp only [hasTextL, hasText, Bool.or_eq_false_iff] at h
    simp [plainCodeL, plainCode, ih1 h.1, ih2 h.2]
  | br a _ ih =>
    intro h
    simp only [hasTextL, hasText, Bool.or_eq_false_iff] at h
    simp [plainCodeL, plainCode, ih h.2]

theorem filled_hasText {cs : List Node} (h : Filled cs) : hasTextL cs = true := by
  obtain ⟨h1, c, e, hc⟩ := h
  rcases Bool.eq_false_or_eq_true (hasTextL cs) with h | h
  · exact h
  · rw [pl_hasText h1 h] at e
    exact absurd (Option.some.inj e).symm hc

theorem emptyCode_code (hw : Good w) : FCut w b!"pre" a CodeKind CodeKind removeEmptyCode := by
  refine code_fcut (fun _ => removeEmptyCodeL) (fun n => n ≠ b!"code") ?_ ?_ (fun x hx => (hw x hx).code') (by decide) ?_ ?_
  · intro _; rfl
  · intro _ cs hc
    rw [hc.id (T := removeEmptyCodeL) (U := removeEmptyCodeL) (fun _ => pl_emptyCode) (fun _ => pl_emptyCode) fun b ds hd => by
      rw [removeEmptyCodeL, if_neg (by rintro ⟨-, h⟩; rw [hasText, filled_hasText hd] at h; exact absurd h (by decide)), removeEmptyCode, removeEmptyCodeL]]
    exact hc
  · intro _ n hn a cs A B
    induction A with
    | nil => simp [removeEmptyCodeL, removeEmptyCode, Node.name, hn]
    | cons n A ih =>
      simp only [List.cons_append, removeEmptyCodeL, ih]
      split <;> simp
  · intro cs; rw [removeEmptyCode]

theorem pl_swap {outer inner : Bytes → Bool} (ho : outer b!"span" = false) (hbr : outer b!"br" = false) {cs : List Node} (h : Pl cs) : swapTagsL outer inner cs = cs := by
  induction h with
  | nil => rfl
  | text d _ ih => rw [swapTagsL, swapTags, ih]
  | span a _ _ ih1 ih2 => rw [swapTagsL, swap_elem ho, ih1, ih2]
  | br a _ ih => rw [swapTagsL, swap_elem hbr, ih, swapTagsL]

theorem pl_mem {cs : List Node} (h : Pl cs) : ∀ n a ks, Node.elem n a ks ∈ cs → n = b!"span" ∨ n = b!"br" := by
  induction h with
  | nil => intro n a ks h; simp at h
  | text d _ ih => intro n a ks h; simp only [List.mem_cons, reduceCtorEq, false_or] at h; exact ih n a ks h
  | span b _ _ _ ih2 =>
    intro n a ks h
    simp only [List.mem_cons, Node.elem.injEq] at h
    rcases h with h | h
    · exact .inl h.1
    · exact ih2 n a ks h
  | br b _ ih =>
    intro n a ks h
    simp only [List.mem_cons, Node.elem.injEq] at h
    rcases h with h | h
    · exact .inr h.1
    · exact ih n a ks h

theorem swap_code {outer inner : Bytes → Bool} (ho : outer b!"span" = false) (hi : inner b!"span" = false) (hbr : outer b!"br" = false) (hbi : inner b!"br" = false) (hs : ∀ x ∈ w, outer x.1 = false) (hr : outer b!"pre" = false) :
    FCut w b!"pre" a CodeKind CodeKind (swapTags outer inner) := by
  refine code_fcut (fun _ => swapTagsL outer inner) (fun n => outer n = false) ?_ ?_ hs hr ?_ ?_
  · intro _; rfl
  · intro _ cs hc
    rw [hc.id (T := swapTagsL outer inner) (U := swapTagsL outer inner) (fun _ => pl_swap ho hbr) (fun _ => pl_swap ho hbr) fun b ds hd => by
      rw [swapTagsL, swapTags, swapTagsL]
      split
      · rename_i n' a' ks e
        have hm : Node.elem n' a' ks ∈ ds := (List.mem_filter.1 (by rw [e]; simp : Node.elem n' a' ks ∈ ds.filter fun c => !isEmptyText c)).1
        rcases pl_mem hd.1 _ _ _ hm with h | h
        · rw [h, hi]; simp
        · rw [h, hbi]; simp
      · rfl]
    exact hc
  · intro _ n hn a cs A B
    induction A with
    | nil => simp only [List.nil_append, swapTagsL, swap_elem hn]
    | cons n A ih => simp [swapTagsL, ih]
  · intro cs; rw [swapTags]

theorem pl_leaf {cs : List Node} (h : Pl cs) : ∀ x y, leafAlternativesL x y cs = cs := by
  have hs : getStructure b!"span" = .inline := by decide
  have hbr : getStructure b!"br" = .inline := by decide
  induction h with
  | nil => intro _ _; rfl
  | text d _ ih => intro x y; rw [leafAlternativesL, leafAlternativesIn, ih]; rfl
  | span a _ _ ih1 ih2 =>
    intro x y
    rw [leafAlternativesL, leafAlternativesIn, ih2]
    simp [hs, ih1]
  | br a _ ih =>
    intro x y
    rw [leafAlternativesL, leafAlternativesIn, ih]
    simp [hbr, leafAlternativesL]

theorem leaf_code (hw : Good w) : FCut w b!"pre" a CodeKind CodeKind leafAlternatives := by
  intro cs hc
  refine ⟨cs, hc, ?_⟩
  have e : ∀ x y, leafAlternativesL x y cs = cs := fun x y => hc.id (T := leafAlternativesL x y) (U := leafAlternativesL x true) (fun _ h => pl_leaf h _ _) (fun _ h => pl_leaf h _ _) fun b ds _ => by
    have hs : getStructure b!"code" = .inline := by decide
    rw [leafAlternativesL, leafAlternativesIn, leafAlternativesL]
    simp [hs]
  refine tcut_of' (s' := fun _ => .elem b!"pre" a cs) (fun _ => leafAlternativesL false false)
    (fun n => getStructure n ≠ .leaf ∧ getStructure n ≠ .inline) ?_ (fun x hx => (hw x hx).struct) ?_ ?_ ?_
  · intro _; rfl
  · intro _ A B
    rw [leafL_append, leafAlternativesL, leafAlternativesIn]
    simp [e]
  · intro _ n hn a cs A B
    rw [leafL_append, leafAlternativesL, leafAlternativesIn]
    simp [hn.1, hn.2]
  · intro cs; rw [leafAlternatives, leafAlternativesIn]; rfl

theorem pl_move {cs : List Node} (h : Pl cs) : moveListItemsL cs = cs := by
  induction h with
  | nil => rfl
  | text d _ ih => rw [moveListItemsL, moveListItems, ih]
  | span a _ _ ih1 ih2 =>
    rw [moveListItemsL, moveListItems, ih1, ih2]
    simp
  | br a _ ih =>
    rw [moveListItemsL, moveListItems, ih]
    simp [moveListItemsL]

theorem move_code (hw : Good w) : FCut w b!"pre" a CodeKind CodeKind moveListItems := by
  refine code_fcut (fun _ => moveListItemsL) (fun n => isListName n = false) ?_ ?_ (fun x hx => (hw x hx).list) (by decide) ?_ ?_
  · intro _; rfl
  · intro _ cs hc
    rw [hc.id (T := moveListItemsL) (U := moveListItemsL) (fun _ => pl_move) (fun _ => pl_move) fun b ds _ => by
      rw [moveListItemsL, moveListItems, moveListItemsL]; simp]
    exact hc
  · intro _ n hl a cs A B
    simp only [isListName, decide_eq_false_iff_not, not_or] at hl
    induction A with
    | nil => simp [moveListItemsL, moveListItems, hl]
    | cons n A ih => simp [moveListItemsL, ih]
  · intro cs; rw [moveListItems]

theorem pl_adjacent {k : Bytes → Bool} (ht : k b!"#text" = false) (hs : k b!"span" = false) (hbr : k b!"br" = false) {cs : List Node} (h : Pl cs) :
    ∀ fs, mergeAdjacentF k (cs :: fs) = cs :: mergeAdjacentF k fs := by
  induction h with
  | nil => intro fs; rw [mergeAdjacentF]
  | text d _ ih =>
    intro fs
    rw [mergeAdjacentF, mergeStep, if_neg (by simp [Node.name, ht])]
    simp only [Node.children]
    rw [mergeAdjacentF, ih]
    rfl
  | span a _ _ ih1 ih2 =>
    intro fs
    rw [mergeAdjacentF, mergeStep, if_neg (by simp [Node.name, hs])]
    simp only [Node.children]
    rw [ih1, ih2]
    rfl
  | br a _ ih =>
    intro fs
    rw [mergeAdjacentF, mergeStep, if_neg (by simp [Node.name, hbr])]
    simp only [Node.children]
    rw [mergeAdjacentF, ih]
    rfl

theorem merge_code {k : Bytes → Bool} (ht : k b!"#text" = false) (hs : k b!"span" = false) (hbr : k b!"br" = false) {cs : List Node} (h : CodeKind cs) (fs : List (List Node)) :
    mergeAdjacentF k (cs :: fs) = cs :: mergeAdjacentF k fs := by
  rcases h with h | ⟨b, ds, rfl, h⟩
  · exact pl_adjacent ht hs hbr h.1 fs
  · rw [mergeAdjacentF, mergeStep, if_neg (by simp)]
    simp only [Node.children]
    rw [pl_adjacent ht hs hbr h.1, mergeAdjacentF]
    rfl

theorem adjacent_code {k : Bytes → Bool} (ht : k b!"#text" = false) (hsp : k b!"span" = false) (hbr : k b!"br" = false) (hs : ∀ x ∈ w, x.1 ≠ b!"span" ∧ k x.1 = false) (hd : k b!"#document" = false)
    (hr : k b!"pre" = false) : FCut w b!"pre" a CodeKind CodeKind (mergeAdjacent k) := fun cs hc =>
  ⟨cs, hc, adjacent_tcut' hs hd (by decide) hr (merge_code ht hsp hbr hc)⟩

/-! ## The walk -/

/-- Beginnings and ends of other elements. -/
def Quiet (outer : Bytes → Bool) (es : List Ev) : Prop := ∀ n, .op n ∈ es ∨ .cl n ∈ es → outer n = false

theorem pl_quiet {outer : Bytes → Bool} (hs : outer b!"span" = false) (hbr : outer b!"br" = false) {cs : List Node} (h : Pl cs) : Quiet outer (eventsL cs) := by
  induction h with
  | nil => intro n h; simp [eventsL] at h
  | text d _ ih => intro n h; simp only [eventsL, events, List.singleton_append, List.mem_cons, reduceCtorEq, false_or] at h; exact ih n h
  | span a _ _ ih1 ih2 =>
    intro n h
    simp only [eventsL, events, List.cons_append, List.append_assoc, List.mem_cons, List.mem_append, List.mem_singleton, List.nil_append, Ev.op.injEq, Ev.cl.injEq, reduceCtorEq, false_or] at h
    rcases h with (h | h | h) | (h | h | h)
    · rw [h]; exact hs
    · exact ih1 n (.inl h)
    · exact ih2 n (.inl h)
    · exact ih1 n (.inr h)
    · rw [h]; exact hs
    · exact ih2 n (.inr h)
  | br a _ ih =>
    intro n h
    simp only [eventsL, events, List.cons_append, List.append_assoc, List.mem_cons, List.mem_append, List.mem_singleton, List.nil_append, Ev.op.injEq, Ev.cl.injEq, reduceCtorEq, false_or] at h
    rcases h with (h | h) | (h | h)
    · rw [h]; exact hbr
    · exact ih n (.inl h)
    · rw [h]; exact hbr
    · exact ih n (.inr h)

theorem code_quiet {outer : Bytes → Bool} (hs : outer b!"span" = false) (hbr : outer b!"br" = false) (hc' : outer b!"code" = false) {cs : List Node} (h : CodeKind cs) : Quiet outer (eventsL cs) := by
  rcases h with h | ⟨b, ds, rfl, h⟩
  · exact pl_quiet hs hbr h.1
  · intro n hn
    simp only [eventsL, events, List.cons_append, List.append_assoc, List.mem_cons, List.mem_append, List.mem_singleton, List.nil_append, List.append_nil, List.not_mem_nil, Ev.op.injEq, Ev.cl.injEq, reduceCtorEq, false_or, or_false] at hn
    rcases hn with (hn | hn) | (hn | hn)
    · rw [hn]; exact hc'
    · exact pl_quiet hs hbr h.1 n (.inl hn)
    · exact pl_quiet hs hbr h.1 n (.inr hn)
    · rw [hn]; exact hc'

theorem quiet_added {outer inner : Bytes → Bool} (Q : List Ev) : ∀ (es : List Ev), Quiet outer es → ∀ before k,
    addedSpaces outer inner before k (es ++ Q) = addedSpaces outer inner (es.reverse ++ before) (k + evTexts es) Q := by
  intro es
  induction es with
  | nil => intro _ before k; rfl
  | cons e es ih =>
    intro h before k
    have hk : (if e = .text then k + 1 else k) + evTexts es = k + evTexts (e :: es) := by
      by_cases he : e = .text
      · simp [he, evTexts]; omega
      · simp [he, evTexts]
    have h' : Quiet outer es := fun n hn => h n (hn.imp (List.mem_cons_of_mem _) (List.mem_cons_of_mem _))
    rw [List.cons_append, added_cons, ih h', hk]
    simp only [List.reverse_cons, List.append_assoc, List.singleton_append]
    cases e with
    | op n => simp [h n (.inl (by simp))]
    | cl n => simp [h n (.inr (by simp))]
    | text => rfl
    | comment d => rfl

theorem mapTexts_id {f : Nat → Bytes → Bytes} (h : ∀ k d, f k d = d) : (∀ n : Node, ∀ k, (mapTexts f k n).1 = n) ∧ (∀ ns : List Node, ∀ k, (mapTextsL f k ns).1 = ns) := by
  refine Dom.induct ?_ ?_ ?_ ?_ ?_ ?_ ?_
  · intro d k; simp [mapTexts, h]
  · intro d k; simp [mapTexts]
  · intro d k; simp [mapTexts]
  · intro cs ih k; simp [mapTexts, ih]
  · intro n a cs ih k; simp [mapTexts, ih]
  · intro k; rfl
  · intro n ns ih1 ih2 k; simp [mapTextsL, ih1, ih2]

theorem space_code {outer inner : Bytes → Bool} (hs : outer b!"span" = false) (hbr : outer b!"br" = false) (hc' : outer b!"code" = false) (ho : outer b!"pre" = false) :
    FCut w b!"pre" a CodeKind CodeKind (addSpace outer inner) := by
  intro cs hc
  have h := space_tcut' (w := w) (a := a) (sn := b!"pre") (cs := cs) (outer := outer) (inner := inner) (by decide) ho ([], []) (by
    intro before k Q
    rw [quiet_added _ _ (code_quiet hs hbr hc' hc), added_cl (by decide) ho]
    simp) (by simp)
  rw [(mapTexts_id (f := spaces ([], [])) (fun k d => by simp [spaces])).2] at h
  exact ⟨cs, hc, h⟩

theorem pl_listEnd {cs : List Node} (h : Pl cs) : ∀ after, addListEndL after cs = cs := by
  have h1 : isListName b!"span" = false := by decide
  have h2 : isListName b!"#text" = false := by decide
  have h3 : isListName b!"br" = false := by decide
  induction h with
  | nil => intro _; rfl
  | text d _ ih => intro after; simp only [addListEndL, addListEndIn, Node.name, h2, Bool.false_and, Bool.false_eq_true, if_false, ih]
  | span a _ _ ih1 ih2 => intro after; simp only [addListEndL, addListEndIn, Node.name, h1, Bool.false_and, Bool.false_eq_true, if_false, ih1, ih2]
  | br a _ ih => intro after; simp only [addListEndL, addListEndIn, Node.name, h3, Bool.false_and, Bool.false_eq_true, if_false, ih]

theorem filled_events {cs : List Node} (h : Filled cs) : Ev.text ∈ eventsL cs := by
  obtain ⟨h1, c, e, hc⟩ := h
  have key : ∀ {cs : List Node}, Pl cs → .text ∈ eventsL cs ∨ plainCodeL cs = some [] := by
    intro cs h
    induction h with
    | nil => right; rfl
    | text d _ ih => left; simp [eventsL, events]
    | @span a ks ns _ _ ih1 ih2 =>
      rcases ih1 with h | h
      · left; simp [eventsL, events, h]
      · rcases ih2 with h' | h'
        · left; simp [eventsL, events, h']
        · right; simp [plainCodeL, plainCode, h, h']
    | @br a ns _ ih =>
      rcases ih with h | h
      · left; simp [eventsL, events, h]
      · right; simp [plainCodeL, plainCode, h]
  rcases key h1 with h | h
  · exact h
  · rw [h] at e
    exact absurd (Option.some.inj e).symm hc

theorem code_events {cs : List Node} (h : CodeKind cs) : Ev.text ∈ eventsL cs := by
  rcases h with h | ⟨b, ds, rfl, h⟩
  · exact filled_events h
  · simp [eventsL, events, filled_events h]

theorem listEnd_code (hw : Good w) : FCut w b!"pre" a CodeKind CodeKind addListEndComments := by
  intro cs hc
  refine ⟨cs, hc, ?_⟩
  obtain ⟨es, rest, he⟩ := List.append_of_mem (code_events hc)
  have e : ∀ after, addListEndL after cs = cs := fun after => hc.id (T := addListEndL after) (U := addListEndL (.cl b!"code" :: after)) (fun _ h => pl_listEnd h _) (fun _ h => pl_listEnd h _) fun b ds _ => by
    have h1 : isListName b!"code" = false := by decide
    simp only [addListEndL, addListEndIn, Node.name, h1, Bool.false_and, Bool.false_eq_true, if_false, eventsL, List.nil_append]
  refine listEnd_tcut' hw (es := .op b!"pre" :: es) (x := .text) (rest := rest ++ [.cl b!"pre"]) (.inr rfl) (by simp [events, he]) fun after B => ?_
  have hl := pre_name.list
  simp only [addListEndL, addListEndIn, Node.name, hl, Bool.false_and, Bool.false_eq_true, if_false, e]

/-! ## All steps -/

theorem code_cuts {E : Render.Env} (hw : Good w) (hb : E.tables.isBlock b!"pre" = true) (hs : E.tables.isBlock b!"span" = false) (ht : E.tables.isBlock b!"#text" = false)
    (hbr : E.tables.isBlock b!"br" = false) : Cuts E w b!"pre" a CodeKind CodeKind where
  name := pre_name
  remove := remove_code hw
  rename := rename_code hs ht hbr hw
  redundant := by
    have bb' : ∀ n, isBoldOrItalic n = false → bothBoldOrItalic n n = false := by
      intro n h
      simp only [isBoldOrItalic, Bool.or_eq_false_iff] at h
      simp [bothBoldOrItalic, h.1, h.2]
    intro same hs
    simp only [List.mem_cons, List.not_mem_nil, or_false] at hs
    rcases hs with rfl | rfl | rfl
    · exact redundant_code (by decide) (by decide) (by decide) (fun x hx => bb' _ (hw x hx).bold) (by decide)
    · exact redundant_code (by decide) (by decide) (by decide) (fun x hx => by simp [bothLink, (hw x hx).link]) (by decide)
    · exact redundant_code (by decide) (by decide) (by decide) (fun x hx => by simp [Render.bothStrike, (hw x hx).strike]) (by decide)
  adjacent := by
    intro k hk
    simp only [List.mem_cons, List.not_mem_nil, or_false] at hk
    rcases hk with rfl | rfl | rfl
    · exact adjacent_code (by decide) (by decide) (by decide) (fun x hx => ⟨(hw x hx).span, (hw x hx).bold⟩) (by decide) (by decide)
    · exact adjacent_code (by decide) (by decide) (by decide) (fun x hx => ⟨(hw x hx).span, (hw x hx).code⟩) (by decide) (by decide)
    · exact adjacent_code (by decide) (by decide) (by decide) (fun x hx => ⟨(hw x hx).span, (hw x hx).strike⟩) (by decide) (by decide)
  merge := by
    intro k hk cs hc
    simp only [List.mem_cons, List.not_mem_nil, or_false] at hk
    rcases hk with rfl | rfl | rfl <;> exact ⟨cs, merge_code (by decide) (by decide) (by decide) hc⟩
  emptyCode := emptyCode_code hw
  swap := by
    intro p ho
    simp only [List.mem_cons, List.not_mem_nil, or_false] at ho
    rcases ho with rfl | rfl | rfl
    · exact swap_code (by decide) (by decide) (by decide) (by decide) (fun x hx => (hw x hx).code) (by decide)
    · exact swap_code (by decide) (by decide) (by decide) (by decide) (fun x hx => (hw x hx).bold) (by decide)
    · exact swap_code (by decide) (by decide) (by decide) (by decide) (fun x hx => (hw x hx).link) (by decide)
  space := space_code (by decide) (by decide) (by decide) (by decide)
  leaf := leaf_code hw
  move := move_code hw
  collapse := by
    intro cs hc
    refine ⟨cs, hc, collapse_pre ?_ rfl ?_ rfl cs⟩
    · intro x hx
      have h := hw x hx
      simp [Collapse.baseFuncs, h.pre, h.code']
    · show (!Render.isRemoved b!"pre" && E.tables.isBlock b!"pre") = true
      rw [hb, pre_name.kept]; rfl
  listEnd := listEnd_code hw

/-- Rules have no content. -/
theorem rule_cuts {E : Render.Env} (hw : Good w) (hb : E.tables.isBlock b!"hr" = true) : Cuts E w b!"hr" a (fun cs => cs = []) (fun cs => cs = []) := by
  have hn : SepName b!"hr" := sepName_of (by decide)
  have mk : ∀ {f : Node → Node}, TCut w (sep b!"hr" a none) (sep b!"hr" a none) f → FCut w b!"hr" a (fun cs => cs = []) (fun cs => cs = []) f := by
    rintro f h cs rfl
    exact ⟨[], rfl, h⟩
  have bb' : ∀ n, isBoldOrItalic n = false → bothBoldOrItalic n n = false := by
    intro n h
    simp only [isBoldOrItalic, Bool.or_eq_false_iff] at h
    simp [bothBoldOrItalic, h.1, h.2]
  constructor
  · exact hn.toCutName
  · exact mk (remove_tcut hw hn)
  · exact mk (rename_tcut _ hw hn)
  · intro same hs
    simp only [List.mem_cons, List.not_mem_nil, or_false] at hs
    rcases hs with rfl | rfl | rfl
    · exact mk (redundant_tcut (fun x hx => bb' _ (hw x hx).bold) (by decide))
    · exact mk (redundant_tcut (fun x hx => by simp [bothLink, (hw x hx).link]) (by decide))
    · exact mk (redundant_tcut (fun x hx => by simp [Render.bothStrike, (hw x hx).strike]) (by decide))
  · intro k hk
    simp only [List.mem_cons, List.not_mem_nil, or_false] at hk
    rcases hk with rfl | rfl | rfl
    · exact mk (adjacent_tcut (fun x hx => ⟨(hw x hx).span, (hw x hx).bold⟩) (by decide) (by decide) (by decide) (by decide))
    · exact mk (adjacent_tcut (fun x hx => ⟨(hw x hx).span, (hw x hx).code⟩) (by decide) (by decide) (by decide) (by decide))
    · exact mk (adjacent_tcut (fun x hx => ⟨(hw x hx).span, (hw x hx).strike⟩) (by decide) (by decide) (by decide) (by decide))
  · rintro k - cs rfl
    exact ⟨[], fun fs => by rw [mergeAdjacentF]⟩
  · exact mk (emptyCode_tcut hw hn)
  · intro p ho
    simp only [List.mem_cons, List.not_mem_nil, or_false] at ho
    rcases ho with rfl | rfl | rfl
    · exact mk (swap_tcut (fun x hx => (hw x hx).code) (by decide))
    · exact mk (swap_tcut (fun x hx => (hw x hx).bold) (by decide))
    · exact mk (swap_tcut (fun x hx => (hw x hx).link) (by decide))
  · exact mk (space_tcut (by decide) (by decide))
  · exact mk (leaf_tcut hw)
  · exact mk (move_tcut hw hn)
  · refine mk (collapse_tcut ?_ rfl ?_ ?_ (by simp))
    · intro x hx
      have h := hw x hx
      simp [Collapse.baseFuncs, h.pre, h.code']
    · show (!Render.isRemoved b!"hr" && E.tables.isBlock b!"hr") = true
      rw [hb, hn.kept]; rfl
    · rfl
  · exact mk (listEnd_tcut hw hn (.inl rfl))

end

end Verif.Cut
