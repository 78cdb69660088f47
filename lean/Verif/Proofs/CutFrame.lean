import Verif.Spec.BlockSections
import Verif.Proofs.CutTree
import Verif.Proofs.CutBytes
import Verif.Proofs.CharsOps
/-!
# A paragraph cuts the tree

A block whose content begins and ends with a text: what is inside of it, what is before it and what is behind it do not see each other.
-/
set_option linter.unusedSimpArgs false

namespace Verif.Cut
open Verif Verif.Spec Verif.DomUtils Verif.Dom

/-- What is known of the first and of the last text. -/
structure Ends where
  first : Bytes → Prop
  last : Bytes → Prop

/-- The content begins with a text (with something in it) and ends with a text with the property `Q`. -/
def Frame (Q : Ends) (cs : List Node) : Prop :=
  (∃ d x, cs = .text d :: x ∧ Q.first d) ∧ (∃ y d, cs = y ++ [.text d] ∧ Q.last d)

/-- Added spaces and other texts before it make no difference. -/
structure Robust (Q : Ends) : Prop where
  front : ∀ x d, Q.last d → Q.last (x ++ d)
  spaces : ∀ d k, Q.last d → Q.last (d ++ List.replicate k SP)
  back : ∀ d x, Q.first d → Q.first (d ++ x)
  indent : ∀ k d, Q.first d → Q.first (List.replicate k SP ++ d)

/-- The step keeps such blocks. -/
def FCut (w : Outer) (sn : Bytes) (a : List (Bytes × Bytes)) (C C' : List Node → Prop) (f : Node → Node) : Prop :=
  ∀ cs, C cs → ∃ cs', C' cs' ∧ TCut w (.elem sn a cs) (.elem sn a cs') f

variable {w : Outer} {sn : Bytes} {a : List (Bytes × Bytes)} {Q : Ends} {C : List Node → Prop}

theorem FCut.comp {C C' C'' : List Node → Prop} {f g : Node → Node} (hg : FCut w sn a C' C'' g) (hf : FCut w sn a C C' f) : FCut w sn a C C'' (fun n => g (f n)) := by
  intro cs h
  obtain ⟨cs', h', t⟩ := hf cs h
  obtain ⟨cs'', h'', t'⟩ := hg cs' h'
  exact ⟨cs'', h'', t'.comp t⟩

theorem FCut.id : FCut w sn a C C (fun n => n) := fun cs h => ⟨cs, h, TCut.id⟩

/-- Steps that do not change texts. -/
theorem Frame.hom {T : List Node → List Node} (ht : ∀ d, T [.text d] = [.text d]) (h : ∀ A B, T (A ++ B) = T A ++ T B) {cs : List Node} (hc : Frame Q cs) : Frame Q (T cs) := by
  obtain ⟨⟨d, x, e, hd⟩, ⟨y, d', e', hd'⟩⟩ := hc
  refine ⟨⟨d, T x, ?_, hd⟩, ⟨T y, d', ?_, hd'⟩⟩
  · rw [e, ← List.singleton_append, h, ht]; rfl
  · rw [e', h, ht]

theorem fcut_of {f : Node → Node} (T : List Bytes → List Node → List Node) (P : Bytes → Prop) (h0 : ∀ anc, T anc [] = [])
    (hT : ∀ anc cs, C cs → C (T anc cs)) (hw : ∀ x ∈ w, P x.1) (hn : P sn)
    (h : ∀ anc n, P n → ∀ a cs A B, T anc (A ++ .elem n a cs :: B) = T anc A ++ .elem n a (T (n :: anc) cs) :: T anc B)
    (hdoc : ∀ cs, f (.document cs) = .document (T [b!"#document"] cs)) : FCut w sn a C C f := fun cs hc =>
  ⟨T (sn :: names [b!"#document"] w) cs, hT _ cs hc, tcut_of' (s' := fun anc => .elem sn a (T (sn :: anc) cs)) T P h0 hw (fun anc A B => h anc sn hn a cs A B) h hdoc⟩

theorem mergeTextGo_last (d : Bytes) : ∀ (y : List Node) (p : Option Bytes), ∃ y' q, mergeTextGo p (y ++ [.text d]) = y' ++ [.text (q ++ d)] := by
  intro y
  induction y with
  | nil =>
    intro p
    cases p with
    | none => exact ⟨[], [], by simp [mergeTextGo, flush]⟩
    | some p => exact ⟨[], p, by simp [mergeTextGo, flush]⟩
  | cons n y ih =>
    intro p
    cases n with
    | text e =>
      cases p with
      | none => simpa [mergeTextGo] using ih (some e)
      | some p => simpa [mergeTextGo] using ih (some (p ++ e))
    | comment e => obtain ⟨y', q, h⟩ := ih none; exact ⟨flush p ++ .comment e :: y', q, by cases p <;> simp [mergeTextGo, h]⟩
    | doctype e => obtain ⟨y', q, h⟩ := ih none; exact ⟨flush p ++ .doctype e :: y', q, by cases p <;> simp [mergeTextGo, h]⟩
    | document ks => obtain ⟨y', q, h⟩ := ih none; exact ⟨flush p ++ mergeText (.document ks) :: y', q, by cases p <;> simp [mergeTextGo, h]⟩
    | elem n b ks => obtain ⟨y', q, h⟩ := ih none; exact ⟨flush p ++ mergeText (.elem n b ks) :: y', q, by cases p <;> simp [mergeTextGo, h]⟩

theorem mergeTextGo_first : ∀ (x : List Node) (d : Bytes), ∃ q x', mergeTextGo (some d) x = .text (d ++ q) :: x' := by
  intro x
  induction x with
  | nil => intro d; exact ⟨[], [], by simp [mergeTextGo, flush]⟩
  | cons n x ih =>
    intro d
    cases n with
    | text e =>
      obtain ⟨q, x', h⟩ := ih (d ++ e)
      exact ⟨e ++ q, x', by rw [mergeTextGo, h, List.append_assoc]⟩
    | comment e => exact ⟨[], _, by simp only [mergeTextGo, flush, List.append_nil, List.singleton_append]; rfl⟩
    | doctype e => exact ⟨[], _, by simp only [mergeTextGo, flush, List.append_nil, List.singleton_append]; rfl⟩
    | document ks => exact ⟨[], _, by simp only [mergeTextGo, flush, List.append_nil, List.singleton_append]; rfl⟩
    | elem n b ks => exact ⟨[], _, by simp only [mergeTextGo, flush, List.append_nil, List.singleton_append]; rfl⟩

theorem remove_fcut (hQ : Robust Q) (hw : Good w) (hn : SepName sn) : FCut w sn a (Frame Q) (Frame Q) (preRenderRemove Render.isRemoved) := by
  refine fcut_of (fun _ cs => mergeTextGo none (removeInL Render.isRemoved cs)) (fun n => Render.isRemoved n = false) ?_ ?_ (fun x hx => (hw x hx).kept) hn.kept ?_ ?_
  · intro _; rfl
  · intro _ cs hc
    have ht : ∀ d, removeInL Render.isRemoved [.text d] = [.text d] := by
      intro d
      have h : Render.isRemoved (Node.text d).name = false := by rw [Node.name]; decide
      simp [removeInL, h, removeIn]
    obtain ⟨⟨d, x, e, hd⟩, ⟨y, d', e', hd'⟩⟩ := hc.hom ht (removeInL_append _)
    constructor
    · obtain ⟨q, x', h⟩ := mergeTextGo_first x d
      exact ⟨d ++ q, x', by rw [e, mergeTextGo, h], hQ.back d q hd⟩
    · obtain ⟨y', q, h⟩ := mergeTextGo_last d' y none
      exact ⟨y', q ++ d', by rw [e', h], hQ.front q d' hd'⟩
  · intro _ n hn a cs A B
    rw [removeInL_append, removeInL, if_neg (show ¬ Render.isRemoved (Node.elem n a cs).name = true from by rw [Node.name, hn]; simp), removeIn, mergeTextGo_elem]
  · intro cs
    rw [preRenderRemove, if_neg (show ¬ Render.isRemoved (Node.document cs).name = true from by rw [Node.name]; decide), removeIn, mergeText]

theorem rename_fcut (T : NameTables) (hw : Good w) (hn : SepName sn) : FCut w sn a (Frame Q) (Frame Q) (renameFakeSpans T) := by
  refine fcut_of (fun _ => renameFakeSpansL T) (fun n => n ≠ b!"span") ?_ ?_ (fun x hx => (hw x hx).span) hn.span ?_ ?_
  · intro _; rfl
  · intro _ cs hc
    refine hc.hom (fun d => rfl) fun A B => ?_
    induction A with
    | nil => rfl
    | cons n A ih => simp [renameFakeSpansL, ih]
  · intro _ n hn a cs A B
    induction A with
    | nil => simp [renameFakeSpansL, renameFakeSpans, hn]
    | cons n A ih => simp [renameFakeSpansL, ih]
  · intro cs; rw [renameFakeSpans]

theorem redundant_fcut {same : Bytes → Bytes → Bool} (hs : ∀ x ∈ w, same x.1 x.1 = false) (hr : same sn sn = false) :
    FCut w sn a (Frame Q) (Frame Q) (removeRedundant same) := by
  refine fcut_of (removeRedundantL same) (fun n => same n n = false) ?_ ?_ hs hr ?_ ?_
  · intro _; rfl
  · intro anc cs hc
    exact hc.hom (fun d => by simp [removeRedundantL, removeRedundantIn]) (redundantL_append same anc)
  · intro anc n hn a cs A B
    rw [redundantL_append, removeRedundantL, removeRedundantIn, hn]
    simp
  · intro cs; rw [removeRedundant]

theorem emptyCode_fcut (hw : Good w) (hn : SepName sn) : FCut w sn a (Frame Q) (Frame Q) removeEmptyCode := by
  refine fcut_of (fun _ => removeEmptyCodeL) (fun n => n ≠ b!"code") ?_ ?_ (fun x hx => (hw x hx).code') hn.code' ?_ ?_
  · intro _; rfl
  · intro _ cs hc
    refine hc.hom (fun d => by simp [removeEmptyCodeL, removeEmptyCode, Node.name]) fun A B => ?_
    induction A with
    | nil => rfl
    | cons n A ih =>
      simp only [List.cons_append, removeEmptyCodeL, ih]
      split <;> simp
  · intro _ n hn a cs A B
    induction A with
    | nil => simp [removeEmptyCodeL, removeEmptyCode, Node.name, hn]
    | cons n A ih =>
      simp only [List.cons_append, removeEmptyCodeL, ih]
      split <;> simp
  · intro cs; rw [removeEmptyCode]

theorem swap_fcut {outer inner : Bytes → Bool} (hs : ∀ x ∈ w, outer x.1 = false) (hr : outer sn = false) :
    FCut w sn a (Frame Q) (Frame Q) (swapTags outer inner) := by
  refine fcut_of (fun _ => swapTagsL outer inner) (fun n => outer n = false) ?_ ?_ hs hr ?_ ?_
  · intro _; rfl
  · intro _ cs hc
    refine hc.hom (fun d => rfl) fun A B => ?_
    induction A with
    | nil => rfl
    | cons n A ih => simp [swapTagsL, ih]
  · intro _ n hn a cs A B
    induction A with
    | nil => simp only [List.nil_append, swapTagsL, swap_elem hn]
    | cons n A ih => simp [swapTagsL, ih]
  · intro cs; rw [swapTags]

theorem leaf_fcut (hw : Good w) : FCut w sn a (Frame Q) (Frame Q) leafAlternatives := by
  intro cs hc
  refine ⟨leafAlternativesL (getStructure sn = .leaf) (getStructure sn = .inline) cs, ?_, ?_⟩
  · refine hc.hom (fun d => by simp [leafAlternativesL, leafAlternativesIn]) fun A B => ?_
    induction A with
    | nil => rfl
    | cons n A ih => simp [leafAlternativesL, ih]
  · refine tcut_of' (s' := fun _ => .elem sn a (leafAlternativesL (getStructure sn = .leaf) (getStructure sn = .inline) cs)) (fun _ => leafAlternativesL false false)
      (fun n => getStructure n ≠ .leaf ∧ getStructure n ≠ .inline) ?_ (fun x hx => (hw x hx).struct) ?_ ?_ ?_
    · intro _; rfl
    · intro _ A B
      rw [leafL_append, leafAlternativesL, leafAlternativesIn]
      simp
    · intro _ n hn a cs A B
      rw [leafL_append, leafAlternativesL, leafAlternativesIn]
      simp [hn.1, hn.2]
    · intro cs; rw [leafAlternatives, leafAlternativesIn]; rfl

theorem move_fcut (hw : Good w) (hn : SepName sn) : FCut w sn a (Frame Q) (Frame Q) moveListItems := by
  refine fcut_of (fun _ => moveListItemsL) (fun n => isListName n = false) ?_ ?_ (fun x hx => (hw x hx).list) hn.list ?_ ?_
  · intro _; rfl
  · intro _ cs hc
    refine hc.hom (fun d => rfl) fun A B => ?_
    induction A with
    | nil => rfl
    | cons n A ih => simp [moveListItemsL, ih]
  · intro _ n hl a cs A B
    simp only [isListName, decide_eq_false_iff_not, not_or] at hl
    induction A with
    | nil => simp [moveListItemsL, moveListItems, hl]
    | cons n A ih => simp [moveListItemsL, ih]
  · intro cs; rw [moveListItems]

/-! ## Merging of adjacent elements -/

theorem adjacent_fcut {m : Bytes → Bool} (hs : ∀ x ∈ w, x.1 ≠ b!"span" ∧ m x.1 = false) (hd : m b!"#document" = false) (ht : m b!"#text" = false)
    (hsp : sn ≠ b!"span") (hr : m sn = false) : FCut w sn a (Frame Q) (Frame Q) (mergeAdjacent m) := by
  intro cs hc
  obtain ⟨⟨d, x, e, hd1⟩, ⟨y, d', e', hd'⟩⟩ := hc
  have h1 : ∀ fs, mergeAdjacentF m (cs :: fs) = ((mergeAdjacentF m [y]).headD [] ++ [.text d']) :: mergeAdjacentF m fs := by
    intro fs
    have h0 : mergeAdjacentF m ([.text d'] :: fs) = [.text d'] :: mergeAdjacentF m fs := merge_texts m ht (some d') fs
    have := merge_add (show collectNode m (.text d') = _ from rfl) [] h0 [y] (by simp)
    rw [merge_one, addLast, addLast] at this
    rw [e']
    exact this
  refine ⟨_, ⟨?_, ⟨_, d', rfl, hd'⟩⟩, adjacent_tcut' hs hd hsp hr h1⟩
  have h2 : ∃ z, mergeAdjacentF m [.text d :: x] = [.text d :: z] := by
    have hl := mergeAdjacentF_length m [x]
    rcases hg : mergeAdjacentF m [x] with _ | ⟨z, _ | ⟨z', zs⟩⟩
    · rw [hg] at hl; simp at hl
    · refine ⟨z, ?_⟩
      rw [mergeAdjacentF, mergeStep, if_neg (by simp [Node.name, ht])]
      simp only [Node.children]
      rw [mergeAdjacentF, hg]
      rfl
    · rw [hg] at hl; simp at hl
  obtain ⟨z, h2⟩ := h2
  have h3 := h1 []
  rw [e, h2, mergeAdjacentF] at h3
  exact ⟨d, z, (List.cons.inj h3).1.symm, hd1⟩

/-! ## Comments between lists -/

theorem listEnd_fcut (hw : Good w) (hn : SepName sn) : FCut w sn a (Frame Q) (Frame Q) addListEndComments := by
  intro cs hc
  have htext : ∀ after d, addListEndL after [.text d] = [.text d] := by
    intro after d
    have hl' : isListName b!"#text" = false := by decide
    simp only [addListEndL, addListEndIn, Node.name, hl', Bool.false_and, Bool.false_eq_true, if_false]
  have hfix : ∀ after, addListEndL after cs = addListEndL [] cs := by
    obtain ⟨-, ⟨y, d', e', -⟩⟩ := hc
    intro after
    have h := (addListEnd_rule (x := .text) (.inr rfl) after).2 y []
    rw [e', addListEndL_append, addListEndL_append, htext, htext]
    simp only [eventsL, events, List.nil_append, List.append_nil, List.singleton_append] at h ⊢
    rw [h]
  refine ⟨addListEndL [] cs, ?_, ?_⟩
  · obtain ⟨⟨d, x, e, hd⟩, ⟨y, d', e', hd'⟩⟩ := hc
    constructor
    · refine ⟨d, addListEndL [] x, ?_, hd⟩
      rw [e, ← List.singleton_append, addListEndL_append, htext]; rfl
    · exact ⟨_, d', by rw [e', addListEndL_append, htext], hd'⟩
  · obtain ⟨⟨d, x, e, -⟩, -⟩ := hc
    refine listEnd_tcut' hw (es := [.op sn]) (x := .text) (rest := eventsL x ++ [.cl sn]) (.inr rfl) (by rw [e]; simp [events, eventsL]) fun after B => ?_
    have hl := hn.list
    simp only [addListEndL, addListEndIn, Node.name, hl, Bool.false_and, Bool.false_eq_true, if_false, hfix]

/-! ## Spaces between emphasis and code -/

section
variable {outer inner : Bytes → Bool}

theorem firstGo_text (es rest : List Ev) : firstIsInner.go inner (es ++ .text :: rest) = firstIsInner.go inner (es ++ [.text]) := by
  induction es with
  | nil => simp [firstIsInner.go]
  | cons e es ih => cases e <;> simp only [List.cons_append, firstIsInner.go, ih]

theorem first_text (es rest : List Ev) : firstIsInner inner (es ++ .text :: rest) = firstIsInner inner (es ++ [.text]) := by
  have h := firstGo_text (inner := inner) es rest
  cases es with
  | nil => simpa [firstIsInner] using h
  | cons e es =>
    cases e with
    | cl n => simp [firstIsInner]
    | op n => simpa [firstIsInner] using h
    | text => simpa [firstIsInner] using h
    | comment d => simpa [firstIsInner] using h

theorem lastGo_text (es rest : List Ev) : lastIsInner.go inner (es ++ .text :: rest) = lastIsInner.go inner (es ++ [.text]) := by
  induction es with
  | nil => simp [lastIsInner.go]
  | cons e es ih => cases e <;> simp only [List.cons_append, lastIsInner.go, ih]

theorem last_text (es rest : List Ev) : lastIsInner inner (es ++ .text :: rest) = lastIsInner inner (es ++ [.text]) := by
  have h := lastGo_text (inner := inner) es rest
  cases es with
  | nil => simpa [lastIsInner] using h
  | cons e es =>
    cases e with
    | op n => simp [lastIsInner]
    | cl n => simpa [lastIsInner] using h
    | text => simpa [lastIsInner] using h
    | comment d => simpa [lastIsInner] using h

theorem nextText_text (es rest : List Ev) : nextIsText (es ++ .text :: rest) = nextIsText (es ++ [.text]) := by
  induction es with
  | nil => simp [nextIsText]
  | cons e es ih => cases e <;> simp only [List.cons_append, nextIsText, ih]

theorem prevText_text (es rest : List Ev) : prevIsText (es ++ .text :: rest) = prevIsText (es ++ [.text]) := by
  induction es with
  | nil => simp [prevIsText]
  | cons e es ih => cases e <;> simp only [List.cons_append, prevIsText, ih]

theorem nextIsText_pos (es : List Ev) (h : nextIsText es = true) : 1 ≤ evTexts es := by
  induction es with
  | nil => simp [nextIsText] at h
  | cons e es ih =>
    cases e with
    | cl n => simp only [nextIsText] at h; have := ih h; simpa [evTexts] using this
    | op n =>
      simp only [nextIsText] at h
      split at h
      · have := ih h; simpa [evTexts] using this
      · simp at h
    | text => simp [evTexts]
    | comment d => simp [nextIsText] at h

/-- The part of the walk up to a text. -/
theorem added_split_text (rest : List Ev) : ∀ (es before : List Ev) (k : Nat),
    addedSpaces outer inner before k (es ++ .text :: rest) =
      ((addedSpaces outer inner before k (es ++ [.text])).1 ++ (addedSpaces outer inner (.text :: (es.reverse ++ before)) (k + evTexts es + 1) rest).1,
        (addedSpaces outer inner before k (es ++ [.text])).2 ++ (addedSpaces outer inner (.text :: (es.reverse ++ before)) (k + evTexts es + 1) rest).2) := by
  intro es
  induction es with
  | nil => intro before k; simp [addedSpaces, evTexts]
  | cons e es ih =>
    intro before k
    have h := ih (e :: before) (if e = .text then k + 1 else k)
    have hk : (if e = .text then k + 1 else k) + evTexts es = k + evTexts (e :: es) := by
      by_cases he : e = .text
      · simp [he, evTexts]; omega
      · simp [he, evTexts]
    rw [hk] at h
    rw [List.cons_append, added_cons, List.cons_append, added_cons, h]
    simp only [List.reverse_cons, List.append_assoc, List.singleton_append]
    cases e with
    | op n => simp only [first_text (inner := inner) es rest]; split <;> simp
    | cl n => simp only [nextText_text es rest]; split <;> simp
    | text => simp
    | comment d => simp

/-- What is before a text has no influence behind it. -/
theorem added_forget_text (b : List Ev) : ∀ (rest u : List Ev) (k : Nat),
    addedSpaces outer inner (u ++ .text :: b) k rest = addedSpaces outer inner (u ++ [.text]) k rest := by
  intro rest
  induction rest with
  | nil => intros; rfl
  | cons e rest ih =>
    intro u k
    have h := ih (e :: u) (if e = .text then k + 1 else k)
    simp only [List.cons_append] at h
    rw [added_cons, added_cons, h, prevText_text, last_text]

end

theorem space_fcut {outer inner : Bytes → Bool} (hQ : Robust Q) (hsp : sn ≠ b!"span") (ho : outer sn = false) : FCut w sn a (Frame Q) (Frame Q) (addSpace outer inner) := by
  intro cs hc
  obtain ⟨⟨d, x, e, hd⟩, ⟨y, d', e', hd'⟩⟩ := hc
  have e1 : eventsL cs = .text :: eventsL x := by rw [e]; rfl
  have e2 : eventsL cs = eventsL y ++ [.text] := by rw [e', Dom.eventsL_append]; rfl
  let sM := addedSpaces outer inner [.text] 1 (eventsL x)
  have hfirst : ∀ before k, addedSpaces outer inner before k (eventsL cs) = (sM.1.map (· + k), sM.2.map (· + k)) := by
    intro before k
    have hf := added_forget_text (outer := outer) (inner := inner) before (eventsL x) [] (k + 1)
    simp only [List.nil_append] at hf
    rw [e1, added_cons]
    simp only [if_true]
    rw [hf, Nat.add_comm k 1, added_shift k _ _ 1 (fun _ => Nat.le_refl 1)]
  refine ⟨(mapTextsL (spaces sM) 0 cs).1, ⟨?_, ?_⟩, space_tcut' hsp ho sM ?_ ?_⟩
  · rw [e]
    refine ⟨spaces sM 0 d, _, rfl, ?_⟩
    rw [spaces]
    exact hQ.back _ _ (hQ.indent _ _ hd)
  · rw [e', mapTextsL_append]
    refine ⟨_, _, rfl, ?_⟩
    rw [spaces]
    exact hQ.spaces _ _ (hQ.front _ _ hd')
  · intro before k R
    have h1 := added_split_text (outer := outer) (inner := inner) (.cl sn :: R) (eventsL y) before k
    rw [added_cl hsp ho] at h1
    have h2 : eventsL cs ++ .cl sn :: R = eventsL y ++ .text :: .cl sn :: R := by rw [e2]; simp
    have h3 : k + evTexts (eventsL y) + 1 = k + evTexts (eventsL cs) := by
      rw [e2, evTexts_append]
      have : evTexts [Ev.text] = 1 := rfl
      omega
    rw [h2, h1, ← e2, hfirst, h3]
  · have h4 : evTexts (eventsL cs) = evTexts (eventsL x) + 1 := by rw [e1, evTexts, evTexts, List.countP_cons]; simp
    intro j hj
    rcases hj with hj | hj
    · obtain ⟨X, n, Y, f1, f2, f3, f4, f5⟩ := (added_before outer inner _ _ _ _).mp hj
      have := congrArg evTexts f1
      rw [evTexts_append] at this
      omega
    · obtain ⟨X, n, Y, f1, f2, f3, f4, f5⟩ := (added_after outer inner _ _ _ _).mp hj
      have hp := nextIsText_pos _ f4
      have := congrArg evTexts f1
      rw [evTexts_append, ← List.singleton_append (x := Ev.cl n), evTexts_append] at this
      omega

/-! ## Characters -/

/-- Something that is no white space and begins with the begin of a character. -/
def Sharp (c : Bytes) : Prop := Solid c ∧ ∃ b s, c = b :: s ∧ isCont b = false

theorem ws_char : ∀ w ∈ whitespace, isChar w = true := by decide

theorem Sharp.solid {c : Bytes} (h : Sharp c) (x : Bytes) : Solid (x ++ c) := by
  obtain ⟨hc, b, s, rfl, hb⟩ := h
  refine ⟨by simp, fun w hw hs => ?_⟩
  obtain ⟨q, hq⟩ := hs
  rcases List.append_eq_append_iff.1 hq with ⟨y, h1, h2⟩ | ⟨y, h1, h2⟩
  · cases y with
    | nil => exact hc.2 w hw (by rw [h2]; exact List.suffix_refl _)
    | cons d y =>
      obtain ⟨b', t, e, -, ht, -, -⟩ := Chars.isChar_shape (ws_char w hw)
      rw [h2, List.cons_append, List.cons.injEq] at e
      have := ht b (by rw [← e.2]; simp)
      rw [hb] at this
      exact absurd this (by decide)
  · exact hc.2 w hw ⟨y, h2.symm⟩

theorem sharp_char {c : Bytes} (h : isChar c = true) (hw : c ∉ whitespace) : Sharp c := by
  obtain ⟨b, t, rfl, hb, ht, -, -⟩ := Chars.isChar_shape h
  refine ⟨⟨by simp, fun w hw' hs => ?_⟩, b, t, rfl, hb⟩
  rw [List.suffix_cons_iff] at hs
  rcases hs with hs | hs
  · exact hw (hs ▸ hw')
  · obtain ⟨b', t', e, hb', -⟩ := Chars.isChar_shape (ws_char w hw')
    have := ht b' (hs.subset (by rw [e]; simp))
    rw [hb'] at this
    exact absurd this (by decide)

theorem char_plain {c : Bytes} (h : isChar c = true) (hw : c ∉ whitespace) : ∀ b ∈ c, isHtmlSpace b = false := by
  have hb : ∀ b : UInt8, isHtmlSpace b = true → [b] ∈ whitespace ∧ b < 128 := by
    intro b h
    refine ⟨(Collapse.htmlSpace_white h).1, ?_⟩
    simp only [isHtmlSpace, Bool.or_eq_true, decide_eq_true_eq] at h
    rcases h with ((rfl | rfl) | rfl) | rfl <;> decide
  intro b hm
  rcases Bool.eq_false_or_eq_true (isHtmlSpace b) with h' | h'
  · exfalso
    rcases Chars.isChar_cases h with ⟨b', rfl, -⟩ | hh
    · rw [List.mem_singleton.1 hm] at h'
      exact hw (hb b' h').1
    · have h1 := hh b hm
      have h2 := (hb b h').2
      rw [UInt8.le_iff_toNat_le] at h1
      rw [UInt8.lt_iff_toNat_lt] at h2
      omega
  · exact h'

/-- The text ends with a character that is no white space. -/
def Closed (d : Bytes) : Prop := ∃ x c, d = x ++ c ∧ Sharp c ∧ ∀ b ∈ c, isHtmlSpace b = false

theorem endsWithChar_front (x d : Bytes) : EndsWithChar d → EndsWithChar (x ++ d) := by
  rintro ⟨f, c, s, rfl, h1, h2, h3⟩
  exact ⟨x ++ f, c, s, by simp, h1, h2, h3⟩

theorem endsWithChar_spaces (d : Bytes) (k : Nat) : EndsWithChar d → EndsWithChar (d ++ List.replicate k SP) := by
  rintro ⟨f, c, s, rfl, h1, h2, h3⟩
  refine ⟨f, c, s ++ List.replicate k SP, by simp, h1, h2, fun b hb => ?_⟩
  rcases List.mem_append.1 hb with hb | hb
  · exact h3 b hb
  · rw [List.mem_replicate.1 hb |>.2]; decide

/-- Something is seen of the text. -/
def Vis (d : Bytes) : Prop := ∃ b ∈ d, isHtmlSpace b = false

theorem vis_back (d x : Bytes) : Vis d → Vis (d ++ x) := fun ⟨b, hb, h⟩ => ⟨b, by simp [hb], h⟩

theorem vis_indent (k : Nat) (d : Bytes) : Vis d → Vis (List.replicate k SP ++ d) := fun ⟨b, hb, h⟩ => ⟨b, by simp [hb], h⟩

theorem startsWithChar_vis {d : Bytes} : StartsWithChar d → Vis d := by
  rintro ⟨s, c, r, rfl, h1, h2, -⟩
  obtain ⟨b, t, rfl, -⟩ := Chars.isChar_shape h1
  exact ⟨b, by simp, char_plain h1 h2 b (by simp)⟩

theorem startsWithChar_back (d x : Bytes) : StartsWithChar d → StartsWithChar (d ++ x) := by
  rintro ⟨s, c, r, rfl, h1, h2, h3⟩
  exact ⟨s, c, r ++ x, by simp, h1, h2, h3⟩

theorem startsWithChar_indent (k : Nat) (d : Bytes) : StartsWithChar d → StartsWithChar (List.replicate k SP ++ d) := by
  rintro ⟨s, c, r, rfl, h1, h2, h3⟩
  refine ⟨List.replicate k SP ++ s, c, r, by simp, h1, h2, fun b hb => ?_⟩
  rcases List.mem_append.1 hb with hb | hb
  · rw [List.mem_replicate.1 hb |>.2]; decide
  · exact h3 b hb

/-- The text begins with a character that is no white space. -/
def Opened (d : Bytes) : Prop := ∃ c x, d = c ++ x ∧ isChar c = true ∧ c ∉ whitespace

/-- Visible texts at the beginning and at the end. -/
def visEnds : Ends := ⟨Vis, EndsWithChar⟩

/-- The same, and the first character is not white space. -/
def charEnds : Ends := ⟨StartsWithChar, EndsWithChar⟩

theorem visEnds_robust : Robust visEnds := ⟨endsWithChar_front, endsWithChar_spaces, vis_back, vis_indent⟩

theorem charEnds_robust : Robust charEnds := ⟨endsWithChar_front, endsWithChar_spaces, startsWithChar_back, startsWithChar_indent⟩

/-! ## White space -/

/-- The text ends with a character that is no white space, or with such a character and a space. -/
def Nearly (d : Bytes) : Prop := Closed d ∨ ∃ e, Closed e ∧ d = e ++ [SP]

theorem Closed.last {d : Bytes} (h : Closed d) : d.getLast? ≠ some SP := by
  obtain ⟨x, c, rfl, h1, h2⟩ := h
  rcases List.eq_nil_or_concat c with rfl | ⟨c', b, rfl⟩
  · exact absurd rfl h1.1.1
  · rw [List.concat_eq_append] at *
    rw [← List.append_assoc]
    simp only [List.getLast?_append, List.getLast?_singleton, Option.some_or, ne_eq, Option.some.injEq]
    rintro rfl
    have := h2 SP (by simp)
    exact absurd this (by decide)

theorem Nearly.trim {d : Bytes} (h : Nearly d) : Closed (Collapse.trimSuffix d) := by
  rcases h with h | ⟨e, h, rfl⟩
  · rw [Collapse.trimSuffix_id h.last]; exact h
  · rw [Collapse.trimSuffix]; simpa using h

theorem oneSpace_ends {d : Bytes} (h : EndsWithChar d) (p : Bool) : Nearly (oneSpaceAfter p d) := by
  obtain ⟨x, c, s, rfl, h1, h2, h3⟩ := h
  have hc := char_plain h1 h2
  rw [Collapse.oneSpaceAfter_append, Collapse.oneSpaceAfter_append, Collapse.oneSpaceAfter_plain hc]
  have hcl : Closed (oneSpaceAfter p x ++ c) := ⟨_, c, rfl, sharp_char h1 h2, hc⟩
  have hs : ∀ (s : Bytes), (∀ b ∈ s, isHtmlSpace b = true) → oneSpaceAfter true s = [] := by
    intro s
    induction s with
    | nil => intro _; rfl
    | cons b s ih => intro h; simp [oneSpaceAfter, h b (by simp), ih fun x hx => h x (by simp [hx])]
  cases s with
  | nil => left; simpa [oneSpaceAfter] using hcl
  | cons b s =>
    have hr : Collapse.inRun p (x ++ c) = false := by
      rcases List.eq_nil_or_concat c with rfl | ⟨c', b, rfl⟩
      · simp [isChar] at h1
      · rw [List.concat_eq_append] at *
        simp only [Collapse.inRun, List.foldl_append, List.foldl_cons, List.foldl_nil]
        exact hc b (by simp)
    right
    refine ⟨_, hcl, ?_⟩
    rw [hr, oneSpaceAfter, if_pos (h3 b (by simp)), if_neg (by decide), hs s fun x hx => h3 x (by simp [hx])]

theorem oneSpace_tail (d : Bytes) : (if (oneSpace d).head? = some SP then (oneSpace d).tail else oneSpace d) = oneSpaceAfter true d :=
  (Collapse.oneSpaceAfter_true d).symm

theorem oneSpace_vis {d : Bytes} {b : UInt8} (hb : b ∈ d) (h : isHtmlSpace b = false) (p : Bool) : b ∈ oneSpaceAfter p d := by
  induction d generalizing p with
  | nil => simp at hb
  | cons x d ih =>
    rw [oneSpaceAfter]
    rcases List.mem_cons.1 hb with rfl | hb
    · rw [h]; simp
    · split
      · split
        · exact ih hb _
        · exact List.mem_cons_of_mem _ (ih hb _)
      · exact List.mem_cons_of_mem _ (ih hb _)

theorem trimSuffix_vis {d : Bytes} {b : UInt8} (hb : b ∈ d) (h : isHtmlSpace b = false) : b ∈ Collapse.trimSuffix d := by
  rw [Collapse.trimSuffix]
  split
  · rename_i hl
    rcases List.eq_nil_or_concat d with rfl | ⟨x, c, rfl⟩
    · simp at hb
    · rw [List.concat_eq_append] at *
      simp only [List.getLast?_append, List.getLast?_singleton, Option.some_or, Option.some.injEq] at hl
      subst hl
      rw [List.dropLast_concat]
      rcases List.mem_append.1 hb with hb | hb
      · exact hb
      · rw [List.mem_singleton.1 hb] at h; exact absurd h (by decide)
  · exact hb

/-- What becomes of a text with something in it. -/
theorem firstText_begin {d : Bytes} (h : Vis d) : (Collapse.firstText ⟨none, false⟩ d).1 = [.text (oneSpaceAfter true d)] := by
  obtain ⟨b, hb, h⟩ := h
  have hne : oneSpaceAfter true d ≠ [] := fun e => by have := oneSpace_vis hb h true; rw [e] at this; simp at this
  simp only [Collapse.firstText, Collapse.replaceWs_eq, true_or, true_and]
  rw [oneSpace_tail d, if_neg hne]

/-- What the collapsing of white space makes of the beginning. -/
structure Begins (F F' : Bytes → Prop) : Prop where
  vis : ∀ d, F d → Vis d
  vis' : ∀ d, F' d → Vis d
  one : ∀ d, F d → F' (oneSpaceAfter true d)
  trim : ∀ d, F' d → F' (Collapse.trimSuffix d)

theorem vis_begins : Begins Vis Vis :=
  ⟨fun _ h => h, fun _ h => h, fun _ ⟨b, hb, h⟩ => ⟨b, oneSpace_vis hb h true, h⟩, fun _ ⟨b, hb, h⟩ => ⟨b, trimSuffix_vis hb h, h⟩⟩

theorem oneSpaceAfter_spaces : ∀ (s : Bytes), (∀ b ∈ s, isHtmlSpace b = true) → oneSpaceAfter true s = [] := by
  intro s
  induction s with
  | nil => intro _; rfl
  | cons b s ih => intro h; simp [oneSpaceAfter, h b (by simp), ih fun x hx => h x (by simp [hx])]

theorem opened_begins : Begins StartsWithChar Opened := by
  refine ⟨fun _ => startsWithChar_vis, ?_, ?_, ?_⟩
  · rintro d ⟨c, x, rfl, h1, h2⟩
    obtain ⟨b, t, rfl, -⟩ := Chars.isChar_shape h1
    exact ⟨b, by simp, char_plain h1 h2 b (by simp)⟩
  · rintro d ⟨s, c, r, rfl, h1, h2, h3⟩
    have hc := char_plain h1 h2
    rw [Collapse.oneSpaceAfter_append, Collapse.oneSpaceAfter_append, Collapse.oneSpaceAfter_plain hc, oneSpaceAfter_spaces s h3]
    exact ⟨c, _, by rw [List.nil_append], h1, h2⟩
  · rintro d ⟨c, x, rfl, h1, h2⟩
    rw [Collapse.trimSuffix]
    split
    · rename_i hl
      rcases List.eq_nil_or_concat x with rfl | ⟨x', b, rfl⟩
      · rw [List.append_nil] at hl
        have := char_plain h1 h2 SP (List.mem_of_getLast? hl)
        exact absurd this (by decide)
      · rw [List.concat_eq_append, ← List.append_assoc, List.dropLast_concat]
        exact ⟨c, x', rfl, h1, h2⟩
    · exact ⟨c, x, rfl, h1, h2⟩

theorem firstText_one (s : Collapse.Vars) {d : Bytes} (h : ∃ b ∈ d, isHtmlSpace b = false) : ∃ p, (Collapse.firstText s d).1 = [.text (oneSpaceAfter p d)] := by
  obtain ⟨b, hb, h⟩ := h
  have hne : ∀ p, oneSpaceAfter p d ≠ [] := fun p e => by have := oneSpace_vis hb h p; rw [e] at this; simp at this
  simp only [Collapse.firstText, Collapse.replaceWs_eq]
  by_cases hc : (s.prev = none ∨ s.prev = some true) ∧ s.keep = false
  · refine ⟨true, ?_⟩
    have := oneSpace_tail d
    simp only [← and_assoc, hc, true_and, and_self] at this ⊢
    rw [this, if_neg (hne true)]
  · refine ⟨false, ?_⟩
    have e : oneSpace d = oneSpaceAfter false d := rfl
    have hcond : ¬ ((s.prev = none ∨ s.prev = some true) ∧ s.keep = false ∧ (oneSpace d).head? = some SP) := fun h => hc ⟨h.1, h.2.1⟩
    simp only [if_neg hcond]
    rw [e, if_neg (hne false)]

theorem endsWithChar_vis {d : Bytes} (h : EndsWithChar d) : ∃ b ∈ d, isHtmlSpace b = false := by
  obtain ⟨x, c, s, rfl, h1, h2, -⟩ := h
  obtain ⟨b, t, rfl, -⟩ := Chars.isChar_shape h1
  exact ⟨b, by simp, char_plain h1 h2 b (by simp)⟩

theorem collapse_fcut {F F' : Bytes → Prop} (hF : Begins F F') {f : Collapse.DomFuncs} (hw : ∀ x ∈ w, f.isPre x.1 = false)
    (hd : f.isPre b!"#document" = false) (hr : f.isBlock sn = true) (hp : f.isPre sn = false) : FCut w sn a (Frame ⟨F, EndsWithChar⟩) (Frame ⟨F', Closed⟩) (Collapse.collapse f) := by
  intro cs hc
  refine ⟨_, ?_, collapse_tcut' hw hd hr hp cs⟩
  have h1 : Frame ⟨F', Nearly⟩ (Collapse.firstL f ⟨none, false⟩ cs).1 := by
    obtain ⟨⟨d, x, e, hd⟩, ⟨y, d', e', hd'⟩⟩ := hc
    constructor
    · have h := firstText_begin (hF.vis d hd)
      rw [e, Collapse.firstL, Collapse.first]
      simp only [h]
      exact ⟨_, _, rfl, hF.one d hd⟩
    · rw [e', Collapse.firstL_append, Collapse.firstL, Collapse.first, Collapse.firstL]
      simp only [List.append_nil]
      obtain ⟨p, h⟩ := firstText_one (Collapse.firstL f ⟨none, false⟩ y).2 (endsWithChar_vis hd')
      rw [h]
      exact ⟨_, _, rfl, oneSpace_ends hd' p⟩
  generalize (Collapse.firstL f ⟨none, false⟩ cs).1 = ds at h1
  obtain ⟨⟨d, x, e, hd⟩, ⟨y, d', e', hd'⟩⟩ := h1
  constructor
  · have hd1 := hF.trim d hd
    have hne : Collapse.trimSuffix d ≠ [] := fun h => by
      obtain ⟨b, hb, -⟩ := hF.vis' _ hd1
      rw [h] at hb; simp at hb
    rw [e, Collapse.secondL]
    generalize Collapse.secondL f .block x = r
    obtain ⟨r1, r2⟩ := r
    cases r2 with
    | other => exact ⟨d, r1, rfl, hd⟩
    | block => exact ⟨Collapse.trimSuffix d, r1, rfl, hd1⟩
    | stop =>
      refine ⟨Collapse.trimSuffix d, r1, ?_, hd1⟩
      simp only [Collapse.second, if_neg hne, List.singleton_append]
  · rw [e', Collapse.secondL_append]
    exact ⟨_, _, rfl, hd'.trim⟩

end Verif.Cut
