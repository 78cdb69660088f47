import Verif.Proofs.CutFrame
/-!
# Two paragraphs

Two blocks one behind the other, each of which begins and ends with a text (or is a code block): of each of them becomes what becomes of it alone, and nothing comes between them.
-/
set_option linter.unusedSimpArgs false

namespace Verif.Cut
open Verif Verif.Spec Verif.DomUtils Verif.Dom

variable {w : Outer} {n m : Bytes} {a b : List (Bytes × Bytes)} {C C' C'' D D' D'' : List Node → Prop} {Q : Ends}

/-- Two nodes remain two nodes. -/
def Two (w : Outer) (n : Bytes) (a : List (Bytes × Bytes)) (m : Bytes) (b : List (Bytes × Bytes)) (C D : List Node → Prop) (f : Node → Node) : Prop :=
  ∀ cs ds, C cs → D ds → ∃ x y, f (documentOf w [.elem n a cs, .elem m b ds]) = documentOf w [x, y]

/-- Of two blocks becomes what becomes of each of them alone. -/
def Pair (w : Outer) (n : Bytes) (a : List (Bytes × Bytes)) (m : Bytes) (b : List (Bytes × Bytes)) (C C' D D' : List Node → Prop) (f : Node → Node) : Prop :=
  ∀ cs ds, C cs → D ds → ∃ cs' ds', C' cs' ∧ D' ds' ∧ f (documentOf w [.elem n a cs]) = documentOf w [.elem n a cs'] ∧
    f (documentOf w [.elem m b ds]) = documentOf w [.elem m b ds'] ∧ f (documentOf w [.elem n a cs, .elem m b ds]) = documentOf w [.elem n a cs', .elem m b ds']

theorem Pair.comp {f g : Node → Node} (hg : Pair w n a m b C' C'' D' D'' g) (hf : Pair w n a m b C C' D D' f) : Pair w n a m b C C'' D D'' (fun x => g (f x)) := by
  intro cs ds hc hd
  obtain ⟨cs', ds', hc', hd', e1, e2, e3⟩ := hf cs ds hc hd
  obtain ⟨cs'', ds'', hc'', hd'', f1, f2, f3⟩ := hg cs' ds' hc' hd'
  exact ⟨cs'', ds'', hc'', hd'', by show g (f _) = _; rw [e1, f1], by show g (f _) = _; rw [e2, f2], by show g (f _) = _; rw [e3, f3]⟩

theorem Pair.id : Pair w n a m b C C D D (fun x => x) := fun cs ds hc hd => ⟨cs, ds, hc, hd, rfl, rfl, rfl⟩

theorem around_empty {s : Node} (w : Outer) : ∀ {L R : List (List Node)}, Empty L → Empty R → around w L R s = within w [s] := by
  induction w with
  | nil => intro L R hL hR; rw [around, hL.head, hR.head]; rfl
  | cons x w ih => obtain ⟨n, a⟩ := x; intro L R hL hR; rw [around, hL.head, hR.head, ih hL.tail hR.tail]; rfl

theorem within_first {s x y : Node} (w : Outer) : ∀ {L R : List (List Node)}, Empty L → around w L R s = within w [x, y] → s = x := by
  induction w with
  | nil => intro L R hL h; rw [around, hL.head] at h; exact (List.cons.inj h).1
  | cons z w ih =>
    obtain ⟨n, a⟩ := z
    intro L R hL h
    rw [around, hL.head, within] at h
    have := (List.cons.inj h).1
    simp only [Node.elem.injEq, true_and] at this
    exact ih hL.tail this

theorem within_second {s x y : Node} (w : Outer) : ∀ {L R : List (List Node)}, Empty R → around w L R s = within w [x, y] → s = y := by
  induction w with
  | nil =>
    intro L R hR h
    rw [around, hR.head, within, show [x, y] = [x] ++ [y] from rfl] at h
    exact (List.cons.inj (List.append_inj_right' h rfl)).1
  | cons z w ih =>
    obtain ⟨n, a⟩ := z
    intro L R hR h
    rw [around, hR.head, within] at h
    have := List.append_inj_right' (h.trans (List.nil_append _).symm) rfl
    have := (List.cons.inj this).1
    simp only [Node.elem.injEq, true_and] at this
    exact ih hR.tail this

theorem empties (k : Nat) : Empty (List.replicate k []) := fun x hx => (List.mem_replicate.1 hx).2

theorem pair_of {f : Node → Node} (h1 : FCut w n a C C' f) (h2 : FCut w m b D D' f) (h : Two w n a m b C D f) : Pair w n a m b C C' D D' f := by
  intro cs ds hc hd
  obtain ⟨cs', hc', F, G, hF, hG, e⟩ := h1 cs hc
  obtain ⟨ds', hd', F', G', hF', hG', e'⟩ := h2 ds hd
  obtain ⟨x, y, exy⟩ := h cs ds hc hd
  have key : ∀ (w : Outer) (s t : Node), around w [] (List.replicate w.length [] ++ [[t]]) s = within w [s, t] ∧ around w (List.replicate w.length [] ++ [[s]]) [] t = within w [s, t] := by
    intro w s t
    induction w with
    | nil => exact ⟨rfl, rfl⟩
    | cons x w ih => obtain ⟨n, a⟩ := x; simp [around, within, List.replicate_succ, ih.1, ih.2]
  have alone : ∀ s, treeAround w [] [] s = documentOf w [s] := fun s => by rw [treeAround, documentOf, around_empty w empty_nil empty_nil]
  refine ⟨cs', ds', hc', hd', ?_, ?_, ?_⟩
  · rw [← alone, e, treeAround, around_empty w (hF _ empty_nil) (hG _ empty_nil)]; rfl
  · rw [← alone, e', treeAround, around_empty w (hF' _ empty_nil) (hG' _ empty_nil)]; rfl
  · have e1 := e [] (List.replicate w.length [] ++ [[.elem m b ds]])
    have e2 := e' (List.replicate w.length [] ++ [[.elem n a cs]]) []
    rw [treeAround, (key w _ _).1] at e1
    rw [treeAround, (key w _ _).2] at e2
    rw [documentOf] at exy
    rw [exy] at e1 e2
    simp only [treeAround, documentOf, Node.document.injEq] at e1 e2
    rw [documentOf, exy, within_first w (hF _ empty_nil) e1.symm, within_second w (hG' _ empty_nil) e2.symm]

/-! ## Steps that go through the tree -/

theorem two_of {f : Node → Node} (T : List Bytes → List Node → List Node) (P : Bytes → Prop) (h0 : ∀ anc, T anc [] = []) (hw : ∀ x ∈ w, P x.1)
    (hs : ∀ anc cs B, ∃ x, T anc (.elem n a cs :: B) = x :: T anc B) (ht : ∀ anc cs B, ∃ x, T anc (.elem m b cs :: B) = x :: T anc B)
    (h : ∀ anc n, P n → ∀ a cs, T anc [.elem n a cs] = [.elem n a (T (n :: anc) cs)])
    (hdoc : ∀ cs, f (.document cs) = .document (T [b!"#document"] cs)) : Two w n a m b C D f := by
  intro cs ds _ _
  have key : ∀ anc, ∃ x y, T anc (within w [.elem n a cs, .elem m b ds]) = within w [x, y] := by
    induction w with
    | nil =>
      intro anc
      obtain ⟨x, e⟩ := hs anc cs [.elem m b ds]
      obtain ⟨y, e'⟩ := ht anc ds []
      exact ⟨x, y, by rw [within, e, e', h0]; rfl⟩
    | cons z w ih =>
      obtain ⟨k, c⟩ := z
      intro anc
      obtain ⟨x, y, e⟩ := ih (fun x hx => hw x (by simp [hx])) (k :: anc)
      exact ⟨x, y, by rw [within, h anc k (hw (k, c) (by simp)), e]; rfl⟩
  obtain ⟨x, y, e⟩ := key [b!"#document"]
  exact ⟨x, y, by rw [documentOf, hdoc, e]; rfl⟩

theorem remove_two (hw : Good w) (hn : CutName n) (hm : CutName m) : Two w n a m b C D (preRenderRemove Render.isRemoved) := by
  have h : ∀ n a, Render.isRemoved n = false → ∀ cs B, mergeTextGo none (removeInL Render.isRemoved (.elem n a cs :: B)) =
      .elem n a (mergeTextGo none (removeInL Render.isRemoved cs)) :: mergeTextGo none (removeInL Render.isRemoved B) := by
    intro n a hn cs B
    rw [removeInL, if_neg (show ¬ Render.isRemoved (Node.elem n a cs).name = true from by rw [Node.name, hn]; simp), removeIn]
    exact mergeTextGo_elem _ _ _ _ [] none
  refine two_of (fun _ cs => mergeTextGo none (removeInL Render.isRemoved cs)) (fun n => Render.isRemoved n = false) (fun _ => rfl) (fun x hx => (hw x hx).kept)
    (fun _ cs B => ⟨_, h n a hn.kept cs B⟩) (fun _ cs B => ⟨_, h m b hm.kept cs B⟩) (fun _ n hn a cs => h n a hn cs []) ?_
  intro cs
  rw [preRenderRemove, if_neg (show ¬ Render.isRemoved (Node.document cs).name = true from by rw [Node.name]; decide), removeIn, mergeText]

theorem rename_two (T : NameTables) (hw : Good w) (hn : CutName n) (hm : CutName m) : Two w n a m b C D (renameFakeSpans T) := by
  have h : ∀ n a, n ≠ b!"span" → ∀ cs B, renameFakeSpansL T (.elem n a cs :: B) = .elem n a (renameFakeSpansL T cs) :: renameFakeSpansL T B := by
    intro n a hn cs B; simp [renameFakeSpansL, renameFakeSpans, hn]
  exact two_of (fun _ => renameFakeSpansL T) (fun n => n ≠ b!"span") (fun _ => rfl) (fun x hx => (hw x hx).span)
    (fun _ cs B => ⟨_, h n a hn.span cs B⟩) (fun _ cs B => ⟨_, h m b hm.span cs B⟩) (fun _ n hn a cs => h n a hn cs []) fun cs => by rw [renameFakeSpans]

theorem redundant_two {same : Bytes → Bytes → Bool} (hs : ∀ x ∈ w, same x.1 x.1 = false) (hn : same n n = false) (hm : same m m = false) :
    Two w n a m b C D (removeRedundant same) := by
  have h : ∀ anc n a, same n n = false → ∀ cs B, removeRedundantL same anc (.elem n a cs :: B) = .elem n a (removeRedundantL same (n :: anc) cs) :: removeRedundantL same anc B := by
    intro anc n a hn cs B; rw [removeRedundantL, removeRedundantIn, hn]; simp
  exact two_of (removeRedundantL same) (fun n => same n n = false) (fun _ => rfl) hs
    (fun anc cs B => ⟨_, h anc n a hn cs B⟩) (fun anc cs B => ⟨_, h anc m b hm cs B⟩) (fun anc n hn a cs => h anc n a hn cs []) fun cs => by rw [removeRedundant]

theorem emptyCode_two (hw : Good w) (hn : CutName n) (hm : CutName m) : Two w n a m b C D removeEmptyCode := by
  have h : ∀ n a, n ≠ b!"code" → ∀ cs B, removeEmptyCodeL (.elem n a cs :: B) = .elem n a (removeEmptyCodeL cs) :: removeEmptyCodeL B := by
    intro n a hn cs B; simp [removeEmptyCodeL, removeEmptyCode, Node.name, hn]
  exact two_of (fun _ => removeEmptyCodeL) (fun n => n ≠ b!"code") (fun _ => rfl) (fun x hx => (hw x hx).code')
    (fun _ cs B => ⟨_, h n a hn.code' cs B⟩) (fun _ cs B => ⟨_, h m b hm.code' cs B⟩) (fun _ n hn a cs => h n a hn cs []) fun cs => by rw [removeEmptyCode]

theorem swap_two {outer inner : Bytes → Bool} (hs : ∀ x ∈ w, outer x.1 = false) (hn : outer n = false) (hm : outer m = false) :
    Two w n a m b C D (swapTags outer inner) := by
  have h : ∀ n a, outer n = false → ∀ cs B, swapTagsL outer inner (.elem n a cs :: B) = .elem n a (swapTagsL outer inner cs) :: swapTagsL outer inner B := by
    intro n a hn cs B; rw [swapTagsL, swap_elem hn]
  exact two_of (fun _ => swapTagsL outer inner) (fun n => outer n = false) (fun _ => rfl) hs
    (fun _ cs B => ⟨_, h n a hn cs B⟩) (fun _ cs B => ⟨_, h m b hm cs B⟩) (fun _ n hn a cs => h n a hn cs []) fun cs => by rw [swapTags]

theorem leaf_two (hw : Good w) : Two w n a m b C D leafAlternatives := by
  have h : ∀ n a cs B, ∃ x, leafAlternativesL false false (.elem n a cs :: B) = x :: leafAlternativesL false false B := by
    intro n a cs B
    rw [leafAlternativesL, leafAlternativesIn]
    exact ⟨_, by simp; rfl⟩
  refine two_of (fun _ => leafAlternativesL false false) (fun n => getStructure n ≠ .leaf ∧ getStructure n ≠ .inline) (fun _ => rfl) (fun x hx => (hw x hx).struct)
    (fun _ cs B => h n a cs B) (fun _ cs B => h m b cs B) ?_ fun cs => by rw [leafAlternatives, leafAlternativesIn]; rfl
  intro _ n hn a cs
  rw [leafAlternativesL, leafAlternativesIn]
  simp [hn.1, hn.2, leafAlternativesL]

theorem move_two (hw : Good w) (hn : CutName n) (hm : CutName m) : Two w n a m b C D moveListItems := by
  have h : ∀ n a, isListName n = false → ∀ cs B, moveListItemsL (.elem n a cs :: B) = .elem n a (moveListItemsL cs) :: moveListItemsL B := by
    intro n a hl cs B
    simp only [isListName, decide_eq_false_iff_not, not_or] at hl
    simp [moveListItemsL, moveListItems, hl]
  exact two_of (fun _ => moveListItemsL) (fun n => isListName n = false) (fun _ => rfl) (fun x hx => (hw x hx).list)
    (fun _ cs B => ⟨_, h n a hn.list cs B⟩) (fun _ cs B => ⟨_, h m b hm.list cs B⟩) (fun _ n hn a cs => h n a hn cs []) fun cs => by rw [moveListItems]

/-! ## The other steps -/

theorem merge_frame {k : Bytes → Bool} (ht : k b!"#text" = false) {cs : List Node} (hc : Frame Q cs) :
    ∃ cs', ∀ fs, mergeAdjacentF k (cs :: fs) = cs' :: mergeAdjacentF k fs := by
  obtain ⟨-, ⟨y, d', e', hd'⟩⟩ := hc
  refine ⟨(mergeAdjacentF k [y]).headD [] ++ [.text d'], fun fs => ?_⟩
  have h0 : mergeAdjacentF k ([.text d'] :: fs) = [.text d'] :: mergeAdjacentF k fs := merge_texts k ht (some d') fs
  have := merge_add (show collectNode k (.text d') = _ from rfl) [] h0 [y] (by simp)
  rw [merge_one, addLast, addLast] at this
  rw [e']
  exact this

theorem adjacent_two {k : Bytes → Bool} (hs : ∀ x ∈ w, x.1 ≠ b!"span" ∧ k x.1 = false) (hd : k b!"#document" = false)
    (hn : n ≠ b!"span" ∧ k n = false) (hm : m ≠ b!"span" ∧ k m = false) (hC : ∀ cs, C cs → ∃ cs', ∀ fs, mergeAdjacentF k (cs :: fs) = cs' :: mergeAdjacentF k fs)
    (hD : ∀ cs, D cs → ∃ cs', ∀ fs, mergeAdjacentF k (cs :: fs) = cs' :: mergeAdjacentF k fs) : Two w n a m b C D (mergeAdjacent k) := by
  intro cs ds hc hds
  obtain ⟨cs', ec⟩ := hC cs hc
  obtain ⟨ds', ed⟩ := hD ds hds
  have e0 : (mergeAdjacentF k [[]]).headD [] = [] := by simp only [mergeAdjacentF, List.headD_cons]
  have key : ∀ rest, mergeAdjacentF k (within w [.elem n a cs, .elem m b ds] :: rest) = within w [.elem n a cs', .elem m b ds'] :: mergeAdjacentF k rest := by
    induction w with
    | nil =>
      intro rest
      have h2 : mergeAdjacentF k ([.elem m b ds] :: rest) = [.elem m b ds'] :: mergeAdjacentF k rest := by
        have := merge_level hm.1 hm.2 b ds [] [] (rest := rest) (ks' := ds') (B' := []) (rest' := mergeAdjacentF k rest) (by rw [ed, mergeAdjacentF])
        rw [e0] at this
        exact this
      have := merge_level hn.1 hn.2 a cs [] [.elem m b ds] (rest := rest) (ks' := cs') (B' := [.elem m b ds']) (rest' := mergeAdjacentF k rest) (by rw [ec, h2])
      rw [e0] at this
      exact this
    | cons z w ih =>
      obtain ⟨o, c⟩ := z
      intro rest
      have ho := hs (o, c) (by simp)
      have := merge_level ho.1 ho.2 c (within w [.elem n a cs, .elem m b ds]) [] [] (rest := rest) (ks' := within w [.elem n a cs', .elem m b ds']) (B' := [])
        (rest' := mergeAdjacentF k rest) (by rw [ih (fun x hx => hs x (by simp [hx])), mergeAdjacentF])
      rw [e0] at this
      exact this
  refine ⟨.elem n a cs', .elem m b ds', ?_⟩
  rw [documentOf, mergeAdjacent, mergeAdjacentF, mergeStep, if_neg (by simp [Node.name, hd])]
  simp only [Node.children]
  rw [key, mergeAdjacentF]
  rfl

theorem listEnd_two (hw : Good w) (hn : CutName n) (hm : CutName m) : Two w n a m b C D addListEndComments := by
  intro cs ds _ _
  have key : ∀ after, ∃ x y, addListEndL after (within w [.elem n a cs, .elem m b ds]) = within w [x, y] := by
    induction w with
    | nil =>
      intro after
      have hl := hn.list
      have hl' := hm.list
      exact ⟨_, _, by simp only [within, addListEndL, Node.name, hl, hl', Bool.false_and, Bool.false_eq_true, if_false]; rfl⟩
    | cons z w ih =>
      obtain ⟨k, c⟩ := z
      intro after
      have hl : isListName k = false := hw.head.list
      obtain ⟨x, y, e⟩ := ih hw.tail (.cl k :: after)
      refine ⟨x, y, ?_⟩
      simp only [within, addListEndL, addListEndIn, Node.name, hl, Bool.false_and, Bool.false_eq_true, if_false, eventsL, List.nil_append, e]
  obtain ⟨x, y, e⟩ := key [.cl b!"#document"]
  exact ⟨x, y, by rw [documentOf, addListEndComments, addListEndIn, e]; rfl⟩

theorem space_two {outer inner : Bytes → Bool} : Two w n a m b C D (addSpace outer inner) := by
  intro cs ds _ _
  have key : ∀ f k, ∃ x y, (mapTextsL f k (within w [.elem n a cs, .elem m b ds])).1 = within w [x, y] := by
    intro f k
    induction w with
    | nil => exact ⟨_, _, rfl⟩
    | cons z w ih =>
      obtain ⟨o, c⟩ := z
      obtain ⟨x, y, e⟩ := ih
      exact ⟨x, y, by simp only [within, mapTextsL, mapTexts, e]⟩
  obtain ⟨x, y, e⟩ := key _ 0
  exact ⟨x, y, by rw [documentOf, addSpace]; simp only [mapTexts]; rw [e]; rfl⟩

theorem first_one (f : Collapse.DomFuncs) (s : Collapse.Vars) (n : Bytes) (a : List (Bytes × Bytes)) (cs : List Node) :
    ∃ cs' s', Collapse.first f s (.elem n a cs) = ([.elem n a cs'], s') := by
  rw [Collapse.first]
  split
  · exact ⟨_, _, rfl⟩
  · exact ⟨_, _, rfl⟩

theorem second_one (f : Collapse.DomFuncs) (s : Collapse.Next) (n : Bytes) (a : List (Bytes × Bytes)) (cs : List Node) :
    ∃ cs' s', Collapse.second f s (.elem n a cs) = ([.elem n a cs'], s') := by
  rw [Collapse.second]
  split
  · exact ⟨_, _, rfl⟩
  · exact ⟨_, _, rfl⟩

theorem collapse_two {f : Collapse.DomFuncs} (hw : ∀ x ∈ w, f.isPre x.1 = false) (hd : f.isPre b!"#document" = false) :
    Two w n a m b C D (Collapse.collapse f) := by
  intro cs ds _ _
  have key2 : ∀ cs ds s, ∃ x y, (Collapse.secondL f s (within w [.elem n a cs, .elem m b ds])).1 = within w [x, y] := by
    intro cs ds
    induction w with
    | nil =>
      intro s
      obtain ⟨ds', s1, e1⟩ := second_one f s m b ds
      obtain ⟨cs', s2, e2⟩ := second_one f s1 n a cs
      exact ⟨_, _, by simp only [within, Collapse.secondL, e1, e2, List.append_nil, List.cons_append, List.nil_append]; rfl⟩
    | cons z w ih =>
      obtain ⟨o, c⟩ := z
      intro s
      obtain ⟨x, y, e⟩ := ih (fun x hx => hw x (by simp [hx])) (Collapse.before f s o)
      have ho : f.isPre o = false := hw (o, c) (by simp)
      exact ⟨x, y, by simp only [within, Collapse.secondL, Collapse.second, ho, if_false, Bool.false_eq_true, List.append_nil, e]⟩
  have key1 : ∀ s, ∃ cs' ds', (Collapse.firstL f s (within w [.elem n a cs, .elem m b ds])).1 = within w [.elem n a cs', .elem m b ds'] := by
    clear key2
    induction w with
    | nil =>
      intro s
      obtain ⟨cs', s1, e1⟩ := first_one f s n a cs
      obtain ⟨ds', s2, e2⟩ := first_one f s1 m b ds
      exact ⟨cs', ds', by simp only [within, Collapse.firstL, e1, e2, List.append_nil, List.cons_append, List.nil_append]⟩
    | cons z w ih =>
      obtain ⟨o, c⟩ := z
      intro s
      obtain ⟨x, y, e⟩ := ih (fun x hx => hw x (by simp [hx])) (Collapse.visit f s o)
      have ho : f.isPre o = false := hw (o, c) (by simp)
      exact ⟨x, y, by simp only [within, Collapse.firstL, Collapse.first, ho, if_false, Bool.false_eq_true, List.append_nil, e]⟩
  obtain ⟨cs', ds', e1⟩ := key1 ⟨none, false⟩
  obtain ⟨x, y, e2⟩ := key2 cs' ds' .stop
  refine ⟨x, y, ?_⟩
  rw [documentOf, Collapse.collapse, hd]
  simp only [Bool.false_eq_true, if_false]
  rw [Collapse.children, e1, e2]
  rfl

/-! ## All steps -/

variable {E : Render.Env}

/-- All steps keep blocks with such content. -/
structure Cuts (E : Render.Env) (w : Outer) (n : Bytes) (a : List (Bytes × Bytes)) (C C' : List Node → Prop) : Prop where
  name : CutName n
  remove : FCut w n a C C (preRenderRemove Render.isRemoved)
  rename : FCut w n a C C (renameFakeSpans E.tables)
  redundant : ∀ same ∈ [bothBoldOrItalic, bothLink, Render.bothStrike], FCut w n a C C (removeRedundant same)
  adjacent : ∀ k ∈ [isBoldOrItalic, isInlineCode, Render.isStrike], FCut w n a C C (mergeAdjacent k)
  merge : ∀ k ∈ [isBoldOrItalic, isInlineCode, Render.isStrike], ∀ cs, C cs → ∃ cs', ∀ fs, mergeAdjacentF k (cs :: fs) = cs' :: mergeAdjacentF k fs
  emptyCode : FCut w n a C C removeEmptyCode
  swap : ∀ p ∈ [(isInlineCode, isPre), (isBoldOrItalic, isLink), (isLink, isHeading)], FCut w n a C C (swapTags p.1 p.2)
  space : FCut w n a C C (addSpace isBoldOrItalic isInlineCode)
  leaf : FCut w n a C C leafAlternatives
  move : FCut w n a C C moveListItems
  collapse : FCut w n a C C' (Collapse.collapse (Collapse.baseFuncs (Render.isBlock E)))
  listEnd : FCut w n a C' C' addListEndComments

theorem Cuts.strike (h : Cuts E w n a C C') : FCut w n a C C (Render.strikePreRender E) := by
  unfold Render.strikePreRender
  by_cases hs : E.strike.isSome = true
  · simp only [hs, if_true]
    exact FCut.comp (h.adjacent Render.isStrike (by simp)) (h.redundant Render.bothStrike (by simp))
  · simp only [hs]
    exact FCut.id

theorem Cuts.handle (h : Cuts E w n a C C') : FCut w n a C C (handlePreRender E.tables) :=
  ((((((((((h.move.comp h.leaf).comp (h.swap (isLink, isHeading) (by simp))).comp (h.swap (isBoldOrItalic, isLink) (by simp))).comp (h.redundant bothLink (by simp))).comp h.space).comp
    (h.adjacent isInlineCode (by simp))).comp (h.swap (isInlineCode, isPre) (by simp))).comp h.emptyCode).comp (h.adjacent isBoldOrItalic (by simp))).comp
    (h.redundant bothBoldOrItalic (by simp))).comp h.rename

/-- **The tree before the rendering** of a block: the parts before, inside of and behind it do not influence each other. -/
theorem Cuts.preRender (h : Cuts E w n a C C') : FCut w n a C C' (Render.preRender E) := by
  unfold Render.preRender
  by_cases hd : E.cfg.disableListEndComment = true
  · simp only [hd, if_true]
    exact ((h.collapse.comp h.strike).comp h.handle).comp h.remove
  · simp only [hd]
    exact (((h.listEnd.comp h.collapse).comp h.strike).comp h.handle).comp h.remove

theorem strike_pair (hw : Good w) (h1 : Cuts E w n a C C') (h2 : Cuts E w m b D D') : Pair w n a m b C C D D (Render.strikePreRender E) := by
  refine pair_of h1.strike h2.strike ?_
  have hn := h1.name
  have hm := h2.name
  unfold Render.strikePreRender
  by_cases hs : E.strike.isSome = true
  · simp only [hs, if_true]
    intro cs ds hc hd
    have sb : ∀ n, Render.isStrike n = false → Render.bothStrike n n = false := fun n h => by rw [Render.bothStrike, h]; rfl
    have h3 : Pair w n a m b C C D D (removeRedundant Render.bothStrike) :=
      pair_of (h1.redundant _ (by simp)) (h2.redundant _ (by simp))
        (redundant_two (fun x hx => sb _ (hw x hx).strike) (sb _ hn.strike) (sb _ hm.strike))
    obtain ⟨cs', ds', hc', hd', -, -, e⟩ := h3 cs ds hc hd
    simp only []
    rw [e]
    exact adjacent_two (fun x hx => ⟨(hw x hx).span, (hw x hx).strike⟩) (by decide) ⟨hn.span, hn.strike⟩ ⟨hm.span, hm.strike⟩ (h1.merge _ (by simp)) (h2.merge _ (by simp)) cs' ds' hc' hd'
  · simp only [hs]
    exact fun cs ds _ _ => ⟨_, _, rfl⟩

theorem handle_pair (hw : Good w) (h1 : Cuts E w n a C C') (h2 : Cuts E w m b D D') : Pair w n a m b C C D D (handlePreRender E.tables) := by
  have hn := h1.name
  have hm := h2.name
  have bb' : ∀ n, isBoldOrItalic n = false → bothBoldOrItalic n n = false := by
    intro n h
    simp only [isBoldOrItalic, Bool.or_eq_false_iff] at h
    simp [bothBoldOrItalic, h.1, h.2]
  have bb : ∀ x ∈ w, bothBoldOrItalic x.1 x.1 = false := fun x hx => bb' _ (hw x hx).bold
  have bl : ∀ x ∈ w, bothLink x.1 x.1 = false := by
    intro x hx; simp [bothLink, (hw x hx).link]
  have ln : ∀ n, isLink n = false → bothLink n n = false := fun n h => by simp [bothLink, h]
  have s1 : Pair w n a m b C C D D (renameFakeSpans E.tables) := pair_of h1.rename h2.rename (rename_two E.tables hw hn hm)
  have s2 : Pair w n a m b C C D D (removeRedundant bothBoldOrItalic) := pair_of (h1.redundant _ (by simp)) (h2.redundant _ (by simp)) (redundant_two bb (bb' _ hn.bold) (bb' _ hm.bold))
  have s3 : Pair w n a m b C C D D (mergeAdjacent isBoldOrItalic) := pair_of (h1.adjacent _ (by simp)) (h2.adjacent _ (by simp))
    (adjacent_two (fun x hx => ⟨(hw x hx).span, (hw x hx).bold⟩) (by decide) ⟨hn.span, hn.bold⟩ ⟨hm.span, hm.bold⟩ (h1.merge _ (by simp)) (h2.merge _ (by simp)))
  have s4 : Pair w n a m b C C D D removeEmptyCode := pair_of h1.emptyCode h2.emptyCode (emptyCode_two hw hn hm)
  have s5 : Pair w n a m b C C D D (swapTags isInlineCode isPre) := pair_of (h1.swap (isInlineCode, isPre) (by simp))
    (h2.swap (isInlineCode, isPre) (by simp)) (swap_two (fun x hx => (hw x hx).code) hn.code hm.code)
  have s6 : Pair w n a m b C C D D (mergeAdjacent isInlineCode) := pair_of (h1.adjacent _ (by simp)) (h2.adjacent _ (by simp))
    (adjacent_two (fun x hx => ⟨(hw x hx).span, (hw x hx).code⟩) (by decide) ⟨hn.span, hn.code⟩ ⟨hm.span, hm.code⟩ (h1.merge _ (by simp)) (h2.merge _ (by simp)))
  have s7 : Pair w n a m b C C D D (addSpace isBoldOrItalic isInlineCode) := pair_of h1.space h2.space space_two
  have s8 : Pair w n a m b C C D D (removeRedundant bothLink) := pair_of (h1.redundant _ (by simp)) (h2.redundant _ (by simp)) (redundant_two bl (ln _ hn.link) (ln _ hm.link))
  have s9 : Pair w n a m b C C D D (swapTags isBoldOrItalic isLink) := pair_of (h1.swap (isBoldOrItalic, isLink) (by simp))
    (h2.swap (isBoldOrItalic, isLink) (by simp)) (swap_two (fun x hx => (hw x hx).bold) hn.bold hm.bold)
  have s10 : Pair w n a m b C C D D (swapTags isLink isHeading) := pair_of (h1.swap (isLink, isHeading) (by simp))
    (h2.swap (isLink, isHeading) (by simp)) (swap_two (fun x hx => (hw x hx).link) hn.link hm.link)
  have s11 : Pair w n a m b C C D D leafAlternatives := pair_of h1.leaf h2.leaf (leaf_two hw)
  have s12 : Pair w n a m b C C D D moveListItems := pair_of h1.move h2.move (move_two hw hn hm)
  exact (((((((((((s12.comp s11).comp s10).comp s9).comp s8).comp s7).comp s6).comp s5).comp s4).comp s3).comp s2).comp s1)

/-- **The tree before the rendering** of two blocks. -/
theorem preRender_pair (hw : Good w) (h1 : Cuts E w n a C C') (h2 : Cuts E w m b D D') : Pair w n a m b C C' D D' (Render.preRender E) := by
  refine pair_of h1.preRender h2.preRender ?_
  have hn := h1.name
  have hm := h2.name
  have hrem : Pair w n a m b C C D D (preRenderRemove Render.isRemoved) := pair_of h1.remove h2.remove (remove_two hw hn hm)
  have p1 : ∀ x ∈ w, (Collapse.baseFuncs (Render.isBlock E)).isPre x.1 = false := by
    intro x hx
    have h := hw x hx
    simp [Collapse.baseFuncs, h.pre, h.code']
  have hcol : Pair w n a m b C C' D D' (Collapse.collapse (Collapse.baseFuncs (Render.isBlock E))) := pair_of h1.collapse h2.collapse (collapse_two p1 rfl)
  have hall : Pair w n a m b C C' D D' (Render.preRender E) := by
    unfold Render.preRender
    by_cases hd : E.cfg.disableListEndComment = true
    · simp only [hd, if_true]
      exact ((hcol.comp (strike_pair hw h1 h2)).comp (handle_pair hw h1 h2)).comp hrem
    · simp only [hd]
      exact (((Pair.comp (pair_of h1.listEnd h2.listEnd (listEnd_two hw hn hm)) hcol).comp (strike_pair hw h1 h2)).comp (handle_pair hw h1 h2)).comp hrem
  intro cs ds hc hd
  obtain ⟨cs', ds', -, -, -, -, e⟩ := hall cs ds hc hd
  exact ⟨_, _, e⟩

/-! ## Blocks that begin and end with text -/

theorem frame_cuts {F F' : Bytes → Prop} (hF : Begins F F') (hR : Robust ⟨F, EndsWithChar⟩) (hw : Good w) (hn : SepName n) (hr : E.tables.isBlock n = true) :
    Cuts E w n a (Frame ⟨F, EndsWithChar⟩) (Frame ⟨F', Closed⟩) where
  name := hn.toCutName
  remove := remove_fcut hR hw hn
  rename := rename_fcut _ hw hn
  redundant := by
    have bb' : ∀ n, isBoldOrItalic n = false → bothBoldOrItalic n n = false := by
      intro n h
      simp only [isBoldOrItalic, Bool.or_eq_false_iff] at h
      simp [bothBoldOrItalic, h.1, h.2]
    intro same hs
    simp only [List.mem_cons, List.not_mem_nil, or_false] at hs
    rcases hs with rfl | rfl | rfl
    · exact redundant_fcut (fun x hx => bb' _ (hw x hx).bold) (bb' _ hn.bold)
    · exact redundant_fcut (fun x hx => by simp [bothLink, (hw x hx).link]) (by simp [bothLink, hn.link])
    · exact redundant_fcut (fun x hx => by simp [Render.bothStrike, (hw x hx).strike]) (by simp [Render.bothStrike, hn.strike])
  adjacent := by
    intro k hk
    simp only [List.mem_cons, List.not_mem_nil, or_false] at hk
    rcases hk with rfl | rfl | rfl
    · exact adjacent_fcut (fun x hx => ⟨(hw x hx).span, (hw x hx).bold⟩) (by decide) (by decide) hn.span hn.bold
    · exact adjacent_fcut (fun x hx => ⟨(hw x hx).span, (hw x hx).code⟩) (by decide) (by decide) hn.span hn.code
    · exact adjacent_fcut (fun x hx => ⟨(hw x hx).span, (hw x hx).strike⟩) (by decide) (by decide) hn.span hn.strike
  merge := by
    intro k hk cs hc
    simp only [List.mem_cons, List.not_mem_nil, or_false] at hk
    rcases hk with rfl | rfl | rfl
    · exact merge_frame (by decide) hc
    · exact merge_frame (by decide) hc
    · exact merge_frame (by decide) hc
  emptyCode := emptyCode_fcut hw hn
  swap := by
    intro p ho
    simp only [List.mem_cons, List.not_mem_nil, or_false] at ho
    rcases ho with rfl | rfl | rfl
    · exact swap_fcut (fun x hx => (hw x hx).code) hn.code
    · exact swap_fcut (fun x hx => (hw x hx).bold) hn.bold
    · exact swap_fcut (fun x hx => (hw x hx).link) hn.link
  space := space_fcut hR hn.span hn.bold
  leaf := leaf_fcut hw
  move := move_fcut hw hn
  collapse := by
    refine collapse_fcut hF ?_ rfl ?_ ?_
    · intro x hx
      have h := hw x hx
      simp [Collapse.baseFuncs, h.pre, h.code']
    · show (!Render.isRemoved n && E.tables.isBlock n) = true
      rw [hr, hn.kept]; rfl
    · simp [Collapse.baseFuncs, hn.pre, hn.code']
  listEnd := listEnd_fcut hw hn

theorem preRender_frame (hw : Good w) (hn : SepName n) (hr : E.tables.isBlock n = true) : FCut w n a (Frame visEnds) (Frame ⟨Vis, Closed⟩) (Render.preRender E) :=
  (frame_cuts vis_begins visEnds_robust hw hn hr).preRender

end Verif.Cut
