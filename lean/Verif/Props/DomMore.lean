import Verif.Proofs.DomSpace
import Verif.Proofs.DomMerge
import Verif.Props.Dom
/-!
# More properties of the normalisation of the tree (C37, C39-C41 for all steps together, C74, C75)
-/
set_option linter.unusedSimpArgs false

namespace Verif.Props
open Verif Verif.Dom Verif.DomUtils Verif.Spec

/-! ## C40: what is merged -/

/-- Afterwards no two bold or italic elements stand next to each other. -/
theorem c40_no_neighbours (doc x : Node) (hx : x ∈ nodes (mergeAdjacent isBoldOrItalic doc)) (pre post : List Node) (a b : Node)
    (h : x.children = pre ++ a :: b :: post) (ha : a.name ∈ [b!"strong", b!"b", b!"em", b!"i"]) : b.name ∉ [b!"strong", b!"b", b!"em", b!"i"] := by
  have := noAdjM_split isBoldOrItalic ((goodM_nodes isBoldOrItalic).1 _ (mergeAdjacent_good _ mergeOK_boldItalic doc) x hx) h ((isBoldOrItalic_iff _).2 ha)
  rw [← isBoldOrItalic_iff, this]
  simp

/-- The same for inline code. -/
theorem c40_no_neighbours_code (doc x : Node) (hx : x ∈ nodes (mergeAdjacent isInlineCode doc)) (pre post : List Node) (a b : Node)
    (h : x.children = pre ++ a :: b :: post) (ha : a.name ∈ [b!"code", b!"var", b!"samp", b!"kbd", b!"tt"]) :
    b.name ∉ [b!"code", b!"var", b!"samp", b!"kbd", b!"tt"] := by
  have := noAdjM_split isInlineCode ((goodM_nodes isInlineCode).1 _ (mergeAdjacent_good _ mergeOK_code doc) x hx) h ((isInlineCode_iff _).2 ha)
  rw [← isInlineCode_iff, this]
  simp

/-- `<p><b>a</b><i>b</i><em>c</em>d<b>e</b></p>` -/
example : mergeAdjacent isBoldOrItalic (.elem b!"p" [] [.elem b!"b" [] [.text b!"a"], .elem b!"i" [] [.text b!"b"], .elem b!"em" [] [.text b!"c"],
      .text b!"d", .elem b!"b" [] [.text b!"e"]]) =
    .elem b!"p" [] [.elem b!"b" [] [.text b!"a", .text b!"b", .text b!"c"], .text b!"d", .elem b!"b" [] [.text b!"e"]] := by
  simp [mergeAdjacent, mergeAdjacentF, mergeStep, collectFrames, collectL, collectNode, isBoldOrItalic, isBold, isItalic, Node.name, Node.children, withChildren]

/-! ## All steps together -/

/-- **C37**: after all steps, every child of a list is an item or a blank text. -/
theorem c37_document (T : NameTables) (doc x : Node) (hx : x ∈ nodes (handlePreRender T doc)) (hl : isList x.name) (c : Node) (hc : c ∈ x.children) :
    (∃ a ks, c = .elem b!"li" a ks) ∨ ∃ d, c = .text d ∧ AllWhitespace d := c37_items _ x hx hl c hc

/-- **C39**: after all steps, no link is inside a link. -/
theorem c39_links_document (T : NameTables) (doc : Node) (i : Item) (hi : i ∈ items [] (handlePreRender T doc)) (a : List (Bytes × Bytes))
    (ha : i.what = .elem b!"a" a) : ∀ x ∈ i.anc, x ≠ b!"a" := by
  have hcl : isLink b!"#document" = false := by decide
  have start : ∀ d, Outside isLink isLink false (removeRedundant bothLink d) := by
    intro d
    have := (outside_items (bad := isLink) (closed := isLink) hcl).1 (removeRedundant bothLink d) []
    rw [List.any_nil] at this
    rw [this]
    intro i hi k a' hk hb
    have hk' : i.what.name = b!"a" := by
      rw [hk]; simpa [isLink, What.name] using hb
    have := c39_no_nested_links d i hi hk'
    rw [List.any_eq_false]
    intro x hx
    simpa [isLink] using this x hx
  have h : Outside isLink isLink false (handlePreRender T doc) := by
    unfold handlePreRender
    refine (moveListItems_outside (by decide) (by decide) (by decide) (by decide)).1 _ _ ?_
    have hleaf := fun n h => (leaf_outsideOf (bad := isLink) (closed := isLink) (by decide) (by decide) (by decide) (by decide) (by decide) (by decide) (by decide)).1
      n false false false h
    have hl1 : ∀ n, Outside isLink isLink false n → Outside isLink isLink false (leafAlternatives n) := by
      intro n hn
      have := hleaf n hn
      rw [leafAlternatives_eq] at this
      exact this.1
    exact hl1 _ ((swap_outside _ _).1 _ _ ((swap_outside _ _).1 _ _ (start _)))
  have := ((outside_items (bad := isLink) (closed := isLink) hcl).1 (handlePreRender T doc) []).1 (by simpa using h) i hi b!"a" a ha (by decide)
  rw [List.any_eq_false] at this
  intro x hx he
  exact this x hx (by rw [he]; decide)

/-- **C41**: after all steps, no heading, link, emphasis or code contains a block. -/
theorem c41_document (T : NameTables) (doc : Node) (i : Item) (hi : i ∈ items [] (handlePreRender T doc)) (n : Bytes) (a : List (Bytes × Bytes))
    (hn : i.what = .elem n a) (hb : n ∈ markdownBlocks) : ∀ x ∈ i.anc, x ∉ noBlocksInside := by
  have hcl : isNarrow b!"#document" = false := by decide
  have start : ∀ d, Outside isBlockName isNarrow false (leafAlternatives d) := by
    intro d
    have := (outside_items (bad := isBlockName) (closed := isNarrow) hcl).1 (leafAlternatives d) []
    rw [List.any_nil] at this
    rw [this]
    intro i hi k a' hk hb
    have h := leaf_outside.1 d [] rfl i
    rw [leafAlternatives_eq, itemsL_singleton] at h
    exact h hi (by rw [hk]; exact hb)
  have h : Outside isBlockName isNarrow false (handlePreRender T doc) := by
    unfold handlePreRender
    exact (moveListItems_outside (by decide) (by decide) (by decide) (by decide)).1 _ _ (start _)
  have hall : ∀ n ∈ markdownBlocks, isBlockName n = true := by decide
  have hall2 : ∀ n ∈ noBlocksInside, isNarrow n = true := by decide
  have := ((outside_items (bad := isBlockName) (closed := isNarrow) hcl).1 (handlePreRender T doc) []).1 (by simpa using h) i hi n a hn (hall n hb)
  rw [List.any_eq_false] at this
  intro x hx hm
  exact this x hx (hall2 x hm)

/-- **C39** is false for bold elements after all steps: merging comes after removing what is redundant.  In `<b>A</b><i><b>B</b></i>` the content of
the italic element, which is bold, is moved into the first element. -/
theorem c39_counterexample_document (T : NameTables) :
    handlePreRender T (.elem b!"p" [] [.elem b!"b" [] [.text b!"A"], .elem b!"i" [] [.elem b!"b" [] [.text b!"B"]]]) =
      .elem b!"p" [] [.elem b!"b" [] [.text b!"A", .elem b!"b" [] [.text b!"B"]]] := by
  have h1 : renameFakeSpans T (.elem b!"p" [] [.elem b!"b" [] [.text b!"A"], .elem b!"i" [] [.elem b!"b" [] [.text b!"B"]]]) =
    .elem b!"p" [] [.elem b!"b" [] [.text b!"A"], .elem b!"i" [] [.elem b!"b" [] [.text b!"B"]]] := by
    simp [renameFakeSpans, renameFakeSpansL]
  have h2 : removeRedundant bothBoldOrItalic (.elem b!"p" [] [.elem b!"b" [] [.text b!"A"], .elem b!"i" [] [.elem b!"b" [] [.text b!"B"]]]) =
    .elem b!"p" [] [.elem b!"b" [] [.text b!"A"], .elem b!"i" [] [.elem b!"b" [] [.text b!"B"]]] := by rfl
  have h3 : mergeAdjacent isBoldOrItalic (.elem b!"p" [] [.elem b!"b" [] [.text b!"A"], .elem b!"i" [] [.elem b!"b" [] [.text b!"B"]]]) =
    .elem b!"p" [] [.elem b!"b" [] [.text b!"A", .elem b!"b" [] [.text b!"B"]]] := by
    simp [mergeAdjacent, mergeAdjacentF, mergeStep, collectFrames, collectL, collectNode, isBoldOrItalic, isBold, isItalic, Node.name, Node.children, withChildren]
  have h4 : mergeAdjacent isInlineCode (.elem b!"p" [] [.elem b!"b" [] [.text b!"A", .elem b!"b" [] [.text b!"B"]]]) =
    .elem b!"p" [] [.elem b!"b" [] [.text b!"A", .elem b!"b" [] [.text b!"B"]]] := by
    simp [mergeAdjacent, mergeAdjacentF, mergeStep, collectFrames, collectL, collectNode, isInlineCode, Node.name, Node.children, withChildren]
  have h5 : ∀ outer inner, inner b!"b" = false → swapTags outer inner (.elem b!"p" [] [.elem b!"b" [] [.text b!"A", .elem b!"b" [] [.text b!"B"]]]) =
    .elem b!"p" [] [.elem b!"b" [] [.text b!"A", .elem b!"b" [] [.text b!"B"]]] := by
    intro outer inner hi
    have hA : isEmptyText (.text b!"A") = false := by decide
    have hB : isEmptyText (.text b!"B") = false := by decide
    have hE : ∀ n a c, isEmptyText (.elem n a c) = false := by intros; rfl
    simp [swapTags, swapTagsL, hi, hA, hB, hE]
  have h6 : removeEmptyCode (.elem b!"p" [] [.elem b!"b" [] [.text b!"A", .elem b!"b" [] [.text b!"B"]]]) =
    .elem b!"p" [] [.elem b!"b" [] [.text b!"A", .elem b!"b" [] [.text b!"B"]]] := by rfl
  have h7 : addSpace isBoldOrItalic isInlineCode (.elem b!"p" [] [.elem b!"b" [] [.text b!"A", .elem b!"b" [] [.text b!"B"]]]) =
    .elem b!"p" [] [.elem b!"b" [] [.text b!"A", .elem b!"b" [] [.text b!"B"]]] := by rfl
  have h8 : removeRedundant bothLink (.elem b!"p" [] [.elem b!"b" [] [.text b!"A", .elem b!"b" [] [.text b!"B"]]]) =
    .elem b!"p" [] [.elem b!"b" [] [.text b!"A", .elem b!"b" [] [.text b!"B"]]] := by rfl
  have h9 : moveListItems (leafAlternatives (.elem b!"p" [] [.elem b!"b" [] [.text b!"A", .elem b!"b" [] [.text b!"B"]]])) =
    .elem b!"p" [] [.elem b!"b" [] [.text b!"A", .elem b!"b" [] [.text b!"B"]]] := by rfl
  simp only [handlePreRender]
  rw [h1, h2, h3, h6, h5 _ _ (by decide), h4, h7, h8, h5 _ _ (by decide), h5 _ _ (by decide), h9]

/-! ## C74: spans around blocks -/

/-- **C74**: a `span` that contains a block, at any depth, becomes a `div`; no other node changes, and none is moved. -/
theorem c74_spans (T : NameTables) (doc : Node) :
    (items [] (renameFakeSpans T doc)).map (fun i => i.what) =
      (nodes doc).map (fun x => match x with
        | .elem n a cs => if n = b!"span" ∧ ∃ y ∈ nodes (.elem n a cs), T.isBlock y.name = true then .elem b!"div" a else .elem n a
        | x => whatIs x) ∧
    (items [] (renameFakeSpans T doc)).map (fun i => i.anc.length) = (items [] doc).map (fun i => i.anc.length) := by
  constructor
  · have : (∀ n, ∀ anc, (items anc (renameFakeSpans T n)).map (fun i => i.what) =
        (nodes n).map (fun x => match x with
          | .elem n a cs => if n = b!"span" ∧ ∃ y ∈ nodes (.elem n a cs), T.isBlock y.name = true then .elem b!"div" a else .elem n a
          | x => whatIs x)) ∧
      (∀ ns, ∀ anc, (itemsL anc (renameFakeSpansL T ns)).map (fun i => i.what) =
        (nodesL ns).map (fun x => match x with
          | .elem n a cs => if n = b!"span" ∧ ∃ y ∈ nodes (.elem n a cs), T.isBlock y.name = true then .elem b!"div" a else .elem n a
          | x => whatIs x)) := by
      apply induct
      · intro d anc; rfl
      · intro d anc; rfl
      · intro d anc; rfl
      · intro cs ih anc
        simp only [renameFakeSpans, items, nodes, List.map_cons, ih]
        rfl
      · intro n a cs ih anc
        rw [renameFakeSpans, items, List.map_cons, ih, nodes, List.map_cons]
        congr 1
        simp only
        have hb : (T.isBlock n || hasBlockL T cs) = true ↔ ∃ y ∈ nodes (Node.elem n a cs), T.isBlock y.name = true := by
          rw [nodes, (hasBlock_nodes T).2, ← List.any_eq_true, List.any_cons]; rfl
        by_cases h : n = b!"span" ∧ ∃ y ∈ nodes (Node.elem n a cs), T.isBlock y.name = true
        · rw [if_pos h, if_pos ⟨h.1, hb.2 h.2⟩]
        · rw [if_neg h, if_neg fun hh => h ⟨hh.1, hb.1 hh.2⟩]
      · intro anc; rfl
      · intro n ns ih1 ih2 anc
        rw [renameFakeSpansL, itemsL, List.map_append, ih1, ih2, nodesL, List.map_append]
    exact this.1 doc []
  · have : (∀ n, ∀ anc anc' : List Bytes, anc.length = anc'.length → (items anc (renameFakeSpans T n)).map (fun i => i.anc.length) = (items anc' n).map (fun i => i.anc.length)) ∧
      (∀ ns, ∀ anc anc' : List Bytes, anc.length = anc'.length → (itemsL anc (renameFakeSpansL T ns)).map (fun i => i.anc.length) = (itemsL anc' ns).map (fun i => i.anc.length)) := by
      apply induct
      · intro d anc anc' h; simp [renameFakeSpans, items, h]
      · intro d anc anc' h; simp [renameFakeSpans, items, h]
      · intro d anc anc' h; simp [renameFakeSpans, items, h]
      · intro cs ih anc anc' h
        simp only [renameFakeSpans, items, List.map_cons, h]
        rw [ih _ (b!"#document" :: anc') (by simp [h])]
      · intro n a cs ih anc anc' h
        rw [renameFakeSpans]
        simp only [items, List.map_cons, h]
        rw [ih _ (n :: anc') (by simp [h])]
      · intro anc anc' _; rfl
      · intro n ns ih1 ih2 anc anc' h
        rw [renameFakeSpansL, itemsL, itemsL, List.map_append, List.map_append, ih1 _ _ h, ih2 _ _ h]
    exact this.1 doc [] [] rfl

/-- `<span>a<b><p>b</p></b></span><span>c</span>` -/
example (T : NameTables) (hT : ∀ n ∈ [b!"span", b!"b", b!"#text", b!"p"], T.isBlock n = decide (n = b!"p")) :
    renameFakeSpans T (.document [.elem b!"span" [] [.text b!"a", .elem b!"b" [] [.elem b!"p" [] [.text b!"b"]]], .elem b!"span" [] [.text b!"c"]]) =
    .document [.elem b!"div" [] [.text b!"a", .elem b!"b" [] [.elem b!"p" [] [.text b!"b"]]], .elem b!"span" [] [.text b!"c"]] := by
  simp [renameFakeSpans, renameFakeSpansL, hasBlock, hasBlockL, hT]

/-! ## C75: spaces around emphasis with code -/

/-- **C75**: the text in front of a bold or italic element that begins with inline code ends with a space. -/
theorem c75_before (doc : Node) (x y mid : List Tag) (d n : Bytes)
    (h : tags (addSpace isBoldOrItalic isInlineCode doc) = x ++ .text d :: (mid ++ .start n :: y))
    (hn : n ∈ [b!"strong", b!"b", b!"em", b!"i"]) (hm : ∀ t ∈ mid, t.skipBackward) (hb : BeginsWithCode y) : d.getLast? = some 32 := by
  rw [addSpace_tags] at h
  obtain ⟨x0, y0, h1, rfl, h3⟩ := mapTags_split _ _ _ _ _ h
  cases y0 with
  | nil => simp [mapTags] at h3
  | cons t y0 =>
    cases t with
    | text d0 =>
      simp only [mapTags, List.cons.injEq, Tag.text.injEq] at h3
      obtain ⟨rfl, h3⟩ := h3
      have hk : numTexts x0 ∈ (addedSpaces isBoldOrItalic isInlineCode [] 0 (events doc)).1 := by
        obtain ⟨m0, r0, rfl, hm0, hr0⟩ := mapTags_split _ _ _ _ _ h3.symm
        have hskip : ∀ t ∈ m0, t.skipBackward := by
          have : ∀ (l : List Tag) (k : Nat), (∀ t ∈ mapTags (spaced doc) k l, t.skipBackward) → ∀ t ∈ l, t.skipBackward := by
            intro l
            induction l with
            | nil => simp
            | cons t l ih =>
              intro k hl s hs
              cases t with
              | text d => exact absurd (hl (.text (spaced doc k d)) (by simp [mapTags])) (by simp [Tag.skipBackward])
              | _ =>
                simp only [mapTags, List.mem_cons, forall_eq_or_imp] at hl
                rcases List.mem_cons.1 hs with rfl | hs
                · exact hl.1
                · exact ih k hl.2 s hs
          exact this m0 _ (by rw [← hm0]; exact hm)
        have hev : firstIsInner isInlineCode (y.flatMap evOf) = true := (begins_iff y).2 hb
        cases r0 with
        | nil => simp [mapTags] at hr0
        | cons r r0 =>
          cases r with
          | start n0 =>
            simp only [mapTags, List.cons.injEq, Tag.start.injEq] at hr0
            obtain ⟨rfl, rfl⟩ := hr0
            rw [mapTags_ev, begins_iff] at hev
            exact (spaced_before_iff doc x0 d0 _ h1).2 ⟨m0, n, r0, rfl, hn, hskip, hev⟩
          | _ => simp [mapTags] at hr0
      have : 0 < List.count (numTexts x0) (addedSpaces isBoldOrItalic isInlineCode [] 0 (events doc)).1 := List.count_pos_iff.2 hk
      simp only [spaced, Nat.zero_add]
      generalize List.count (numTexts x0) (addedSpaces isBoldOrItalic isInlineCode [] 0 (events doc)).1 = c at this
      cases c with
      | zero => omega
      | succ c => rw [List.replicate_succ', ← List.append_assoc, List.getLast?_append]; rfl
    | _ => simp [mapTags] at h3

/-- **C75**: the text behind a bold or italic element that ends with inline code begins with a space. -/
theorem c75_after (doc : Node) (x y mid : List Tag) (d n : Bytes)
    (h : tags (addSpace isBoldOrItalic isInlineCode doc) = x ++ .stop n :: (mid ++ .text d :: y))
    (hn : n ∈ [b!"strong", b!"b", b!"em", b!"i"]) (hm : ∀ t ∈ mid, t.skipForward) (hb : EndsWithCode x) : d.head? = some 32 := by
  rw [addSpace_tags, show x ++ Tag.stop n :: (mid ++ .text d :: y) = (x ++ Tag.stop n :: mid) ++ .text d :: y by simp] at h
  obtain ⟨x0, y0, h1, h2, h3⟩ := mapTags_split _ _ _ _ _ h
  cases y0 with
  | nil => simp [mapTags] at h3
  | cons t y0 =>
    cases t with
    | text d0 =>
      simp only [mapTags, List.cons.injEq, Tag.text.injEq] at h3
      obtain ⟨rfl, h3⟩ := h3
      have hk : numTexts x0 ∈ (addedSpaces isBoldOrItalic isInlineCode [] 0 (events doc)).2 := by
        obtain ⟨z0, r0, rfl, hz0, hr0⟩ := mapTags_split _ _ _ _ _ h2.symm
        have hskip : ∀ (l : List Tag) (k : Nat), (∀ t ∈ mapTags (spaced doc) k l, t.skipForward) → ∀ t ∈ l, t.skipForward := by
          intro l
          induction l with
          | nil => simp
          | cons t l ih =>
            intro k hl s hs
            cases t with
            | text d => exact absurd (hl (.text (spaced doc k d)) (by simp [mapTags])) (by simp [Tag.skipForward])
            | _ =>
              simp only [mapTags, List.mem_cons, forall_eq_or_imp] at hl
              rcases List.mem_cons.1 hs with rfl | hs
              · exact hl.1
              · exact ih k hl.2 s hs
        have hev : lastIsInner isInlineCode ((x.flatMap evOf).reverse) = true := (ends_iff x).2 hb
        rw [hz0, mapTags_ev, ends_iff] at hev
        cases r0 with
        | nil => simp [mapTags] at hr0
        | cons r m0 =>
          cases r with
          | stop n0 =>
            simp only [mapTags, List.cons.injEq, Tag.stop.injEq] at hr0
            obtain ⟨rfl, hr0⟩ := hr0
            exact (spaced_after_iff doc _ d0 _ h1).2 ⟨z0, n, m0, rfl, hn, hskip m0 _ (by rw [← hr0]; exact hm), hev⟩
          | _ => simp [mapTags] at hr0
      have : 0 < List.count (numTexts x0) (addedSpaces isBoldOrItalic isInlineCode [] 0 (events doc)).2 := List.count_pos_iff.2 hk
      simp only [spaced, Nat.zero_add]
      generalize List.count (numTexts x0) (addedSpaces isBoldOrItalic isInlineCode [] 0 (events doc)).2 = c at this
      cases c with
      | zero => omega
      | succ c => rw [List.replicate_succ]; rfl
    | _ => simp [mapTags] at h3

/-- **C75**: nothing else changes: a text gets spaces only, and only next to such an element. -/
theorem c75_only (doc : Node) :
    nonTexts (addSpace isBoldOrItalic isInlineCode doc) = nonTexts doc ∧
    ∀ (x y : List Tag) (d : Bytes), tags doc = x ++ .text d :: y →
      ∃ x' y' i j, tags (addSpace isBoldOrItalic isInlineCode doc) = x' ++ .text (List.replicate i 32 ++ d ++ List.replicate j 32) :: y' ∧
        x'.length = x.length ∧
        (i ≠ 0 → ∃ z n mid, x = z ++ .stop n :: mid ∧ n ∈ [b!"strong", b!"b", b!"em", b!"i"] ∧ (∀ t ∈ mid, t.skipForward) ∧ EndsWithCode z) ∧
        (j ≠ 0 → ∃ mid n z, y = mid ++ .start n :: z ∧ n ∈ [b!"strong", b!"b", b!"em", b!"i"] ∧ (∀ t ∈ mid, t.skipBackward) ∧ BeginsWithCode z) := by
  refine ⟨(mapTexts_nonText _).1 doc 0 [], ?_⟩
  intro x y d h
  refine ⟨mapTags (spaced doc) 0 x, mapTags (spaced doc) (0 + numTexts x + 1) y,
    (addedSpaces isBoldOrItalic isInlineCode [] 0 (events doc)).2.count (0 + numTexts x),
    (addedSpaces isBoldOrItalic isInlineCode [] 0 (events doc)).1.count (0 + numTexts x), ?_, mapTags_length _ _ _, ?_, ?_⟩
  · rw [addSpace_tags, h, mapTags_append, mapTags]
    rfl
  · intro hi
    refine (spaced_after_iff doc x d y h).1 (List.count_pos_iff.1 ?_)
    rw [Nat.zero_add] at hi
    omega
  · intro hi
    refine (spaced_before_iff doc x d y h).1 (List.count_pos_iff.1 ?_)
    rw [Nat.zero_add] at hi
    omega

/-- `a<b><code>b</code></b>c` -/
example : addSpace isBoldOrItalic isInlineCode (.elem b!"p" [] [.text b!"a", .elem b!"b" [] [.elem b!"code" [] [.text b!"b"]], .text b!"c"]) =
    .elem b!"p" [] [.text b!"a ", .elem b!"b" [] [.elem b!"code" [] [.text b!"b"]], .text b!" c"] := by rfl

end Verif.Props
