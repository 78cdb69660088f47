import Verif.Proofs.DomBlocks
/-!
# The normalisation as a whole
-/

namespace Verif.Dom
open Verif Verif.DomUtils Verif.Spec

mutual
/-- Horizontal rules have no content. -/
def hrOK : Node → Bool
  | .elem n _ cs => (n ≠ b!"hr" || cs.isEmpty) && hrOKL cs
  | .document cs => hrOKL cs
  | .text _ => true
  | .comment _ => true
  | .doctype _ => true
def hrOKL : List Node → Bool
  | [] => true
  | n :: ns => hrOK n && hrOKL ns
end

theorem hrOKL_all (ns : List Node) : hrOKL ns = ns.all hrOK := by
  induction ns with
  | nil => rfl
  | cons n ns ih => rw [hrOKL, List.all_cons, ih]

theorem hrOKL_append (a b : List Node) : hrOKL (a ++ b) = (hrOKL a && hrOKL b) := by
  rw [hrOKL_all, hrOKL_all, hrOKL_all, List.all_append]

theorem hrEmpty_append {a b : List Node} : HrEmpty (a ++ b) ↔ HrEmpty a ∧ HrEmpty b := by
  constructor
  · intro h
    exact ⟨fun x hx => h x (by simp [hx]), fun x hx => h x (by simp [hx])⟩
  · rintro ⟨h1, h2⟩ x hx
    rcases List.mem_append.1 hx with hx | hx
    · exact h1 x hx
    · exact h2 x hx

theorem hrEmpty_cons {a : Node} {b : List Node} : HrEmpty (a :: b) ↔ (a.name = b!"hr" → a.children = []) ∧ HrEmpty b := by
  constructor
  · intro h
    exact ⟨h a (by simp), fun x hx => h x (by simp [hx])⟩
  · rintro ⟨h1, h2⟩ x hx
    rcases List.mem_cons.1 hx with rfl | hx
    · exact h1
    · exact h2 x hx

theorem hrOK_iff : (∀ n, hrOK n = true ↔ HrEmpty (nodes n)) ∧ (∀ ns, hrOKL ns = true ↔ HrEmpty (nodesL ns)) := by
  apply induct
  · intro d; simp [hrOK, HrEmpty, nodes, Node.children]
  · intro d; simp [hrOK, HrEmpty, nodes, Node.children]
  · intro d; simp [hrOK, HrEmpty, nodes, Node.children]
  · intro cs ih
    rw [hrOK, nodes, hrEmpty_cons, ih]
    simp [Node.name]
  · intro n a cs ih
    rw [hrOK, nodes, hrEmpty_cons, Bool.and_eq_true, ih]
    simp only [Node.name, Node.children, ne_eq, Bool.or_eq_true, decide_eq_true_eq, List.isEmpty_iff]
    constructor
    · rintro ⟨h1, h2⟩
      exact ⟨fun hn => h1.resolve_left (fun h => h hn), h2⟩
    · rintro ⟨h1, h2⟩
      refine ⟨?_, h2⟩
      by_cases hn : n = b!"hr"
      · exact .inr (h1 hn)
      · exact .inl hn
  · simp [hrOKL, HrEmpty, nodesL]
  · intro n ns ih1 ih2
    rw [hrOKL, nodesL, hrEmpty_append, Bool.and_eq_true, ih1, ih2]

theorem hr_rename (T : NameTables) : (∀ n, hrOK n = true → hrOK (renameFakeSpans T n) = true) ∧
    (∀ ns, hrOKL ns = true → hrOKL (renameFakeSpansL T ns) = true ∧ (ns = [] → renameFakeSpansL T ns = [])) := by
  apply induct
  · intro d _; rfl
  · intro d _; rfl
  · intro d _; rfl
  · intro cs ih h; exact (ih h).1
  · intro n a cs ih h
    rw [hrOK, Bool.and_eq_true] at h
    rw [renameFakeSpans, hrOK, (ih h.2).1, Bool.and_true]
    split
    · rename_i hs
      rfl
    · have := h.1
      simp only [ne_eq, Bool.or_eq_true, decide_eq_true_eq, List.isEmpty_iff] at this ⊢
      rcases this with h1 | h1
      · exact .inl h1
      · exact .inr ((ih h.2).2 h1)
  · intro _; exact ⟨rfl, fun _ => rfl⟩
  · intro n ns ih1 ih2 h
    rw [hrOKL, Bool.and_eq_true] at h
    exact ⟨by rw [renameFakeSpansL, hrOKL, ih1 h.1, (ih2 h.2).1]; rfl, by simp⟩

theorem hr_redundant (same : Bytes → Bytes → Bool) :
    (∀ n, hrOK n = true → ∀ anc, hrOKL (removeRedundantIn same anc n) = true) ∧
    (∀ ns, hrOKL ns = true → ∀ anc, hrOKL (removeRedundantL same anc ns) = true ∧ (ns = [] → removeRedundantL same anc ns = [])) := by
  apply induct
  · intro d _ _; rfl
  · intro d _ _; rfl
  · intro d _ _; rfl
  · intro cs ih h anc
    rw [removeRedundantIn, hrOKL, hrOK, (ih h _).1]; rfl
  · intro n a cs ih h anc
    rw [hrOK, Bool.and_eq_true] at h
    rw [removeRedundantIn]
    split
    · exact (ih h.2 _).1
    · rw [hrOKL, hrOK, (ih h.2 _).1]
      have := h.1
      simp only [ne_eq, Bool.or_eq_true, decide_eq_true_eq, List.isEmpty_iff, hrOKL, Bool.and_true] at this ⊢
      rcases this with h1 | h1
      · exact .inl h1
      · exact .inr ((ih h.2 _).2 h1)
  · intro _ anc; exact ⟨rfl, fun _ => rfl⟩
  · intro n ns ih1 ih2 h anc
    rw [hrOKL, Bool.and_eq_true] at h
    exact ⟨by rw [removeRedundantL, hrOKL_append, ih1 h.1, (ih2 h.2 _).1]; rfl, by simp⟩

theorem hr_removeRedundant (same : Bytes → Bytes → Bool) (n : Node) (h : hrOK n = true) : hrOK (removeRedundant same n) = true := by
  cases n with
  | elem n a cs =>
    rw [hrOK, Bool.and_eq_true] at h
    rw [removeRedundant, hrOK, ((hr_redundant same).2 cs h.2 _).1]
    have := h.1
    simp only [ne_eq, Bool.or_eq_true, decide_eq_true_eq, List.isEmpty_iff, Bool.and_true] at this ⊢
    rcases this with h1 | h1
    · exact .inl h1
    · exact .inr (((hr_redundant same).2 cs h.2 _).2 h1)
  | document cs => exact ((hr_redundant same).2 cs h _).1
  | text d => rfl
  | comment d => rfl
  | doctype d => rfl

theorem hr_collect (m : Bytes → Bool) :
    (∀ n, hrOK n = true → hrOKL (collectNode m n).moved = true ∧ hrOKL (collectNode m n).left = true) ∧
    (∀ ns, hrOKL ns = true → hrOKL (collectL m ns).moved = true ∧ hrOKL (collectL m ns).left = true) := by
  apply induct
  · intro d _; exact ⟨rfl, rfl⟩
  · intro d _; exact ⟨rfl, rfl⟩
  · intro d _; exact ⟨rfl, rfl⟩
  · intro cs ih h
    simp only [collectNode, hrOKL, h]; simp
  · intro n a cs ih h
    have h0 := h
    rw [hrOK, Bool.and_eq_true] at h
    rw [collectNode]
    split
    · rename_i hn
      subst hn
      simp [hrOKL, hrOK, (ih h.2).1, (ih h.2).2]
    · split
      · exact ⟨h.2, rfl⟩
      · exact ⟨rfl, by rw [hrOKL, h0]; rfl⟩
  · intro _; exact ⟨rfl, rfl⟩
  · intro n ns ih1 ih2 h
    rw [hrOKL, Bool.and_eq_true] at h
    rw [collectL]
    simp only
    split
    · simp [hrOKL_append, ih1 h.1, ih2 h.2]
    · simp [hrOKL_append, ih1 h.1, h.2]

/-- Horizontal rules have no content in what is still to be visited. -/
def hrOKF (fs : List (List Node)) : Bool := fs.all hrOKL

theorem hr_collectFrames (m : Bytes → Bool) : ∀ fs, hrOKF fs = true →
    hrOKL (collectFrames m fs).1 = true ∧ hrOKF (collectFrames m fs).2 = true
  | [], _ => ⟨rfl, rfl⟩
  | f :: fs, h => by
    rw [hrOKF, List.all_cons, Bool.and_eq_true] at h
    have h1 := (hr_collect m).2 f h.1
    have h2 := hr_collectFrames m fs h.2
    rw [collectFrames]
    simp only
    split
    · rw [hrOKL_append, h1.1, h2.1]
      refine ⟨rfl, ?_⟩
      simp only [hrOKF, List.all_cons, h1.2, Bool.true_and]
      exact h2.2
    · refine ⟨h1.1, ?_⟩
      simp only [hrOKF, List.all_cons, h1.2, Bool.true_and]
      exact h.2

theorem hrOK_children {n : Node} (h : hrOK n = true) : hrOKL n.children = true := by
  cases n with
  | elem n a cs => rw [hrOK, Bool.and_eq_true] at h; exact h.2
  | document cs => exact h
  | text d => rfl
  | comment d => rfl
  | doctype d => rfl

theorem hr_mergeF (m : Bytes → Bool) (hm : m b!"hr" = false) (fs : List (List Node)) : hrOKF fs = true → hrOKF (mergeAdjacentF m fs) = true := by
  fun_induction mergeAdjacentF m fs with
  | case1 => intro _; rfl
  | case2 fs ih =>
    intro h
    rw [hrOKF, List.all_cons, Bool.and_eq_true] at h ⊢
    exact ⟨rfl, ih h.2⟩
  | case3 n cs fs ks cs' fs' heq ih =>
    intro h
    rw [hrOKF, List.all_cons, Bool.and_eq_true] at h
    have h1 := h.1
    rw [hrOKL, Bool.and_eq_true] at h1
    have hstep : hrOKF (mergeStep m n cs fs) = true := by
      rw [mergeStep]
      split
      · have hc := hr_collectFrames m (cs :: fs) (by simp only [hrOKF, List.all_cons, h1.2, Bool.true_and]; exact h.2)
        simp only [hrOKF, List.all_cons, hrOKL_append, hrOK_children h1.1, hc.1, Bool.true_and]
        exact hc.2
      · simp only [hrOKF, List.all_cons, hrOK_children h1.1, h1.2, Bool.true_and]
        exact h.2
    have ih2 := ih hstep
    rw [heq] at ih2
    simp only [hrOKF, List.all_cons, Bool.and_eq_true] at ih2 ⊢
    refine ⟨?_, ih2.2.2⟩
    rw [hrOKL, ih2.2.1, Bool.and_true]
    cases n with
    | elem n a k =>
      rw [withChildren, hrOK, ih2.1, Bool.and_true]
      have h2 := h1.1
      rw [hrOK, Bool.and_eq_true] at h2
      have h3 := h2.1
      simp only [ne_eq, Bool.or_eq_true, decide_eq_true_eq, List.isEmpty_iff] at h3 ⊢
      rcases h3 with h3 | h3
      · exact .inl h3
      · by_cases hn : n = b!"hr"
        · right
          subst hn
          subst h3
          rw [mergeStep] at heq
          simp only [Node.name, hm, Bool.false_and, Bool.false_eq_true, if_false, Node.children] at heq
          rw [mergeAdjacentF] at heq
          simp only [List.cons.injEq] at heq
          exact heq.1.symm
        · exact .inl hn
    | document k => rw [withChildren, hrOK]; exact ih2.1
    | text d => rfl
    | comment d => rfl
    | doctype d => rfl
  | case4 n cs fs h ih => intro _; rfl

theorem hr_mergeAdjacent (m : Bytes → Bool) (hm : m b!"hr" = false) (n : Node) (h : hrOK n = true) : hrOK (mergeAdjacent m n) = true := by
  obtain ⟨ks, hk⟩ := mergeAdjacentF_single m n
  have := hr_mergeF m hm [[n]] (by simp [hrOKF, hrOKL, h])
  rw [mergeAdjacent, hk]
  rw [hk] at this
  simpa [hrOKF, hrOKL] using this

theorem hr_emptyCode : (∀ n, hrOK n = true → hrOK (removeEmptyCode n) = true) ∧
    (∀ ns, hrOKL ns = true → hrOKL (removeEmptyCodeL ns) = true ∧ (ns = [] → removeEmptyCodeL ns = [])) := by
  apply induct
  · intro d _; rfl
  · intro d _; rfl
  · intro d _; rfl
  · intro cs ih h; exact (ih h).1
  · intro n a cs ih h
    rw [hrOK, Bool.and_eq_true] at h
    rw [removeEmptyCode, hrOK, (ih h.2).1, Bool.and_true]
    have := h.1
    simp only [ne_eq, Bool.or_eq_true, decide_eq_true_eq, List.isEmpty_iff] at this ⊢
    rcases this with h1 | h1
    · exact .inl h1
    · exact .inr ((ih h.2).2 h1)
  · intro _; exact ⟨rfl, fun _ => rfl⟩
  · intro n ns ih1 ih2 h
    rw [hrOKL, Bool.and_eq_true] at h
    refine ⟨?_, by simp⟩
    rw [removeEmptyCodeL]
    split
    · exact (ih2 h.2).1
    · rw [hrOKL, ih1 h.1, (ih2 h.2).1]; rfl

theorem hr_swap (outer inner : Bytes → Bool) (ho : outer b!"hr" = false) (hi : inner b!"hr" = false) :
    (∀ n, hrOK n = true → hrOK (swapTags outer inner n) = true) ∧
    (∀ ns, hrOKL ns = true → hrOKL (swapTagsL outer inner ns) = true ∧ (ns = [] → swapTagsL outer inner ns = [])) := by
  apply induct
  · intro d _; rfl
  · intro d _; rfl
  · intro d _; rfl
  · intro cs ih h; exact (ih h).1
  · intro n a cs ih h
    rw [hrOK, Bool.and_eq_true] at h
    have plain : hrOK (.elem n a (swapTagsL outer inner cs)) = true := by
      rw [hrOK, (ih h.2).1, Bool.and_true]
      have := h.1
      simp only [ne_eq, Bool.or_eq_true, decide_eq_true_eq, List.isEmpty_iff] at this ⊢
      rcases this with h1 | h1
      · exact .inl h1
      · exact .inr ((ih h.2).2 h1)
    rw [swapTags]
    split
    · rename_i n' a' ks hf
      split
      · rename_i hoi
        rw [Bool.and_eq_true] at hoi
        have hn : n ≠ b!"hr" := by rintro rfl; rw [ho] at hoi; simp at hoi
        have hn' : n' ≠ b!"hr" := by rintro rfl; rw [hi] at hoi; simp at hoi
        rw [hrOK, hrOKL_all, List.all_map, Bool.and_eq_true]
        refine ⟨by simp [hn'], ?_⟩
        rw [List.all_eq_true]
        intro c hc
        simp only [Function.comp]
        split
        · rename_i he
          obtain ⟨d, rfl, _⟩ := isEmptyText_txts c he
          rfl
        · have hmem : Node.elem n' a' ks ∈ cs := by
            have : Node.elem n' a' ks ∈ cs.filter fun c => !isEmptyText c := by rw [hf]; simp
            exact (List.mem_filter.1 this).1
          have h2 := h.2
          rw [hrOKL_all, List.all_eq_true] at h2
          have := h2 _ hmem
          rw [hrOK, Bool.and_eq_true] at this
          rw [hrOK, this.2]
          simp [hn]
      · exact plain
    · exact plain
  · intro _; exact ⟨rfl, fun _ => rfl⟩
  · intro n ns ih1 ih2 h
    rw [hrOKL, Bool.and_eq_true] at h
    exact ⟨by rw [swapTagsL, hrOKL, ih1 h.1, (ih2 h.2).1]; rfl, by simp⟩

theorem hr_mapTexts (f : Nat → Bytes → Bytes) : (∀ n, hrOK n = true → ∀ k, hrOK (mapTexts f k n).1 = true) ∧
    (∀ ns, hrOKL ns = true → ∀ k, hrOKL (mapTextsL f k ns).1 = true ∧ (ns = [] → (mapTextsL f k ns).1 = [])) := by
  apply induct
  · intro d _ k; rfl
  · intro d _ k; rfl
  · intro d _ k; rfl
  · intro cs ih h k; exact (ih h k).1
  · intro n a cs ih h k
    rw [hrOK, Bool.and_eq_true] at h
    simp only [mapTexts]
    rw [hrOK, (ih h.2 k).1, Bool.and_true]
    have := h.1
    simp only [ne_eq, Bool.or_eq_true, decide_eq_true_eq, List.isEmpty_iff] at this ⊢
    rcases this with h1 | h1
    · exact .inl h1
    · exact .inr ((ih h.2 k).2 h1)
  · intro _ k; exact ⟨rfl, fun _ => rfl⟩
  · intro n ns ih1 ih2 h k
    rw [hrOKL, Bool.and_eq_true] at h
    refine ⟨?_, by simp⟩
    simp only [mapTextsL, hrOKL]
    rw [ih1 h.1, (ih2 h.2 _).1]; rfl

/-- The visible characters of some texts. -/
def vis (l : List Bytes) : Bytes := l.flatMap visible

theorem vis_map (l : List Bytes) : vis l = (l.map visible).flatten := by simp [vis, List.flatMap_def]

theorem vis_nonempty (l : List Bytes) : vis (l.filter fun d => !d.isEmpty) = vis l := by
  induction l with
  | nil => rfl
  | cons d l ih =>
    rw [List.filter_cons]
    cases d with
    | nil => simpa [vis, visible_nil] using ih
    | cons b d => simpa [vis] using ih

theorem vis_solid (l : List Bytes) : vis (solid l) = vis l := by
  induction l with
  | nil => rfl
  | cons d l ih =>
    rw [solid, List.filter_cons]
    split
    · simpa [vis, solid] using ih
    · rename_i h
      have : trimSpace d = [] := by simpa using h
      have hv : visible d = [] := by rw [← visible_trimSpace, this, visible_nil]
      simpa [vis, solid, hv] using ih

theorem unquoted_vis (l : List Bytes) : unquoted l = (vis l).filter (· ≠ 34) := rfl

theorem mergeOK_boldItalic : MergeOK isBoldOrItalic := ⟨by decide, by decide, by decide, by decide, by decide⟩
theorem mergeOK_code : MergeOK isInlineCode := ⟨by decide, by decide, by decide, by decide, by decide⟩

theorem handlePreRender_vis (T : NameTables) (doc : Node) (h : HrEmpty (nodes doc)) :
    (vis (txts (handlePreRender T doc))).filter (· ≠ 34) = (vis (txts doc)).filter (· ≠ 34) := by
  have h := hrOK_iff.1 doc |>.2 h
  rw [handlePreRender]
  have h1 := (hr_rename T).1 doc h
  generalize hd1 : renameFakeSpans T doc = d1 at *
  have h2 := hr_removeRedundant bothBoldOrItalic d1 h1
  generalize hd2 : removeRedundant bothBoldOrItalic d1 = d2 at *
  have h3 := hr_mergeAdjacent isBoldOrItalic (by decide) d2 h2
  generalize hd3 : mergeAdjacent isBoldOrItalic d2 = d3 at *
  have h4 := hr_emptyCode.1 d3 h3
  generalize hd4 : removeEmptyCode d3 = d4 at *
  have h5 := (hr_swap isInlineCode isPre (by decide) (by decide)).1 d4 h4
  generalize hd5 : swapTags isInlineCode isPre d4 = d5 at *
  have h6 := hr_mergeAdjacent isInlineCode (by decide) d5 h5
  generalize hd6 : mergeAdjacent isInlineCode d5 = d6 at *
  have h7 : hrOK (addSpace isBoldOrItalic isInlineCode d6) = true := (hr_mapTexts _).1 d6 h6 0
  generalize hd7 : addSpace isBoldOrItalic isInlineCode d6 = d7 at *
  have h8 := hr_removeRedundant bothLink d7 h7
  generalize hd8 : removeRedundant bothLink d7 = d8 at *
  have h9 := (hr_swap isBoldOrItalic isLink (by decide) (by decide)).1 d8 h8
  generalize hd9 : swapTags isBoldOrItalic isLink d8 = d9 at *
  have h10 := (hr_swap isLink isHeading (by decide) (by decide)).1 d9 h9
  generalize hd10 : swapTags isLink isHeading d9 = d10 at *
  rw [← vis_solid, moveListItems_solid.1, vis_solid]
  have e := leaf_txts.1 d10 (hrOK_iff.1 d10 |>.1 h10) false false
  rw [leafAlternatives_eq, txtsL_singleton, unquoted_vis, unquoted_vis] at e
  rw [e]
  rw [← hd10, (swapTags_txts _ _).1, ← hd9, (swapTags_txts _ _).1, ← hd8, removeRedundant_txts, vis_map, ← hd7, addSpace_visible, ← vis_map,
    ← hd6, mergeAdjacent_txts _ mergeOK_code, ← hd5, (swapTags_txts _ _).1, ← vis_nonempty, ← hd4, removeEmptyCode_txts.1, vis_nonempty,
    ← hd3, mergeAdjacent_txts _ mergeOK_boldItalic, ← hd2, removeRedundant_txts, ← hd1, (renameFakeSpans_txts T).1]

end Verif.Dom
