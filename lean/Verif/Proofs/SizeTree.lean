import Verif.Spec.Size
import Verif.Proofs.DomAll
import Verif.Model.Render
/-!
# The pre-render handlers make a page larger by a constant factor at most
-/

namespace Verif.Size
open Verif Verif.DomUtils Verif.Spec Verif.Dom Verif.Collapse Verif.Render

theorem size_append (a b : List Node) : pageSizeL (a ++ b) = pageSizeL a + pageSizeL b := by
  induction a with
  | nil => simp [pageSizeL]
  | cons x a ih => rw [List.cons_append, pageSizeL, pageSizeL, ih]; omega

theorem size_pos (n : Node) : 1 ≤ pageSize n := by cases n <;> simp only [pageSize] <;> omega

/-! ## The base plugin -/

theorem size_mergeText : (∀ n, pageSize (mergeText n) ≤ pageSize n) ∧
    (∀ ns, ∀ prev, pageSizeL (mergeTextGo prev ns) ≤ pageSizeL (flush prev) + pageSizeL ns) := by
  apply induct
  · intro d; exact Nat.le_refl _
  · intro d; exact Nat.le_refl _
  · intro d; exact Nat.le_refl _
  · intro cs ih
    have := ih none
    simp only [mergeText, pageSize, flush, pageSizeL] at *; omega
  · intro n a cs ih
    have := ih none
    simp only [mergeText, pageSize, flush, pageSizeL] at *; omega
  · intro prev; rw [mergeTextGo]; simp [pageSizeL]
  · intro n ns ih1 ih2 prev
    have h0 := ih2 none
    simp only [flush, pageSizeL, Nat.zero_add] at h0
    cases n with
    | text d =>
      cases prev with
      | none =>
        have := ih2 (some d)
        rw [mergeTextGo]
        simp only [flush, pageSizeL, pageSize] at *; omega
      | some p =>
        have := ih2 (some (p ++ d))
        rw [mergeTextGo]
        simp only [flush, pageSizeL, pageSize, List.length_append] at *; omega
    | comment d => rw [mergeTextGo, size_append, pageSizeL, pageSizeL]; omega
    | doctype d => rw [mergeTextGo, size_append, pageSizeL, pageSizeL]; omega
    | document ks => rw [mergeTextGo, size_append, pageSizeL, pageSizeL]; omega
    | elem m a ks => rw [mergeTextGo, size_append, pageSizeL, pageSizeL]; omega

theorem size_removeIn (r : Bytes → Bool) : (∀ n, pageSize (removeIn r n) ≤ pageSize n) ∧
    (∀ ns, pageSizeL (removeInL r ns) ≤ pageSizeL ns) := by
  apply induct
  · intro d; exact Nat.le_refl _
  · intro d; exact Nat.le_refl _
  · intro d; exact Nat.le_refl _
  · intro cs ih; simp only [removeIn, pageSize]; omega
  · intro n a cs ih; simp only [removeIn, pageSize]; omega
  · exact Nat.le_refl _
  · intro n ns ih1 ih2
    rw [removeInL]
    split <;> simp only [pageSizeL] <;> omega

theorem size_preRenderRemove (r : Bytes → Bool) (n : Node) : pageSize (preRenderRemove r n) ≤ pageSize n := by
  rw [preRenderRemove]
  refine Nat.le_trans (size_mergeText.1 _) ?_
  split
  · exact Nat.le_refl _
  · exact (size_removeIn r).1 n

/-! ## The CommonMark plugin -/

theorem size_rename (T : NameTables) : (∀ n, pageSize (renameFakeSpans T n) ≤ pageSize n) ∧
    (∀ ns, pageSizeL (renameFakeSpansL T ns) ≤ pageSizeL ns) := by
  apply induct
  · intro d; exact Nat.le_refl _
  · intro d; exact Nat.le_refl _
  · intro d; exact Nat.le_refl _
  · intro cs ih; simp only [renameFakeSpans, pageSize]; omega
  · intro n a cs ih
    rw [renameFakeSpans, pageSize, pageSize]
    split
    · rename_i h; rw [h.1]; simp only [List.length_cons, List.length_nil]; omega
    · omega
  · exact Nat.le_refl _
  · intro n ns ih1 ih2; simp only [renameFakeSpansL, pageSizeL]; omega

theorem size_redundant (same : Bytes → Bytes → Bool) :
    (∀ n, ∀ anc, pageSizeL (removeRedundantIn same anc n) ≤ pageSize n) ∧
    (∀ ns, ∀ anc, pageSizeL (removeRedundantL same anc ns) ≤ pageSizeL ns) := by
  apply induct
  · intro d anc; simp [removeRedundantIn, pageSizeL]
  · intro d anc; simp [removeRedundantIn, pageSizeL]
  · intro d anc; simp [removeRedundantIn, pageSizeL]
  · intro cs ih anc
    have := ih (b!"#document" :: anc)
    simp only [removeRedundantIn, pageSizeL, pageSize]; omega
  · intro n a cs ih anc
    have h1 := ih (n :: anc)
    have h2 := ih anc
    rw [removeRedundantIn]
    split
    · simp only [pageSize]; omega
    · simp only [pageSizeL, pageSize]; omega
  · intro anc; exact Nat.le_refl _
  · intro n ns ih1 ih2 anc
    have h1 := ih1 anc
    have h2 := ih2 anc
    rw [removeRedundantL, size_append, pageSizeL]; omega

theorem size_removeRedundant (same : Bytes → Bytes → Bool) (n : Node) : pageSize (removeRedundant same n) ≤ pageSize n := by
  cases n with
  | elem n a cs =>
    have := (size_redundant same).2 cs [n]
    simp only [removeRedundant, pageSize]; omega
  | document cs =>
    have := (size_redundant same).2 cs [b!"#document"]
    simp only [removeRedundant, pageSize]; omega
  | text d => exact Nat.le_refl _
  | comment d => exact Nat.le_refl _
  | doctype d => exact Nat.le_refl _

theorem size_collect (m : Bytes → Bool) :
    (∀ n, pageSizeL (collectNode m n).moved + pageSizeL (collectNode m n).left ≤ pageSize n) ∧
    (∀ ns, pageSizeL (collectL m ns).moved + pageSizeL (collectL m ns).left ≤ pageSizeL ns) := by
  apply induct
  · intro d; simp [collectNode, pageSizeL]
  · intro d; simp [collectNode, pageSizeL]
  · intro d; simp [collectNode, pageSizeL]
  · intro cs ih; simp [collectNode, pageSizeL]
  · intro n a cs ih
    rw [collectNode]
    split
    · simp only [pageSizeL, pageSize]; omega
    · split <;> simp [pageSizeL, pageSize]
  · simp [collectL, pageSizeL]
  · intro n ns ih1 ih2
    rw [collectL]
    simp only
    split
    · simp only [size_append, pageSizeL]; omega
    · simp only [size_append, pageSizeL]; omega

/-- The size of several lists of nodes. -/
def frames : List (List Node) → Nat
  | [] => 0
  | f :: fs => pageSizeL f + frames fs

theorem size_collectFrames (m : Bytes → Bool) : ∀ fs, pageSizeL (collectFrames m fs).1 + frames (collectFrames m fs).2 ≤ frames fs
  | [] => by simp [collectFrames, pageSizeL, frames]
  | f :: fs => by
    have h1 := (size_collect m).2 f
    have h2 := size_collectFrames m fs
    rw [collectFrames]
    simp only
    split
    · simp only [size_append, frames]; omega
    · simp only [frames]; omega

/-- The size of a node without its children. -/
def own (n : Node) : Nat := pageSize n - pageSizeL n.children

theorem own_children (n : Node) : pageSize n = own n + pageSizeL n.children := by
  cases n <;> simp only [own, pageSize, Node.children, pageSizeL] <;> omega

theorem size_withChildren (n : Node) (ks : List Node) : pageSize (withChildren n ks) ≤ own n + pageSizeL ks := by
  cases n <;> simp only [withChildren, own, pageSize, Node.children, pageSizeL] <;> omega

theorem size_mergeStep (m : Bytes → Bool) (n : Node) (cs : List Node) (fs : List (List Node)) :
    own n + frames (mergeStep m n cs fs) ≤ frames ((n :: cs) :: fs) := by
  have h := size_collectFrames m (cs :: fs)
  have hn := own_children n
  rw [mergeStep]
  split
  · simp only [frames, size_append, pageSizeL] at *; omega
  · simp only [frames, pageSizeL] at *; omega

theorem size_mergeF (m : Bytes → Bool) : ∀ fs, frames (mergeAdjacentF m fs) ≤ frames fs := by
  intro fs
  fun_induction mergeAdjacentF m fs with
  | case1 => exact Nat.le_refl _
  | case2 fs ih => simp only [frames, pageSizeL]; omega
  | case3 n cs fs ks cs' fs' he ih =>
    rw [he] at ih
    have h1 := size_mergeStep m n cs fs
    have h2 := size_withChildren n ks
    simp only [frames, pageSizeL] at *; omega
  | case4 => simp [frames]

theorem size_merge (m : Bytes → Bool) (doc : Node) : pageSize (mergeAdjacent m doc) ≤ pageSize doc := by
  have h := size_mergeF m [[doc]]
  rw [mergeAdjacent]
  cases hf : mergeAdjacentF m [[doc]] with
  | nil => exact Nat.le_refl _
  | cons f fs =>
    rw [hf] at h
    cases f with
    | nil => exact Nat.le_refl _
    | cons x f => simp only [frames, pageSizeL, List.headD_cons] at *; omega

theorem size_removeEmptyCode : (∀ n, pageSize (removeEmptyCode n) ≤ pageSize n) ∧
    (∀ ns, pageSizeL (removeEmptyCodeL ns) ≤ pageSizeL ns) := by
  apply induct
  · intro d; exact Nat.le_refl _
  · intro d; exact Nat.le_refl _
  · intro d; exact Nat.le_refl _
  · intro cs ih; simp only [removeEmptyCode, pageSize]; omega
  · intro n a cs ih; simp only [removeEmptyCode, pageSize]; omega
  · exact Nat.le_refl _
  · intro n ns ih1 ih2
    rw [removeEmptyCodeL]
    split <;> simp only [pageSizeL] <;> omega

theorem size_swapMap (x : Node) : ∀ (cs : List Node) (k : Node), cs.filter (fun c => !isEmptyText c) = [k] →
    pageSizeL (cs.map fun c => if isEmptyText c then c else x) + pageSize k = pageSizeL cs + pageSize x
  | [], k, h => by simp at h
  | c :: cs, k, h => by
    rw [List.filter_cons] at h
    cases hc : isEmptyText c with
    | true =>
      rw [hc] at h
      have ih := size_swapMap x cs k (by simpa using h)
      simp only [List.map_cons, hc, if_true, pageSizeL]; omega
    | false =>
      rw [hc] at h
      simp only [Bool.not_false, if_true, List.cons.injEq] at h
      have hm : (cs.map fun c => if isEmptyText c then c else x) = cs := by
        rw [← List.map_id cs]
        rw [List.map_map]
        refine List.map_congr_left fun y hy => ?_
        have : isEmptyText y = true := by
          have h2 := List.filter_eq_nil_iff.1 h.2 y hy
          simpa using h2
        simp [this]
      rw [List.map_cons, hc, hm, ← h.1]
      simp only [pageSizeL, Bool.false_eq_true, if_false]; omega

theorem size_swap (o i : Bytes → Bool) : (∀ n, pageSize (swapTags o i n) ≤ pageSize n) ∧
    (∀ ns, pageSizeL (swapTagsL o i ns) ≤ pageSizeL ns) := by
  apply induct
  · intro d; exact Nat.le_refl _
  · intro d; exact Nat.le_refl _
  · intro d; exact Nat.le_refl _
  · intro cs ih; simp only [swapTags, pageSize]; omega
  · intro n a cs ih
    rw [swapTags]
    split
    · rename_i n' a' ks hf
      split
      · have := size_swapMap (.elem n a ks) cs _ hf
        simp only [pageSize] at *; omega
      · simp only [pageSize]; omega
    · simp only [pageSize]; omega
  · exact Nat.le_refl _
  · intro n ns ih1 ih2; simp only [swapTagsL, pageSizeL]; omega

theorem size_alternative (n : Bytes) (a : List (Bytes × Bytes)) (cs : List Node) :
    pageSizeL (alternative n a cs) ≤ 5 * (1 + n.length + attrsSize a) + pageSizeL cs := by
  rw [alternative]
  split
  · rename_i h
    have : n.length = 2 := by simp at h; rcases h with h | h | h | h | h | h <;> rw [h] <;> rfl
    rw [this]
    simp only [pageSizeL, pageSize, List.length_cons, List.length_nil, attrsSize, List.map_nil, List.sum_nil]; omega
  · split
    · rename_i h; rw [h]
      simp only [pageSizeL, pageSize, List.length_cons, List.length_nil]; omega
    · split
      · rename_i h; rw [h]; simp only [pageSizeL, pageSize, List.length_cons, List.length_nil]; omega
      · split
        · simp only [pageSizeL]; omega
        · simp only [pageSizeL, pageSize, List.length_cons, List.length_nil]; omega

theorem size_leaf : (∀ n, ∀ l i, pageSizeL (leafAlternativesIn l i n) ≤ 5 * pageSize n) ∧
    (∀ ns, ∀ l i, pageSizeL (leafAlternativesL l i ns) ≤ 5 * pageSizeL ns) := by
  apply induct
  · intro d l i; simp only [leafAlternativesIn, pageSizeL, pageSize]; omega
  · intro d l i; simp only [leafAlternativesIn, pageSizeL, pageSize]; omega
  · intro d l i; simp only [leafAlternativesIn, pageSizeL, pageSize]; omega
  · intro cs ih l i
    have := ih l i
    simp only [leafAlternativesIn, pageSizeL, pageSize]; omega
  · intro n a cs ih l i
    rw [leafAlternativesIn]
    have h := ih (l || decide (getStructure n = .leaf)) (i || decide (getStructure n = .inline))
    split
    · have := size_alternative n a (leafAlternativesL (l || decide (getStructure n = .leaf)) (i || decide (getStructure n = .inline)) cs)
      simp only [pageSize]; omega
    · simp only [pageSizeL, pageSize]; omega
  · intro l i; simp [leafAlternativesL, pageSizeL]
  · intro n ns ih1 ih2 l i
    have h1 := ih1 l i
    have h2 := ih2 l i
    rw [leafAlternativesL, size_append, pageSizeL]; omega

theorem size_leafAlternatives (doc : Node) : pageSize (leafAlternatives doc) ≤ 5 * pageSize doc := by
  have h := size_leaf.1 doc false false
  rw [leafAlternatives]
  cases hl : leafAlternativesIn false false doc with
  | nil => simp only [List.headD_nil]; omega
  | cons x xs => rw [hl] at h; simp only [List.headD_cons, pageSizeL] at *; omega

/-- The size of the current item. -/
def curSize : Option (List (Bytes × Bytes) × List Node × List Node) → Nat
  | none => 0
  | some (a, ks, blanks) => 3 + attrsSize a + pageSizeL ks + pageSizeL blanks

theorem size_moveItemsGo : ∀ (cs : List Node) (cur), pageSizeL (moveItemsGo cur cs) ≤ curSize cur + pageSizeL cs + 3 * cs.length := by
  intro cs
  induction cs with
  | nil =>
    intro cur
    rcases cur with _ | ⟨a, ks, blanks⟩
    · simp [moveItemsGo, pageSizeL]
    · simp only [moveItemsGo, pageSizeL, pageSize, curSize, List.length_cons, List.length_nil]; omega
  | cons c cs ih =>
    intro cur
    rw [moveItemsGo.eq_def]
    simp only
    split
    · rename_i hc
      rw [size_append, List.length_cons]
      cases c with
      | elem n a ks =>
        have h := ih (some (a, ks, []))
        have hn : n = b!"li" := by simpa [isLi] using hc
        rcases cur with _ | ⟨a', ks', blanks⟩
        · simp only [curSize, pageSizeL, pageSize, hn, List.length_cons, List.length_nil] at *; omega
        · simp only [curSize, pageSizeL, pageSize, hn, List.length_cons, List.length_nil] at *; omega
      | text d => simp [isLi] at hc
      | comment d => simp [isLi] at hc
      | doctype d => simp [isLi] at hc
      | document d => simp [isLi] at hc
    · split
      · rcases cur with _ | ⟨a, ks, blanks⟩
        · have h := ih none
          simp only [pageSizeL, List.length_cons] at *; omega
        · have h := ih (some (a, ks, blanks ++ [c]))
          simp only [curSize, pageSizeL, size_append, List.length_cons] at *; omega
      · rcases cur with _ | ⟨a, ks, blanks⟩
        · have h := ih (some ([], [c], []))
          simp only [curSize, pageSizeL, attrsSize, List.map_nil, List.sum_nil, List.length_cons] at *; omega
        · have h := ih (some (a, ks ++ [c], blanks))
          simp only [curSize, pageSizeL, size_append, List.length_cons] at *; omega

theorem size_moveListItems : (∀ n, pageSize (moveListItems n) + 3 ≤ 4 * pageSize n) ∧
    (∀ ns, pageSizeL (moveListItemsL ns) + 3 * (moveListItemsL ns).length ≤ 4 * pageSizeL ns) := by
  apply induct
  · intro d; simp only [moveListItems, pageSize]; omega
  · intro d; simp only [moveListItems, pageSize]; omega
  · intro d; simp only [moveListItems, pageSize]; omega
  · intro cs ih; simp only [moveListItems, pageSize]; omega
  · intro n a cs ih
    rw [moveListItems]
    simp only [pageSize]
    split
    · have := size_moveItemsGo (moveListItemsL cs) none
      simp only [curSize] at this; omega
    · omega
  · simp [moveListItemsL, pageSizeL]
  · intro n ns ih1 ih2
    simp only [moveListItemsL, pageSizeL, List.length_cons]; omega

/-! ## Spaces -/

theorem added_length (o i : Bytes → Bool) : ∀ (evs before : List Ev) (k : Nat),
    (addedSpaces o i before k evs).1.length + (addedSpaces o i before k evs).2.length ≤ evs.length
  | [], before, k => by simp [addedSpaces]
  | e :: evs, before, k => by
    have ih := added_length o i evs (e :: before) (if e = .text then k + 1 else k)
    cases e with
    | op n => rw [addedSpaces]; split <;> simp only [List.length_cons] at * <;> omega
    | cl n => rw [addedSpaces]; split <;> simp only [List.length_cons] at * <;> omega
    | text => simp only [addedSpaces, List.length_cons] at *; omega
    | comment d => simp only [addedSpaces, List.length_cons] at *; omega

/-- How often numbers from `k` to before `k'` occur in a list. -/
def between (s : List Nat) (k k' : Nat) : Nat := s.countP fun i => k ≤ i && i < k'

theorem between_split (s : List Nat) {k k' k'' : Nat} (h1 : k ≤ k') (h2 : k' ≤ k'') : between s k k' + between s k' k'' = between s k k'' := by
  induction s with
  | nil => rfl
  | cons x s ih =>
    simp only [between, List.countP_cons, Bool.and_eq_true, decide_eq_true_eq] at *
    split <;> split <;> split <;> omega

theorem between_one (s : List Nat) (k : Nat) : between s k (k + 1) = s.count k := by
  induction s with
  | nil => rfl
  | cons x s ih =>
    simp only [between, List.countP_cons, List.count_cons, Bool.and_eq_true, decide_eq_true_eq, beq_iff_eq] at *
    split <;> split <;> omega

theorem size_mapTexts (s t : List Nat) :
    (∀ n, ∀ k, k ≤ (mapTexts (fun i d => List.replicate (s.count i) SP ++ d ++ List.replicate (t.count i) SP) k n).2 ∧
      pageSize (mapTexts (fun i d => List.replicate (s.count i) SP ++ d ++ List.replicate (t.count i) SP) k n).1 ≤ pageSize n +
        between s k (mapTexts (fun i d => List.replicate (s.count i) SP ++ d ++ List.replicate (t.count i) SP) k n).2 +
        between t k (mapTexts (fun i d => List.replicate (s.count i) SP ++ d ++ List.replicate (t.count i) SP) k n).2) ∧
    (∀ ns, ∀ k, k ≤ (mapTextsL (fun i d => List.replicate (s.count i) SP ++ d ++ List.replicate (t.count i) SP) k ns).2 ∧
      pageSizeL (mapTextsL (fun i d => List.replicate (s.count i) SP ++ d ++ List.replicate (t.count i) SP) k ns).1 ≤ pageSizeL ns +
        between s k (mapTextsL (fun i d => List.replicate (s.count i) SP ++ d ++ List.replicate (t.count i) SP) k ns).2 +
        between t k (mapTextsL (fun i d => List.replicate (s.count i) SP ++ d ++ List.replicate (t.count i) SP) k ns).2) := by
  apply induct
  · intro d k
    simp only [mapTexts, pageSize, between_one, List.length_append, List.length_replicate]; omega
  · intro d k; simp only [mapTexts, pageSize]; omega
  · intro d k; simp only [mapTexts, pageSize]; omega
  · intro cs ih k
    have := ih k
    simp only [mapTexts, pageSize]; omega
  · intro n a cs ih k
    have := ih k
    simp only [mapTexts, pageSize]; omega
  · intro k; simp only [mapTextsL, pageSizeL]; omega
  · intro n ns ih1 ih2 k
    have h1 := ih1 k
    have h2 := ih2 (mapTexts (fun i d => List.replicate (s.count i) SP ++ d ++ List.replicate (t.count i) SP) k n).2
    have h3 := between_split s h1.1 h2.1
    have h4 := between_split t h1.1 h2.1
    simp only [mapTextsL, pageSizeL]; omega

theorem events_length : (∀ n, (events n).length ≤ 2 * pageSize n) ∧ (∀ ns, (eventsL ns).length ≤ 2 * pageSizeL ns) := by
  apply induct
  · intro d; simp only [events, pageSize, List.length_cons, List.length_nil]; omega
  · intro d; simp only [events, pageSize, List.length_cons, List.length_nil]; omega
  · intro d; simp only [events, pageSize, List.length_cons, List.length_nil]; omega
  · intro cs ih; simp only [events, pageSize, List.length_cons, List.length_append, List.length_nil]; omega
  · intro n a cs ih; simp only [events, pageSize, List.length_cons, List.length_append, List.length_nil]; omega
  · simp [eventsL]
  · intro n ns ih1 ih2; simp only [eventsL, pageSizeL, List.length_append]; omega

theorem size_addSpace (o i : Bytes → Bool) (doc : Node) : pageSize (addSpace o i doc) ≤ 3 * pageSize doc := by
  rw [addSpace]
  have h1 := ((size_mapTexts (addedSpaces o i [] 0 (events doc)).2 (addedSpaces o i [] 0 (events doc)).1).1 doc 0).2
  have h2 := added_length o i (events doc) [] 0
  have h3 := events_length.1 doc
  have h4 : ∀ (s : List Nat) (a b : Nat), between s a b ≤ s.length := fun s a b => List.countP_le_length
  have h5 := h4 (addedSpaces o i [] 0 (events doc)).2 0
  have h6 := h4 (addedSpaces o i [] 0 (events doc)).1 0
  have h7 := h5 (mapTexts (fun j d => List.replicate ((addedSpaces o i [] 0 (events doc)).2.count j) SP ++ d ++ List.replicate ((addedSpaces o i [] 0 (events doc)).1.count j) SP) 0 doc).2
  have h8 := h6 (mapTexts (fun j d => List.replicate ((addedSpaces o i [] 0 (events doc)).2.count j) SP ++ d ++ List.replicate ((addedSpaces o i [] 0 (events doc)).1.count j) SP) 0 doc).2
  omega

theorem size_handlePreRender (T : NameTables) (doc : Node) : pageSize (handlePreRender T doc) ≤ 60 * pageSize doc := by
  rw [handlePreRender]
  refine Nat.le_trans (Nat.le_trans (Nat.le_add_right _ 3) (size_moveListItems.1 _)) ?_
  refine Nat.le_trans (Nat.mul_le_mul_left 4 (size_leafAlternatives _)) ?_
  refine Nat.le_trans (Nat.mul_le_mul_left 4 (Nat.mul_le_mul_left 5 ((size_swap _ _).1 _))) ?_
  refine Nat.le_trans (Nat.mul_le_mul_left 4 (Nat.mul_le_mul_left 5 ((size_swap _ _).1 _))) ?_
  refine Nat.le_trans (Nat.mul_le_mul_left 4 (Nat.mul_le_mul_left 5 (size_removeRedundant _ _))) ?_
  refine Nat.le_trans (Nat.mul_le_mul_left 4 (Nat.mul_le_mul_left 5 (size_addSpace _ _ _))) ?_
  refine Nat.le_trans (Nat.mul_le_mul_left 4 (Nat.mul_le_mul_left 5 (Nat.mul_le_mul_left 3 (size_merge _ _)))) ?_
  refine Nat.le_trans (Nat.mul_le_mul_left 4 (Nat.mul_le_mul_left 5 (Nat.mul_le_mul_left 3 ((size_swap _ _).1 _)))) ?_
  refine Nat.le_trans (Nat.mul_le_mul_left 4 (Nat.mul_le_mul_left 5 (Nat.mul_le_mul_left 3 (size_removeEmptyCode.1 _)))) ?_
  refine Nat.le_trans (Nat.mul_le_mul_left 4 (Nat.mul_le_mul_left 5 (Nat.mul_le_mul_left 3 (size_merge _ _)))) ?_
  refine Nat.le_trans (Nat.mul_le_mul_left 4 (Nat.mul_le_mul_left 5 (Nat.mul_le_mul_left 3 (size_removeRedundant _ _)))) ?_
  refine Nat.le_trans (Nat.mul_le_mul_left 4 (Nat.mul_le_mul_left 5 (Nat.mul_le_mul_left 3 ((size_rename T).1 _)))) ?_
  omega

/-! ## Collapse -/

theorem replaceGo_length (source : Bytes) : ∀ (rest : Bytes) (ret : Option Bytes) (normal run : Bytes),
    (Collapse.replaceGo source ret normal run rest).length ≤ max source.length ((ret.getD []).length + normal.length + run.length + rest.length) := by
  intro rest
  induction rest with
  | nil =>
    intro ret normal run
    rw [Collapse.replaceGo]
    split
    · omega
    · split
      · simp only [List.length_append, List.length_nil]; omega
      · split
        · omega
        · rename_i h1 h2 h3
          have : 1 ≤ run.length := by
            cases run with
            | nil => simp at h2
            | cons => simp
          simp only [List.length_append, List.length_cons, List.length_nil]; omega
  | cons b rest ih =>
    intro ret normal run
    rw [Collapse.replaceGo]
    split
    · have := ih ret normal (run ++ [b])
      simp only [List.length_append, List.length_cons, List.length_nil] at *; omega
    · split
      · have := ih ret (normal ++ [b]) []
        simp only [List.length_append, List.length_cons, List.length_nil] at *; omega
      · split
        · have := ih ret (normal ++ run ++ [b]) []
          simp only [List.length_append, List.length_cons, List.length_nil] at *; omega
        · rename_i h2 h3
          have h4 : 1 ≤ run.length := by
            cases run with
            | nil => simp at h2
            | cons => simp
          have := ih (some (ret.getD [] ++ normal ++ [SP])) [b] []
          simp only [List.length_append, List.length_cons, List.length_nil, Option.getD_some] at *; omega

theorem replaceWs_length (d : Bytes) : (replaceWs d).length ≤ d.length := by
  rw [replaceWs]
  split
  · omega
  · have := replaceGo_length d d none [] []
    simpa using this

theorem size_first (f : DomFuncs) : (∀ n, ∀ s, pageSizeL (first f s n).1 ≤ pageSize n) ∧
    (∀ ns, ∀ s, pageSizeL (firstL f s ns).1 ≤ pageSizeL ns) := by
  apply induct
  · intro d s
    have h := replaceWs_length d
    rw [first, firstText]
    split
    · split <;> simp only [pageSizeL, pageSize, List.length_tail] <;> omega
    · split <;> simp only [pageSizeL, pageSize] <;> omega
  · intro d s; simp [first, pageSizeL]
  · intro d s; simp [first, pageSizeL]
  · intro cs ih s; simp [first, pageSizeL]
  · intro n a cs ih s
    rw [first]
    split
    · simp [pageSizeL]
    · have := ih (visit f s n)
      simp only [pageSizeL, pageSize]; omega
  · intro s; exact Nat.le_refl _
  · intro n ns ih1 ih2 s
    have h1 := ih1 s
    have h2 := ih2 (first f s n).2
    rw [firstL]
    simp only [size_append, pageSizeL]; omega

theorem trimSuffix_length (d : Bytes) : (trimSuffix d).length ≤ d.length := by
  rw [trimSuffix]
  split
  · simp
  · omega

theorem size_second (f : DomFuncs) : (∀ n, ∀ s, pageSizeL (second f s n).1 ≤ pageSize n) ∧
    (∀ ns, ∀ s, pageSizeL (secondL f s ns).1 ≤ pageSizeL ns) := by
  apply induct
  · intro d s
    have h := trimSuffix_length d
    cases s
    · simp only [second, pageSizeL, pageSize]; omega
    · rw [second]
      split <;> simp only [pageSizeL, pageSize] <;> omega
    · simp only [second, pageSizeL, pageSize]; omega
  · intro d s; simp [second, pageSizeL]
  · intro d s; simp [second, pageSizeL]
  · intro cs ih s; simp [second, pageSizeL]
  · intro n a cs ih s
    rw [second]
    split
    · simp [pageSizeL]
    · have := ih (before f s n)
      simp only [pageSizeL, pageSize]; omega
  · intro s; exact Nat.le_refl _
  · intro n ns ih1 ih2 s
    have h2 := ih2 s
    have h1 := ih1 (secondL f s ns).2
    rw [secondL]
    simp only [size_append, pageSizeL]; omega

theorem size_collapse (f : DomFuncs) (n : Node) : pageSize (collapse f n) ≤ pageSize n := by
  have h : ∀ cs, pageSizeL (children f cs) ≤ pageSizeL cs := by
    intro cs
    rw [children]
    exact Nat.le_trans ((size_second f).2 _ _) ((size_first f).2 _ _)
  cases n with
  | elem n a cs =>
    have := h cs
    rw [collapse]
    split <;> simp only [pageSize] <;> omega
  | document cs =>
    have := h cs
    rw [collapse]
    split <;> simp only [pageSize] <;> omega
  | text d => exact Nat.le_refl _
  | comment d => exact Nat.le_refl _
  | doctype d => exact Nat.le_refl _

/-! ## Comments -/

theorem size_listEnd : (∀ n, ∀ after, pageSize (addListEndIn after n) + 8 ≤ 9 * pageSize n) ∧
    (∀ ns, ∀ after, pageSizeL (addListEndL after ns) ≤ 9 * pageSizeL ns) := by
  apply induct
  · intro d after; simp only [addListEndIn, pageSize]; omega
  · intro d after; simp only [addListEndIn, pageSize]; omega
  · intro d after; simp only [addListEndIn, pageSize]; omega
  · intro cs ih after
    have := ih (.cl b!"#document" :: after)
    simp only [addListEndIn, pageSize]; omega
  · intro n a cs ih after
    have := ih (.cl n :: after)
    simp only [addListEndIn, pageSize]; omega
  · intro after; simp [addListEndL, pageSizeL]
  · intro n ns ih1 ih2 after
    have h2 := ih2 after
    rw [addListEndL]
    split
    · have h1 := ih1 (.comment listEndComment :: eventsL ns ++ after)
      simp only [pageSizeL, pageSize, listEndComment, List.length_cons, List.length_nil] at *; omega
    · have h1 := ih1 (eventsL ns ++ after)
      simp only [pageSizeL]; omega

/-! ## Everything -/

theorem size_strike (E : Env) (doc : Node) : pageSize (strikePreRender E doc) ≤ pageSize doc := by
  rw [strikePreRender]
  split
  · exact Nat.le_trans (size_merge _ _) (size_removeRedundant _ _)
  · exact Nat.le_refl _

theorem size_preRender (E : Env) (doc : Node) : pageSize (preRender E doc) ≤ 540 * pageSize doc := by
  rw [preRender]
  have h := Nat.le_trans (size_collapse (baseFuncs (isBlock E)) (strikePreRender E (handlePreRender E.tables (preRenderRemove isRemoved doc))))
    (size_strike E (handlePreRender E.tables (preRenderRemove isRemoved doc)))
  have h2 := size_handlePreRender E.tables (preRenderRemove isRemoved doc)
  have h3 := size_preRenderRemove isRemoved doc
  split
  · omega
  · have h4 := size_listEnd.1 (Collapse.collapse (Collapse.baseFuncs (isBlock E)) (strikePreRender E (handlePreRender E.tables (preRenderRemove isRemoved doc)))) []
    rw [addListEndComments]
    omega

end Verif.Size
