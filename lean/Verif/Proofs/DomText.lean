import Verif.Proofs.Dom
import Verif.Proofs.Visible
/-!
# What the transformations of the tree do to its text
-/

namespace Verif.Dom
open Verif Verif.DomUtils Verif.Spec

mutual
/-- The texts of a tree. -/
def txts : Node → List Bytes
  | .text d => [d]
  | .comment _ => []
  | .doctype _ => []
  | .document cs => txtsL cs
  | .elem _ _ cs => txtsL cs
def txtsL : List Node → List Bytes
  | [] => []
  | n :: ns => txts n ++ txtsL ns
end

theorem txts_items :
    (∀ n, ∀ anc, (items anc n).filterMap (fun i => i.what.text?) = txts n) ∧
    (∀ ns, ∀ anc, (itemsL anc ns).filterMap (fun i => i.what.text?) = txtsL ns) := by
  apply induct
  · intro d anc; rfl
  · intro d anc; rfl
  · intro d anc; rfl
  · intro cs ih anc
    rw [items, List.filterMap_cons, txts]
    exact ih _
  · intro n a cs ih anc
    rw [items, List.filterMap_cons, txts]
    exact ih _
  · intro anc; rfl
  · intro n ns ih1 ih2 anc
    rw [itemsL, List.filterMap_append, ih1, ih2, txtsL]

theorem texts_txts (n : Node) : texts n = txts n := txts_items.1 n []

theorem txtsL_append (a b : List Node) : txtsL (a ++ b) = txtsL a ++ txtsL b := by
  induction a with
  | nil => simp [txtsL]
  | cons x a ih => simp [txtsL, ih]

theorem txtsL_singleton (a : Node) : txtsL [a] = txts a := by simp [txtsL]

theorem txts_children (n : Node) (h : isText n = false) : txts n = txtsL n.children := by
  cases n <;> simp_all [txts, Node.children, isText, txtsL]

theorem txts_withChildren (n : Node) (cs : List Node) (h : isText n = false) (hc : n.children = [] → cs = [] ∨ ∃ a as ks, n = .elem a as ks) :
    txts (withChildren n cs) = txtsL cs := by
  cases n with
  | text d => simp [isText] at h
  | comment d =>
    rcases hc rfl with rfl | ⟨_, _, _, h⟩
    · rfl
    · simp at h
  | doctype d =>
    rcases hc rfl with rfl | ⟨_, _, _, h⟩
    · rfl
    · simp at h
  | document ks => simp [withChildren, txts]
  | elem a as ks => simp [withChildren, txts]

/-! ## Fake spans -/

theorem renameFakeSpans_txts (T : NameTables) :
    (∀ n, txts (renameFakeSpans T n) = txts n) ∧ (∀ ns, txtsL (renameFakeSpansL T ns) = txtsL ns) := by
  apply induct
  · intro d; rfl
  · intro d; rfl
  · intro d; rfl
  · intro cs ih; simp [renameFakeSpans, txts, ih]
  · intro n a cs ih; simp [renameFakeSpans, txts, ih]
  · rfl
  · intro n ns ih1 ih2; simp [renameFakeSpansL, txtsL, ih1, ih2]

/-! ## Redundant nodes -/

theorem redundantIn_txts (same : Bytes → Bytes → Bool) :
    (∀ n, ∀ anc, txtsL (removeRedundantIn same anc n) = txts n) ∧
    (∀ ns, ∀ anc, txtsL (removeRedundantL same anc ns) = txtsL ns) := by
  apply induct
  · intro d anc; rfl
  · intro d anc; rfl
  · intro d anc; rfl
  · intro cs ih anc; simp [removeRedundantIn, txts, txtsL, ih]
  · intro n a cs ih anc
    rw [removeRedundantIn]
    split
    · rw [ih]; rfl
    · simp [txts, txtsL, ih]
  · intro anc; rfl
  · intro n ns ih1 ih2 anc; simp [removeRedundantL, txtsL, txtsL_append, ih1, ih2]

theorem removeRedundant_txts (same : Bytes → Bytes → Bool) (n : Node) : txts (removeRedundant same n) = txts n := by
  cases n <;> simp [removeRedundant, txts, redundantIn_txts]

/-! ## Empty code -/

theorem hasText_txts :
    (∀ n, hasText n = (txts n).any fun d => !d.isEmpty) ∧ (∀ ns, hasTextL ns = (txtsL ns).any fun d => !d.isEmpty) := by
  apply induct
  · intro d; simp [hasText, txts]
  · intro d; rfl
  · intro d; rfl
  · intro cs ih; simp [hasText, txts, ih]
  · intro n a cs ih; simp [hasText, txts, ih]
  · rfl
  · intro n ns ih1 ih2; simp [hasTextL, txtsL, ih1, ih2]

theorem removeEmptyCode_txts :
    (∀ n, (txts (removeEmptyCode n)).filter (fun d => !d.isEmpty) = (txts n).filter (fun d => !d.isEmpty)) ∧
    (∀ ns, (txtsL (removeEmptyCodeL ns)).filter (fun d => !d.isEmpty) = (txtsL ns).filter (fun d => !d.isEmpty)) := by
  apply induct
  · intro d; rfl
  · intro d; rfl
  · intro d; rfl
  · intro cs ih; simpa [removeEmptyCode, txts] using ih
  · intro n a cs ih; simpa [removeEmptyCode, txts] using ih
  · rfl
  · intro n ns ih1 ih2
    rw [removeEmptyCodeL]
    split
    · rename_i h
      rw [txtsL, List.filter_append, ih2]
      have : (txts n).filter (fun d => !d.isEmpty) = [] := by
        have h2 := h.2
        rw [hasText_txts.1] at h2
        rw [List.filter_eq_nil_iff]
        rw [List.any_eq_false] at h2
        exact h2
      rw [this]; rfl
    · rw [txtsL, List.filter_append, ih1, ih2, txtsL, List.filter_append]

/-! ## Swapping tags -/

theorem swap_txts {cs : List Node} {n' a' ks} (n a) (h : (cs.filter fun c => !isEmptyText c) = [.elem n' a' ks]) :
    txtsL (cs.map fun c => if isEmptyText c then c else .elem n a ks) = txtsL cs := by
  induction cs with
  | nil => rfl
  | cons c cs ih =>
    rw [List.map_cons, txtsL, txtsL]
    cases hc : isEmptyText c with
    | true =>
      rw [List.filter_cons_of_neg (by simp [hc])] at h
      rw [if_pos rfl, ih h]
    | false =>
      rw [List.filter_cons_of_pos (by simp [hc])] at h
      simp only [List.cons.injEq] at h
      have : (cs.map fun c => if isEmptyText c then c else .elem n a ks) = cs := by
        conv => rhs; rw [← List.map_id cs]
        apply List.map_congr_left
        intro x hx
        have := List.filter_eq_nil_iff.1 h.2 x hx
        simp at this
        simp [this]
      rw [this, h.1]
      simp [txts]

theorem swapTags_txts (outer inner : Bytes → Bool) :
    (∀ n, txts (swapTags outer inner n) = txts n) ∧ (∀ ns, txtsL (swapTagsL outer inner ns) = txtsL ns) := by
  apply induct
  · intro d; rfl
  · intro d; rfl
  · intro d; rfl
  · intro cs ih; simp [swapTags, txts, ih]
  · intro n a cs ih
    rw [swapTags]
    split
    · rename_i h
      split
      · simp only [txts]
        exact swap_txts n a h
      · simp [txts, ih]
    · simp [txts, ih]
  · rfl
  · intro n ns ih1 ih2; simp [swapTagsL, txtsL, ih1, ih2]

/-! ## Added spaces -/

/-- Both lists have the same visible texts. -/
theorem mapTexts_visible (f : Nat → Bytes → Bytes) (hf : ∀ k d, visible (f k d) = visible d) :
    (∀ n, ∀ k, (txts (mapTexts f k n).1).map visible = (txts n).map visible) ∧
    (∀ ns, ∀ k, (txtsL (mapTextsL f k ns).1).map visible = (txtsL ns).map visible) := by
  apply induct
  · intro d k; simp [mapTexts, txts, hf]
  · intro d k; rfl
  · intro d k; rfl
  · intro cs ih k; simp [mapTexts, txts, ih]
  · intro n a cs ih k; simp [mapTexts, txts, ih]
  · intro k; rfl
  · intro n ns ih1 ih2 k; simp [mapTextsL, txtsL, ih1, ih2]

theorem visible_spaces (a b : Nat) (d : Bytes) : visible (List.replicate a SP ++ d ++ List.replicate b SP) = visible d := by
  rw [List.append_assoc, visible_ws_append (Spec.AllWhitespace.spaces a),
    visible_append _ (startsCharacter_ws (Spec.AllWhitespace.spaces b)), visible_ws (Spec.AllWhitespace.spaces b), List.append_nil]

theorem addSpace_visible (outer inner : Bytes → Bool) (n : Node) :
    (txts (addSpace outer inner n)).map visible = (txts n).map visible :=
  (mapTexts_visible _ (fun _ d => visible_spaces _ _ d)).1 n 0

/-! ## Merging adjacent nodes -/

/-- Only elements other than `span` are merged. -/
structure MergeOK (m : Bytes → Bool) : Prop where
  text : m b!"#text" = false
  comment : m b!"#comment" = false
  doctype : m b!"#doctype" = false
  document : m b!"#document" = false
  span : m b!"span" = false

mutual
/-- The texts of a tree, with the information whether they are inside of a node that is merged. -/
def ftxts (m : Bytes → Bool) (b : Bool) : Node → List (Bytes × Bool)
  | .text d => [(d, b)]
  | .comment _ => []
  | .doctype _ => []
  | .document cs => ftxtsL m (b || m b!"#document") cs
  | .elem n _ cs => ftxtsL m (b || m n) cs
def ftxtsL (m : Bytes → Bool) (b : Bool) : List Node → List (Bytes × Bool)
  | [] => []
  | n :: ns => ftxts m b n ++ ftxtsL m b ns
end

theorem ftxts_items (m : Bytes → Bool) :
    (∀ n, ∀ anc, textsWith (fun a => a.any m) (items anc n) = ftxts m (anc.any m) n) ∧
    (∀ ns, ∀ anc, textsWith (fun a => a.any m) (itemsL anc ns) = ftxtsL m (anc.any m) ns) := by
  apply induct
  · intro d anc; rfl
  · intro d anc; rfl
  · intro d anc; rfl
  · intro cs ih anc
    rw [items, textsWith_cons, textsWith_document, List.nil_append, ih, ftxts, List.any_cons, Bool.or_comm]
  · intro n a cs ih anc
    rw [items, textsWith_cons, textsWith_elem, List.nil_append, ih, ftxts, List.any_cons, Bool.or_comm]
  · intro anc; rfl
  · intro n ns ih1 ih2 anc
    rw [itemsL, textsWith_append, ih1, ih2, ftxtsL]

theorem ftxts_txts (m : Bytes → Bool) :
    (∀ n, ∀ b, (ftxts m b n).map (·.1) = txts n) ∧ (∀ ns, ∀ b, (ftxtsL m b ns).map (·.1) = txtsL ns) := by
  apply induct
  · intro d b; rfl
  · intro d b; rfl
  · intro d b; rfl
  · intro cs ih b; rw [ftxts, ih, txts]
  · intro n a cs ih b; rw [ftxts, ih, txts]
  · intro b; rfl
  · intro n ns ih1 ih2 b; rw [ftxtsL, List.map_append, ih1, ih2, txtsL]

theorem ftxtsL_append (m : Bytes → Bool) (b : Bool) (x y : List Node) : ftxtsL m b (x ++ y) = ftxtsL m b x ++ ftxtsL m b y := by
  induction x with
  | nil => simp [ftxtsL]
  | cons n x ih => simp [ftxtsL, ih]

theorem collect_goOn (m : Bytes → Bool) :
    (∀ n, (collectNode m n).goOn = true → ∀ b, ftxtsL m b (collectNode m n).left = []) ∧
    (∀ ns, (collectL m ns).goOn = true → ∀ b, ftxtsL m b (collectL m ns).left = []) := by
  apply induct
  · intro d h; simp [collectNode] at h
  · intro d h; simp [collectNode] at h
  · intro d h; simp [collectNode] at h
  · intro cs ih h; simp [collectNode] at h
  · intro n a cs ih h b
    rw [collectNode] at h ⊢
    split
    · rename_i hn
      rw [if_pos hn] at h
      simp [ftxtsL, ftxts, ih h]
    · rename_i hn
      rw [if_neg hn] at h
      split
      · rfl
      · rename_i hm
        rw [if_neg hm] at h
        simp at h
  · intro h b; rfl
  · intro n ns ih1 ih2 h b
    rw [collectL] at h ⊢
    simp only at h ⊢
    split
    · rename_i hg
      rw [if_pos hg] at h
      simp [ftxtsL_append, ih1 hg, ih2 h]
    · rename_i hg
      rw [if_neg hg] at h
      simp at h

theorem collect_ftxts (m : Bytes → Bool) (ok : MergeOK m) :
    (∀ n, ∀ b, ftxtsL m true (collectNode m n).moved ++ ftxtsL m b (collectNode m n).left = ftxts m b n) ∧
    (∀ ns, ∀ b, ftxtsL m true (collectL m ns).moved ++ ftxtsL m b (collectL m ns).left = ftxtsL m b ns) := by
  apply induct
  · intro d b; rfl
  · intro d b; rfl
  · intro d b; rfl
  · intro cs ih b; simp [collectNode, ftxtsL]
  · intro n a cs ih b
    rw [collectNode]
    split
    · rename_i hn
      subst hn
      have := ih b
      simpa [ftxtsL, ftxts, ok.span] using this
    · split
      · rename_i hm
        simp [ftxtsL, ftxts, hm]
      · simp [ftxtsL]
  · intro b; rfl
  · intro n ns ih1 ih2 b
    rw [collectL]
    simp only
    split
    · rename_i hg
      have h0 := (collect_goOn m).1 n hg b
      have h1 := ih1 b
      rw [h0, List.append_nil] at h1
      simp only [ftxtsL_append, h0, List.nil_append, ftxtsL]
      rw [List.append_assoc, ih2, h1]
    · simp only [ftxtsL_append, ftxtsL]
      rw [← List.append_assoc, ih1]

/-- The texts of what is still to be visited; `bs` says for each level whether it is inside of a node that is merged. -/
def ftxtsF (m : Bytes → Bool) : List Bool → List (List Node) → List (Bytes × Bool)
  | b :: bs, f :: fs => ftxtsL m b f ++ ftxtsF m bs fs
  | _, _ => []

theorem collectFrames_ftxts (m : Bytes → Bool) (ok : MergeOK m) : ∀ (fs : List (List Node)) (bs : List Bool), bs.length = fs.length →
    ftxtsL m true (collectFrames m fs).1 ++ ftxtsF m bs (collectFrames m fs).2 = ftxtsF m bs fs
  | [], bs, h => by cases bs <;> simp_all [collectFrames, ftxtsL, ftxtsF]
  | f :: fs, [], h => by simp at h
  | f :: fs, b :: bs, h => by
    have h1 := (collect_ftxts m ok).2 f b
    have h2 := collectFrames_ftxts m ok fs bs (by simpa using h)
    rw [collectFrames]
    simp only
    split
    · rename_i hg
      have h3 := (collect_goOn m).2 f hg b
      rw [h3, List.append_nil] at h1
      simp only [ftxtsL_append, ftxtsF, h3, List.nil_append, List.append_assoc]
      rw [h2, h1]
    · simp only [ftxtsF]
      rw [← List.append_assoc, h1]

theorem collectFrames_length (m : Bytes → Bool) : ∀ fs : List (List Node), (collectFrames m fs).2.length = fs.length
  | [] => rfl
  | f :: fs => by
    have h2 := collectFrames_length m fs
    rw [collectFrames]
    simp only
    split <;> simp [h2]

theorem mergeStep_length (m : Bytes → Bool) (n : Node) (cs : List Node) (fs : List (List Node)) :
    (mergeStep m n cs fs).length = fs.length + 2 := by
  rw [mergeStep]
  split
  · simp [collectFrames_length]
  · simp

theorem mergeAdjacentF_length (m : Bytes → Bool) (fs : List (List Node)) : (mergeAdjacentF m fs).length = fs.length := by
  fun_induction mergeAdjacentF m fs with
  | case1 => rfl
  | case2 fs ih => simp [ih]
  | case3 n cs fs ks cs' fs' heq ih =>
    rw [heq, mergeStep_length] at ih
    simpa using ih
  | case4 n cs fs h ih =>
    rw [mergeStep_length] at ih
    rcases hr : mergeAdjacentF m (mergeStep m n cs fs) with _ | ⟨a, _ | ⟨b, l⟩⟩
    · rw [hr] at ih; simp at ih
    · rw [hr] at ih; simp at ih
    · exact absurd hr (h a b l)

theorem mergeStep_ftxts (m : Bytes → Bool) (ok : MergeOK m) (n : Node) (cs : List Node) (fs : List (List Node)) (b : Bool)
    (bs : List Bool) (h : bs.length = fs.length) :
    ftxtsF m ((b || m n.name) :: b :: bs) (mergeStep m n cs fs) =
      ftxtsL m (b || m n.name) n.children ++ ftxtsF m (b :: bs) (cs :: fs) := by
  rw [mergeStep]
  split
  · rename_i hm
    simp only [Bool.and_eq_true] at hm
    simp only [ftxtsF]
    rw [ftxtsL_append, hm.1, Bool.or_true, List.append_assoc]
    rw [collectFrames_ftxts m ok (cs :: fs) (b :: bs) (by simpa using h)]
    rfl
  · rfl

theorem mergeAdjacentF_ftxts (m : Bytes → Bool) (ok : MergeOK m) (fs : List (List Node)) : ∀ bs : List Bool, bs.length = fs.length →
    ftxtsF m bs (mergeAdjacentF m fs) = ftxtsF m bs fs := by
  fun_induction mergeAdjacentF m fs with
  | case1 => intro bs _; rfl
  | case2 fs ih =>
    intro bs h
    cases bs with
    | nil => simp at h
    | cons b bs => simp only [ftxtsF, ftxtsL]; rw [ih bs (by simpa using h)]
  | case3 n cs fs ks cs' fs' heq ih =>
    intro bs h
    cases bs with
    | nil => simp at h
    | cons b bs =>
      have ih' := ih ((b || m n.name) :: b :: bs) (by rw [mergeStep_length]; simpa using h)
      rw [heq, mergeStep_ftxts m ok _ _ _ _ _ (by simpa using h)] at ih'
      simp only [ftxtsF, ftxtsL] at ih' ⊢
      have leaf : n.children = [] → m n.name = false → ks = [] := by
        intro hc hm
        rw [mergeStep, hm, Bool.false_and, if_neg (by simp), hc, mergeAdjacentF] at heq
        simp only [List.cons.injEq] at heq
        exact heq.1.symm
      cases n with
      | text d =>
        have hk := leaf rfl ok.text
        subst hk
        simp only [Node.children, ftxtsL, List.nil_append] at ih'
        simp only [withChildren]
        rw [List.append_assoc, ih', List.append_assoc]
      | comment d =>
        have hk := leaf rfl ok.comment
        subst hk
        simp only [Node.children, ftxtsL, List.nil_append] at ih'
        simp only [withChildren]
        rw [List.append_assoc, ih', List.append_assoc]
      | doctype d =>
        have hk := leaf rfl ok.doctype
        subst hk
        simp only [Node.children, ftxtsL, List.nil_append] at ih'
        simp only [withChildren]
        rw [List.append_assoc, ih', List.append_assoc]
      | document k =>
        simp only [withChildren, ftxts, Node.children, Node.name] at ih' ⊢
        rw [List.append_assoc, ih', List.append_assoc]
      | elem a as k =>
        simp only [withChildren, ftxts, Node.children, Node.name] at ih' ⊢
        rw [List.append_assoc, ih', List.append_assoc]
  | case4 n cs fs h ih =>
    have hl := mergeAdjacentF_length m (mergeStep m n cs fs)
    rw [mergeStep_length] at hl
    rcases hr : mergeAdjacentF m (mergeStep m n cs fs) with _ | ⟨a, _ | ⟨b, l⟩⟩
    · rw [hr] at hl; simp at hl
    · rw [hr] at hl; simp at hl
    · exact absurd hr (h a b l)

/-- The first frame keeps at least as many... of a single node there is exactly one node left. -/
theorem mergeAdjacentF_single (m : Bytes → Bool) (n : Node) : ∃ ks, mergeAdjacentF m [[n]] = [[withChildren n ks]] := by
  rw [mergeAdjacentF]
  have hs : mergeStep m n [] [] = [n.children, []] := by simp [mergeStep]
  have hl := mergeAdjacentF_length m [n.children, []]
  rw [hs]
  have key : ∀ f : List Node, ∃ ks, mergeAdjacentF m [f, []] = [ks, []] := by
    intro f
    generalize hfs : [f, []] = fs
    have : ∀ fs : List (List Node), (∀ x ∈ fs.getLast?, x = []) → fs ≠ [] → ∀ x ∈ (mergeAdjacentF m fs).getLast?, x = [] := by
      intro fs
      fun_induction mergeAdjacentF m fs with
      | case1 => simp
      | case2 fs ih =>
        intro h _ x hx
        cases fs with
        | nil => simp [mergeAdjacentF] at hx; exact hx
        | cons f fs =>
          have hlen := mergeAdjacentF_length m (f :: fs)
          rcases hr : mergeAdjacentF m (f :: fs) with _ | ⟨y, l⟩
          · rw [hr] at hlen; simp at hlen
          · rw [hr] at hx ih
            exact ih (by simpa using h) (by simp) x (by simpa using hx)
      | case3 n cs fs ks cs' fs' heq ih =>
        intro h _ x hx
        have hfs : fs ≠ [] := by
          intro he; subst he; simp at h
        have hlen := mergeAdjacentF_length m (mergeStep m n cs fs)
        rw [mergeStep_length, heq] at hlen
        have hfs' : fs' ≠ [] := by
          intro he; subst he; simp at hlen; exact hfs hlen
        have hlast : ∀ x ∈ (mergeStep m n cs fs).getLast?, x = [] := by
          intro x hx
          rw [mergeStep] at hx
          have h' : ∀ x ∈ fs.getLast?, x = [] := by
            intro x hx
            apply h
            cases fs with
            | nil => simp at hx
            | cons f fs => simpa using hx
          have hc : ∀ gs : List (List Node), (∀ x ∈ gs.getLast?, x = []) → ∀ x ∈ (collectFrames m gs).2.getLast?, x = [] := by
            intro gs
            induction gs with
            | nil => simp [collectFrames]
            | cons g gs ihg =>
              intro hg x hx
              rw [collectFrames] at hx
              simp only at hx
              split at hx
              · rename_i hgo
                cases gs with
                | nil =>
                  simp [collectFrames] at hx
                  have := hg g (by simp)
                  subst this
                  simpa [collectL] using hx
                | cons g' gs =>
                  have hl := collectFrames_length m (g' :: gs)
                  rcases hr : (collectFrames m (g' :: gs)).2 with _ | ⟨y, l⟩
                  · rw [hr] at hl; simp at hl
                  · rw [hr] at hx
                    refine ihg (by simpa using hg) x ?_
                    rw [hr]
                    simpa using hx
              · rename_i hgo
                cases gs with
                | nil =>
                  have := hg g (by simp)
                  subst this
                  simp [collectL] at hgo
                | cons g' gs => exact hg x (by simpa using hx)
          split at hx
          · have hl := collectFrames_length m (cs :: fs)
            rcases hr : (collectFrames m (cs :: fs)).2 with _ | ⟨y, l⟩
            · rw [hr] at hl; simp at hl
            · refine hc (cs :: fs) ?_ x ?_
              · intro x hx
                cases fs with
                | nil => exact absurd rfl hfs
                | cons f fs => exact h' x (by simpa using hx)
              · simp only [hr] at hx ⊢
                simpa using hx
          · cases fs with
            | nil => exact absurd rfl hfs
            | cons f fs => exact h' x (by simpa using hx)
        have := ih hlast (by intro he; have := mergeStep_length m n cs fs; rw [he] at this; simp at this)
        rw [heq] at this
        cases fs' with
        | nil => exact absurd rfl hfs'
        | cons f fs' => exact this x (by simpa using hx)
      | case4 n cs fs h ih =>
        intro _ _ x hx
        simp at hx
    have hlen := mergeAdjacentF_length m fs
    have := this fs (by subst hfs; simp) (by subst hfs; simp)
    subst hfs
    rcases hr : mergeAdjacentF m [f, []] with _ | ⟨y, _ | ⟨z, _ | ⟨w, l⟩⟩⟩
    · rw [hr] at hlen; simp at hlen
    · rw [hr] at hlen; simp at hlen
    · rw [hr] at this
      have := this z (by simp)
      subst this
      exact ⟨y, rfl⟩
    · rw [hr] at hlen; simp at hlen
  obtain ⟨ks, hk⟩ := key n.children
  rw [hk]
  exact ⟨ks, rfl⟩

theorem mergeAdjacent_ftxts (m : Bytes → Bool) (ok : MergeOK m) (n : Node) : ftxts m false (mergeAdjacent m n) = ftxts m false n := by
  obtain ⟨ks, hk⟩ := mergeAdjacentF_single m n
  have := mergeAdjacentF_ftxts m ok [[n]] [false] rfl
  rw [hk] at this
  rw [mergeAdjacent, hk]
  simpa [ftxtsF, ftxtsL] using this

theorem mergeAdjacent_txts (m : Bytes → Bool) (ok : MergeOK m) (n : Node) : txts (mergeAdjacent m n) = txts n := by
  rw [← (ftxts_txts m).1 _ false, mergeAdjacent_ftxts m ok, (ftxts_txts m).1]

end Verif.Dom
