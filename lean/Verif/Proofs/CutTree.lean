import Verif.Proofs.CutDom
/-!
# A rule or a title cuts the tree, wherever it is

As in `Verif.Proofs.CutDom`, but the containers around the rule have other content too.
-/
set_option linter.unusedSimpArgs false

namespace Verif.Cut
open Verif Verif.Spec Verif.DomUtils Verif.Dom

abbrev Outer := List (Bytes × List (Bytes × Bytes))

/-- There is nothing. -/
def Empty (L : List (List Node)) : Prop := ∀ x ∈ L, x = []

def Keeps (F : List (List Node) → List (List Node)) : Prop := ∀ L, Empty L → Empty (F L)

theorem Empty.head {L : List (List Node)} (h : Empty L) : L.headD [] = [] := by
  cases L with
  | nil => rfl
  | cons x L => exact h x (by simp)

theorem Empty.tail {L : List (List Node)} (h : Empty L) : Empty L.tail := fun x hx => h x (List.mem_of_mem_tail hx)

theorem Empty.cons {x : List Node} {L : List (List Node)} (hx : x = []) (h : Empty L) : Empty (x :: L) := by
  intro y hy
  rcases List.mem_cons.1 hy with rfl | hy
  · exact hx
  · exact h y hy

theorem empty_nil : Empty [] := by intro x hx; simp at hx

/-- The step does not change the containers, makes `s'` of `s`, and treats what is before and what is behind it separately. -/
def TCut (w : Outer) (s s' : Node) (f : Node → Node) : Prop :=
  ∃ F G : List (List Node) → List (List Node), Keeps F ∧ Keeps G ∧
    ∀ L R, f (treeAround w L R s) = treeAround w (F L) (G R) s'

theorem TCut.comp {w s s' s''} {f g : Node → Node} (hg : TCut w s' s'' g) (hf : TCut w s s' f) : TCut w s s'' (fun n => g (f n)) := by
  obtain ⟨F, G, h1, h2, h⟩ := hf
  obtain ⟨F', G', h1', h2', h'⟩ := hg
  exact ⟨F' ∘ F, G' ∘ G, fun L hL => h1' _ (h1 L hL), fun L hL => h2' _ (h2 L hL), fun A B => by simp [h, h']⟩

theorem TCut.id {w s} : TCut w s s (fun n => n) := ⟨fun x => x, fun x => x, fun _ h => h, fun _ h => h, fun _ _ => rfl⟩

variable {w : Outer} {sn : Bytes} {a : List (Bytes × Bytes)} {t : Option Bytes}

/-! ## Steps that go through the tree -/

/-- A step for siblings (that may depend on the names of what they are in), for all lists. -/
def levels (T : List Bytes → List Node → List Node) : List Bytes → Outer → List (List Node) → List (List Node)
  | anc, [], L => [T anc (L.headD [])]
  | anc, (n, _) :: w, L => T anc (L.headD []) :: levels T (n :: anc) w L.tail

theorem levels_keeps {T : List Bytes → List Node → List Node} (h : ∀ anc, T anc [] = []) (w : Outer) : ∀ anc, Keeps (levels T anc w) := by
  induction w with
  | nil => intro anc L hL; exact .cons (by rw [hL.head, h]) empty_nil
  | cons x w ih => intro anc L hL; exact .cons (by rw [hL.head, h]) (ih _ _ hL.tail)

/-- The names of the containers, from the inside. -/
def names : List Bytes → Outer → List Bytes
  | anc, [] => anc
  | anc, (n, _) :: w => names (n :: anc) w

theorem tcut_of' {f : Node → Node} (T : List Bytes → List Node → List Node) (P : Bytes → Prop) (h0 : ∀ anc, T anc [] = []) (hw : ∀ x ∈ w, P x.1)
    {s : Node} {s' : List Bytes → Node} (hs : ∀ anc A B, T anc (A ++ s :: B) = T anc A ++ s' anc :: T anc B)
    (h : ∀ anc n, P n → ∀ a cs A B, T anc (A ++ .elem n a cs :: B) = T anc A ++ .elem n a (T (n :: anc) cs) :: T anc B)
    (hdoc : ∀ cs, f (.document cs) = .document (T [b!"#document"] cs)) : TCut w s (s' (names [b!"#document"] w)) f := by
  have key : ∀ anc L R, T anc (around w L R s) = around w (levels T anc w L) (levels T anc w R) (s' (names anc w)) := by
    induction w with
    | nil =>
      intro anc L R
      simp only [around, levels, names, List.headD_cons]
      exact hs _ _ _
    | cons x w ih =>
      obtain ⟨n, b⟩ := x
      intro anc L R
      simp only [around, levels, names, List.headD_cons, List.tail_cons]
      rw [h anc n (hw (n, b) (by simp)), ih fun y hy => hw y (by simp [hy])]
  refine ⟨levels T [b!"#document"] w, levels T [b!"#document"] w, levels_keeps h0 w _, levels_keeps h0 w _, fun L R => ?_⟩
  rw [treeAround, hdoc, key]
  rfl

theorem tcut_of {f : Node → Node} (T : List Bytes → List Node → List Node) (P : Bytes → Prop) (h0 : ∀ anc, T anc [] = [])
    (ht : ∀ anc d, T anc [.text d] = [.text d]) (hw : ∀ x ∈ w, P x.1) (hn : P sn)
    (h : ∀ anc n, P n → ∀ a cs A B, T anc (A ++ .elem n a cs :: B) = T anc A ++ .elem n a (T (n :: anc) cs) :: T anc B)
    (hdoc : ∀ cs, f (.document cs) = .document (T [b!"#document"] cs)) : TCut w (sep sn a t) (sep sn a t) f := by
  refine tcut_of' (s' := fun _ => sep sn a t) T P h0 hw (fun anc A B => ?_) h hdoc
  rw [sep, h anc sn hn]
  cases t with
  | none => simp [h0]
  | some d => simp [ht]

theorem mergeTextGo_elem (n : Bytes) (a : List (Bytes × Bytes)) (cs B : List Node) : ∀ (A : List Node) (p : Option Bytes),
    mergeTextGo p (A ++ .elem n a cs :: B) = mergeTextGo p A ++ .elem n a (mergeTextGo none cs) :: mergeTextGo none B := by
  intro A
  induction A with
  | nil => intro p; cases p <;> simp [mergeTextGo, mergeText, flush]
  | cons n A ih => intro p; cases n <;> cases p <;> simp [mergeTextGo, ih]

theorem remove_tcut (hw : Good w) (hn : SepName sn) : TCut w (sep sn a t) (sep sn a t) (preRenderRemove Render.isRemoved) := by
  refine tcut_of (fun _ cs => mergeTextGo none (removeInL Render.isRemoved cs)) (fun n => Render.isRemoved n = false) ?_ ?_ (fun x hx => (hw x hx).kept) hn.kept ?_ ?_
  · intro _; rfl
  · intro _ d
    have h : Render.isRemoved (Node.text d).name = false := by rw [Node.name]; decide
    simp [removeInL, h, removeIn, mergeTextGo, flush]
  · intro _ n hn a cs A B
    rw [removeInL_append, removeInL, if_neg (show ¬ Render.isRemoved (Node.elem n a cs).name = true from by rw [Node.name, hn]; simp), removeIn, mergeTextGo_elem]
  · intro cs
    rw [preRenderRemove, if_neg (show ¬ Render.isRemoved (Node.document cs).name = true from by rw [Node.name]; decide), removeIn, mergeText]

theorem rename_tcut (T : NameTables) (hw : Good w) (hn : SepName sn) : TCut w (sep sn a t) (sep sn a t) (renameFakeSpans T) := by
  refine tcut_of (fun _ => renameFakeSpansL T) (fun n => n ≠ b!"span") ?_ ?_ (fun x hx => (hw x hx).span) hn.span ?_ ?_
  · intro _; rfl
  · intro _ d; rfl
  · intro _ n hn a cs A B
    induction A with
    | nil => simp [renameFakeSpansL, renameFakeSpans, hn]
    | cons n A ih => simp [renameFakeSpansL, ih]
  · intro cs; rw [renameFakeSpans]

theorem redundant_tcut {same : Bytes → Bytes → Bool} (hs : ∀ x ∈ w, same x.1 x.1 = false) (hr : same sn sn = false) :
    TCut w (sep sn a t) (sep sn a t) (removeRedundant same) := by
  refine tcut_of (removeRedundantL same) (fun n => same n n = false) ?_ ?_ hs hr ?_ ?_
  · intro _; rfl
  · intro _ d; simp [removeRedundantL, removeRedundantIn]
  · intro anc n hn a cs A B
    rw [redundantL_append, removeRedundantL, removeRedundantIn, hn]
    simp
  · intro cs; rw [removeRedundant]

theorem emptyCode_tcut (hw : Good w) (hn : SepName sn) : TCut w (sep sn a t) (sep sn a t) removeEmptyCode := by
  refine tcut_of (fun _ => removeEmptyCodeL) (fun n => n ≠ b!"code") ?_ ?_ (fun x hx => (hw x hx).code') hn.code' ?_ ?_
  · intro _; rfl
  · intro _ d; simp [removeEmptyCodeL, removeEmptyCode, Node.name]
  · intro _ n hn a cs A B
    induction A with
    | nil => simp [removeEmptyCodeL, removeEmptyCode, Node.name, hn]
    | cons n A ih =>
      simp only [List.cons_append, removeEmptyCodeL, ih]
      split <;> simp
  · intro cs; rw [removeEmptyCode]

theorem swap_tcut {outer inner : Bytes → Bool} (hs : ∀ x ∈ w, outer x.1 = false) (hr : outer sn = false) :
    TCut w (sep sn a t) (sep sn a t) (swapTags outer inner) := by
  refine tcut_of (fun _ => swapTagsL outer inner) (fun n => outer n = false) ?_ ?_ hs hr ?_ ?_
  · intro _; rfl
  · intro _ d; rfl
  · intro _ n hn a cs A B
    induction A with
    | nil => simp only [List.nil_append, swapTagsL, swap_elem hn]
    | cons n A ih => simp [swapTagsL, ih]
  · intro cs; rw [swapTags]

theorem leaf_tcut (hw : Good w) : TCut w (sep sn a t) (sep sn a t) leafAlternatives := by
  refine tcut_of' (s' := fun _ => sep sn a t) (fun _ => leafAlternativesL false false) (fun n => getStructure n ≠ .leaf ∧ getStructure n ≠ .inline) ?_ (fun x hx => (hw x hx).struct) ?_ ?_ ?_
  · intro _; rfl
  · intro _ A B
    rw [leafL_append, leafAlternativesL, sep, leafAlternativesIn]
    cases t <;> simp [leafAlternativesL, leafAlternativesIn]
  · intro _ n hn a cs A B
    rw [leafL_append, leafAlternativesL, leafAlternativesIn]
    simp [hn.1, hn.2]
  · intro cs; rw [leafAlternatives, leafAlternativesIn]; rfl

theorem move_tcut (hw : Good w) (hn : SepName sn) : TCut w (sep sn a t) (sep sn a t) moveListItems := by
  refine tcut_of (fun _ => moveListItemsL) (fun n => isListName n = false) ?_ ?_ (fun x hx => (hw x hx).list) hn.list ?_ ?_
  · intro _; rfl
  · intro _ d; rfl
  · intro _ n hl a cs A B
    simp only [isListName, decide_eq_false_iff_not, not_or] at hl
    induction A with
    | nil => simp [moveListItemsL, moveListItems, hl]
    | cons n A ih => simp [moveListItemsL, ih]
  · intro cs; rw [moveListItems]

/-! ## Merging of adjacent elements -/

section
variable {m : Bytes → Bool} {z : Node} (hz : collectNode m z = ⟨[], [z], false⟩) (B : List Node)
include hz

theorem collectL_elem : ∀ A : List Node,
    collectL m (A ++ z :: B) = ⟨(collectL m A).moved, (collectL m A).left ++ z :: B, false⟩
  | [] => by simp [collectL, hz]
  | c :: A => by
    have ih := collectL_elem A
    rw [List.cons_append, collectL, collectL, ih]
    simp only
    split <;> simp

theorem collectFrames_add (rest : List (List Node)) : ∀ fs : List (List Node), fs ≠ [] →
    collectFrames m (addLast (z :: B) fs ++ rest) = ((collectFrames m fs).1, addLast (z :: B) (collectFrames m fs).2 ++ rest)
  | [], h => absurd rfl h
  | [f], _ => by
    rw [addLast, List.singleton_append, collectFrames, collectL_elem hz, collectFrames.eq_2 m f []]
    simp only [Bool.false_eq_true, if_false, ite_self]
    split <;> simp [collectFrames, addLast]
  | f :: g :: fs, _ => by
    have ih := collectFrames_add rest (g :: fs) (by simp)
    have hl := collectFrames_length m (g :: fs)
    rw [addLast, List.cons_append, collectFrames, ih, collectFrames.eq_2 m f (g :: fs)]
    simp only
    split
    · simp only [Prod.mk.injEq, true_and]
      rw [addLast_cons, List.cons_append]
      intro h
      simp [h] at hl
    · rfl

theorem mergeStep_add (rest : List (List Node)) (c : Node) (cs : List Node) (fs : List (List Node)) :
    ∀ x xs, addLast (z :: B) (cs :: fs) ++ rest = x :: xs → mergeStep m c x xs = addLast (z :: B) (mergeStep m c cs fs) ++ rest := by
  intro x xs e
  have hc := collectFrames_add hz B rest (cs :: fs) (by simp)
  rw [e] at hc
  have hl := collectFrames_length m (cs :: fs)
  have hne : (collectFrames m (cs :: fs)).2 ≠ [] := by intro h; simp [h] at hl
  rw [mergeStep, mergeStep, hc]
  cases cs with
  | nil =>
    cases fs with
    | nil =>
      simp only [addLast, List.nil_append, List.cons_append, List.cons.injEq] at e
      obtain ⟨rfl, rfl⟩ := e
      simp [collectFrames, collectL, addLast]
    | cons f fs =>
      simp only [addLast, List.cons_append, List.cons.injEq] at e
      obtain ⟨rfl, rfl⟩ := e
      simp [addLast]
  | cons c cs =>
    have hx : x.isEmpty = false := by
      cases fs with
      | nil => simp only [addLast, List.cons_append, List.cons.injEq] at e; rw [← e.1]; rfl
      | cons f fs => simp only [addLast, List.cons_append, List.cons.injEq] at e; rw [← e.1]; rfl
    simp only [hx, List.isEmpty_cons]
    split
    · rw [addLast_cons _ _ hne, List.cons_append]
    · rw [addLast_cons _ _ (by simp), List.cons_append, e]

theorem merge_add {rest : List (List Node)} {z' : Node} {B' : List Node} {rest' : List (List Node)} (h0 : mergeAdjacentF m ((z :: B) :: rest) = (z' :: B') :: rest')
    (fs : List (List Node)) (hfs : fs ≠ []) :
    mergeAdjacentF m (addLast (z :: B) fs ++ rest) = addLast (z' :: B') (mergeAdjacentF m fs) ++ rest' := by
  fun_induction mergeAdjacentF m fs with
  | case1 => exact absurd rfl hfs
  | case2 fs ih =>
    cases fs with
    | nil => simp only [addLast, List.nil_append, List.singleton_append, h0, mergeAdjacentF]
    | cons f fs =>
      have hl := mergeAdjacentF_length m (f :: fs)
      have hne : mergeAdjacentF m (f :: fs) ≠ [] := by intro h; simp [h] at hl
      rw [addLast, List.cons_append, mergeAdjacentF, ih (by simp), addLast_cons _ _ hne, List.cons_append]
  | case3 c cs fs ls cs' fs' e ih =>
    have hne : addLast (z :: B) (cs :: fs) ++ rest ≠ [] := by cases fs <;> simp [addLast]
    have hne2 : mergeStep m c cs fs ≠ [] := by
      rw [mergeStep]; split <;> simp
    rcases hx : addLast (z :: B) (cs :: fs) ++ rest with _ | ⟨x, xs⟩
    · exact absurd hx hne
    · have hs := mergeStep_add hz B rest c cs fs x xs hx
      have h1 : addLast (z :: B) ((c :: cs) :: fs) ++ rest = (c :: x) :: xs := by
        cases fs <;> simp only [addLast, List.cons_append, List.cons.injEq] at hx ⊢ <;> obtain ⟨rfl, rfl⟩ := hx <;> simp
      rw [h1, mergeAdjacentF, hs, ih hne2, e]
      cases fs' <;> simp [addLast]
  | case4 c cs fs e ih =>
    have hl := mergeAdjacentF_length m (mergeStep m c cs fs)
    have h2 : 2 ≤ (mergeStep m c cs fs).length := by
      rw [mergeStep]
      split
      · have := collectFrames_length m (cs :: fs); simp [this]
      · simp
    rcases hg : mergeAdjacentF m (mergeStep m c cs fs) with _ | ⟨x, _ | ⟨y, z⟩⟩
    · rw [hg] at hl; simp at hl; omega
    · rw [hg] at hl; simp at hl; omega
    · exact absurd hg (e x y z)

end

theorem merge_one (m : Bytes → Bool) (B : List Node) : mergeAdjacentF m [B] = [(mergeAdjacentF m [B]).headD []] := by
  have hl := mergeAdjacentF_length m [B]
  rcases hg : mergeAdjacentF m [B] with _ | ⟨x, _ | ⟨y, z⟩⟩
  · simp [hg] at hl
  · rfl
  · simp [hg] at hl

/-- One level: what is before the element, in it, behind it, and behind what it is in. -/
theorem merge_level {m : Bytes → Bool} {n : Bytes} (hsp : n ≠ b!"span") (hm : m n = false) (a : List (Bytes × Bytes)) (ks A B : List Node)
    {rest : List (List Node)} {ks' B' : List Node} {rest' : List (List Node)} (h : mergeAdjacentF m (ks :: B :: rest) = ks' :: B' :: rest') :
    mergeAdjacentF m ((A ++ .elem n a ks :: B) :: rest) = ((mergeAdjacentF m [A]).headD [] ++ .elem n a ks' :: B') :: rest' := by
  have h0 : mergeAdjacentF m ((.elem n a ks :: B) :: rest) = (.elem n a ks' :: B') :: rest' := by
    rw [mergeAdjacentF, mergeStep, if_neg (by simp [Node.name, hm])]
    simp only [Node.children]
    rw [h]
    rfl
  have := merge_add (show collectNode m (.elem n a ks) = _ by simp [collectNode, hsp, hm]) B h0 [A] (by simp)
  rw [merge_one, addLast, addLast] at this
  exact this

/-- The lists behind something, from the inside. -/
def stack : Outer → List (List Node) → List (List Node)
  | [], R => [R.headD []]
  | _ :: w, R => stack w R.tail ++ [R.headD []]

theorem stack_length (w : Outer) : ∀ R, (stack w R).length = w.length + 1 := by
  induction w with
  | nil => intro R; rfl
  | cons x w ih => intro R; simp [stack, ih]

theorem merge_texts (m : Bytes → Bool) (hm : m b!"#text" = false) (t : Option Bytes) (fs : List (List Node)) :
    mergeAdjacentF m (t.toList.map .text :: fs) = t.toList.map .text :: mergeAdjacentF m fs := by
  cases t with
  | none => rw [Option.toList_none, List.map_nil, mergeAdjacentF]
  | some d =>
    rw [Option.toList_some, List.map_cons, List.map_nil, mergeAdjacentF, mergeStep, if_neg (by simp)]
    simp only [Node.children]
    rw [mergeAdjacentF, mergeAdjacentF]
    rfl

theorem merge_around {m : Bytes → Bool} (hs : ∀ x ∈ w, x.1 ≠ b!"span" ∧ m x.1 = false) (hsp : sn ≠ b!"span") (hr : m sn = false) {cs cs' : List Node}
    (hcs : ∀ fs, mergeAdjacentF m (cs :: fs) = cs' :: mergeAdjacentF m fs) :
    ∀ (anc : List Bytes) (L R rest : List (List Node)) (xs rest' : List (List Node)), mergeAdjacentF m (stack w R ++ rest) = xs ++ rest' → xs.length = w.length + 1 →
      mergeAdjacentF m (around w L R (.elem sn a cs) :: rest) =
        around w (levels (fun _ cs => (mergeAdjacentF m [cs]).headD []) anc w L) xs.reverse (.elem sn a cs') :: rest' := by
  induction w with
  | nil =>
    intro anc L R rest xs rest' h hl
    obtain ⟨B', rfl⟩ : ∃ B', xs = [B'] := List.length_eq_one_iff.1 (by simpa using hl)
    simp only [stack, List.singleton_append] at h
    simp only [around, levels, List.headD_cons, List.reverse_cons, List.reverse_nil, List.nil_append]
    refine merge_level hsp hr a _ _ _ ?_
    rw [hcs]
    exact congrArg _ h
  | cons x w ih =>
    obtain ⟨n, b⟩ := x
    intro anc L R rest xs rest' h hl
    rcases List.eq_nil_or_concat xs with rfl | ⟨ys, B', rfl⟩
    · simp at hl
    rw [List.concat_eq_append] at h hl ⊢
    simp only [stack, List.append_assoc, List.singleton_append] at h
    have := ih (fun y hy => hs y (by simp [hy])) (n :: anc) L.tail R.tail (R.headD [] :: rest) ys (B' :: rest') h (by simpa using hl)
    simp only [around, levels, List.headD_cons, List.reverse_append, List.reverse_cons, List.reverse_nil, List.nil_append, List.singleton_append, List.tail_cons]
    have hn := hs (n, b) (by simp)
    have e := merge_level hn.1 hn.2 b _ (L.headD []) (R.headD []) this
    exact e

theorem adjacent_tcut' {m : Bytes → Bool} (hs : ∀ x ∈ w, x.1 ≠ b!"span" ∧ m x.1 = false) (hd : m b!"#document" = false)
    (hsp : sn ≠ b!"span") (hr : m sn = false) {cs cs' : List Node} (hcs : ∀ fs, mergeAdjacentF m (cs :: fs) = cs' :: mergeAdjacentF m fs) :
    TCut w (.elem sn a cs) (.elem sn a cs') (mergeAdjacent m) := by
  have he : ∀ k, mergeAdjacentF m (List.replicate k []) = List.replicate k [] := by
    intro k
    have := merge_empties m [] k
    simpa [mergeAdjacentF] using this
  refine ⟨levels (fun _ cs => (mergeAdjacentF m [cs]).headD []) [] w, fun R => (mergeAdjacentF m (stack w R)).reverse, levels_keeps ?_ w _, ?_, fun L R => ?_⟩
  · intro _; simp only [mergeAdjacentF, List.headD]
  · intro R hR
    have h1 : ∀ (w : Outer) (R : List (List Node)), Empty R → stack w R = List.replicate (w.length + 1) [] := by
      intro w
      induction w with
      | nil => intro R hR; simp only [stack, hR.head]; rfl
      | cons x w ih => intro R hR; simp only [stack, ih _ hR.tail, hR.head, List.length_cons]; rw [← List.replicate_succ']
    simp only [h1 w R hR, he]
    intro x hx
    simp at hx
    exact hx
  · have h := merge_around (a := a) hs hsp hr hcs [] L R [[]] (mergeAdjacentF m (stack w R)) [[]] (merge_empties m (stack w R) 1)
      (by rw [mergeAdjacentF_length, stack_length])
    rw [treeAround, mergeAdjacent, mergeAdjacentF, mergeStep, if_neg (by simp [Node.name, hd])]
    simp only [Node.children]
    rw [h]
    rfl

theorem adjacent_tcut {m : Bytes → Bool} (hs : ∀ x ∈ w, x.1 ≠ b!"span" ∧ m x.1 = false) (hd : m b!"#document" = false) (ht : m b!"#text" = false)
    (hsp : sn ≠ b!"span") (hr : m sn = false) : TCut w (sep sn a t) (sep sn a t) (mergeAdjacent m) :=
  adjacent_tcut' hs hd hsp hr (merge_texts m ht t)

/-! ## The walk -/

/-- What the walk sees before the thing. -/
def evL : Outer → List (List Node) → List Ev
  | [], L => eventsL (L.headD [])
  | (n, _) :: w, L => eventsL (L.headD []) ++ .op n :: evL w L.tail

/-- What the walk sees behind it. -/
def evR : Outer → List (List Node) → List Ev
  | [], R => eventsL (R.headD [])
  | (n, _) :: w, R => evR w R.tail ++ .cl n :: eventsL (R.headD [])

theorem eventsL_around (w : Outer) (s : Node) : ∀ L R, eventsL (around w L R s) = evL w L ++ events s ++ evR w R := by
  induction w with
  | nil => intro L R; simp [around, evL, evR, Dom.eventsL_append, eventsL]
  | cons x w ih => obtain ⟨n, b⟩ := x; intro L R; simp [around, evL, evR, Dom.eventsL_append, eventsL, events, ih]

/-! ## Comments between lists -/

def leL (stop : List Ev) : Outer → List (List Node) → List (List Node)
  | [], L => [addListEndL stop (L.headD [])]
  | (n, _) :: w, L => addListEndL (.op n :: (evL w L.tail ++ stop)) (L.headD []) :: leL stop w L.tail

def leR : List Ev → Outer → List (List Node) → List (List Node)
  | after, [], R => [addListEndL after (R.headD [])]
  | after, (n, _) :: w, R => addListEndL after (R.headD []) :: leR (.cl n :: (eventsL (R.headD []) ++ after)) w R.tail

theorem leL_keeps (stop : List Ev) (w : Outer) : Keeps (leL stop w) := by
  induction w with
  | nil => intro L hL; exact .cons (by rw [hL.head]; rfl) empty_nil
  | cons x w ih => intro L hL; exact .cons (by rw [hL.head]; rfl) (ih _ hL.tail)

theorem leR_keeps (w : Outer) : ∀ after, Keeps (leR after w) := by
  induction w with
  | nil => intro after L hL; exact .cons (by rw [hL.head]; rfl) empty_nil
  | cons x w ih => intro after L hL; exact .cons (by rw [hL.head]; rfl) (ih _ _ hL.tail)

theorem listEnd_tcut' (hw : Good w) {s s' : Node} {es : List Ev} {x : Ev} {rest : List Ev} (hx : Stops x) (hev : events s = es ++ x :: rest)
    (hs : ∀ after B, addListEndL after (s :: B) = s' :: addListEndL after B) : TCut w s s' addListEndComments := by
  have key : ∀ after L R, addListEndL after (around w L R s) = around w (leL (es ++ [x]) w L) (leR after w R) s' := by
    induction w with
    | nil =>
      intro after L R
      simp only [around, leL, leR, List.headD_cons]
      rw [addListEndL_append]
      have e : eventsL (s :: R.headD []) ++ after = es ++ x :: (rest ++ eventsL (R.headD []) ++ after) := by
        rw [eventsL, hev]; simp
      rw [e, (addListEnd_rule hx _).2, hs]
    | cons y w ih =>
      obtain ⟨n, b⟩ := y
      intro after L R
      simp only [around, leL, leR, List.headD_cons, List.tail_cons]
      have hl : isListName n = false := hw.head.list
      have e : eventsL (Node.elem n b (around w L.tail R.tail s) :: R.headD []) ++ after =
          (.op n :: (evL w L.tail ++ es)) ++ x :: (rest ++ evR w R.tail ++ .cl n :: (eventsL (R.headD []) ++ after)) := by
        simp [eventsL, events, eventsL_around, hev]
      have e' : (.op n :: (evL w L.tail ++ es)) ++ [x] = .op n :: (evL w L.tail ++ (es ++ [x])) := by simp
      rw [addListEndL_append, e, (addListEnd_rule hx _).2, e']
      congr 1
      simp only [addListEndL, addListEndIn, Node.name, hl, Bool.false_and, Bool.false_eq_true, if_false, ih hw.tail]
  refine ⟨leL (es ++ [x]) w, leR [.cl b!"#document"] w, leL_keeps _ _, leR_keeps _ _, fun L R => ?_⟩
  rw [treeAround, addListEndComments, addListEndIn, key]
  rfl

theorem listEnd_tcut (hw : Good w) (hn : SepName sn) (ht : sn = b!"hr" ∨ t.isSome = true) : TCut w (sep sn a t) (sep sn a t) addListEndComments := by
  have hstop : ∃ (es : List Ev) (x : Ev) (rest : List Ev), Stops x ∧ events (sep sn a t) = es ++ x :: rest := by
    by_cases h : sn = b!"hr"
    · refine ⟨[], .op b!"hr", eventsL (t.toList.map .text) ++ [.cl b!"hr"], .inl rfl, ?_⟩
      rw [h]; simp [events, sep]
    · cases t with
      | none => simp [h] at ht
      | some d => exact ⟨[.op sn], .text, [.cl sn], .inr rfl, by simp [eventsL, events, sep]⟩
  obtain ⟨es, x, rest, hx, hev⟩ := hstop
  refine listEnd_tcut' hw hx hev fun after B => ?_
  have hl := hn.list
  have hl' : isListName b!"#text" = false := by decide
  cases t <;> simp only [addListEndL, addListEndIn, sep, Node.name, hl, hl', Option.toList_none, Option.toList_some, List.map_nil, List.map_cons, Bool.false_and,
    Bool.false_eq_true, if_false]

/-! ## White space -/

section
variable (f : Collapse.DomFuncs)

def fL : Outer → Collapse.Vars → List (List Node) → List (List Node)
  | [], s, L => [(Collapse.firstL f s (L.headD [])).1]
  | (n, _) :: w, s, L =>
    let r := Collapse.firstL f s (L.headD [])
    r.1 :: fL w (Collapse.visit f r.2 n) L.tail

def fR : Outer → List (List Node) → List (List Node) × Collapse.Vars
  | [], R =>
    let r := Collapse.firstL f ⟨none, false⟩ (R.headD [])
    ([r.1], r.2)
  | (n, _) :: w, R =>
    let q := fR w R.tail
    let r := Collapse.firstL f (Collapse.visit f q.2 n) (R.headD [])
    (r.1 :: q.1, r.2)

def gL : Outer → List (List Node) → List (List Node) × Collapse.Next
  | [], L =>
    let r := Collapse.secondL f .block (L.headD [])
    ([r.1], r.2)
  | (n, _) :: w, L =>
    let q := gL w L.tail
    let r := Collapse.secondL f (Collapse.before f q.2 n) (L.headD [])
    (r.1 :: q.1, r.2)

def gR : Outer → Collapse.Next → List (List Node) → List (List Node)
  | [], s, R => [(Collapse.secondL f s (R.headD [])).1]
  | (n, _) :: w, s, R =>
    let r := Collapse.secondL f s (R.headD [])
    r.1 :: gR w (Collapse.before f r.2 n) R.tail

theorem fL_keeps (w : Outer) : ∀ s, Keeps (fL f w s) := by
  induction w with
  | nil => intro s L hL; exact .cons (by rw [hL.head]; rfl) empty_nil
  | cons x w ih => intro s L hL; exact .cons (by rw [hL.head]; rfl) (ih _ _ hL.tail)

theorem fR_keeps (w : Outer) : Keeps (fun R => (fR f w R).1) := by
  induction w with
  | nil => intro L hL; exact .cons (by rw [hL.head]; rfl) empty_nil
  | cons x w ih => intro L hL; exact .cons (by rw [hL.head]; rfl) (ih _ hL.tail)

theorem gL_keeps (w : Outer) : Keeps (fun R => (gL f w R).1) := by
  induction w with
  | nil => intro L hL; exact .cons (by rw [hL.head]; rfl) empty_nil
  | cons x w ih => intro L hL; exact .cons (by rw [hL.head]; rfl) (ih _ hL.tail)

theorem gR_keeps (w : Outer) : ∀ s, Keeps (gR f w s) := by
  induction w with
  | nil => intro s L hL; exact .cons (by rw [hL.head]; rfl) empty_nil
  | cons x w ih => intro s L hL; exact .cons (by rw [hL.head]; rfl) (ih _ _ hL.tail)

end

theorem collapse_tcut_of {f : Collapse.DomFuncs} (hw : ∀ x ∈ w, f.isPre x.1 = false) (hd : f.isPre b!"#document" = false) {cs c1 c2 : List Node}
    (e1 : ∀ s B, Collapse.firstL f s (.elem sn a cs :: B) = (.elem sn a c1 :: (Collapse.firstL f ⟨none, false⟩ B).1, (Collapse.firstL f ⟨none, false⟩ B).2))
    (e2 : ∀ nx X, Collapse.secondL f nx (.elem sn a c1 :: X) = (.elem sn a c2 :: (Collapse.secondL f nx X).1, .block)) :
    TCut w (.elem sn a cs) (.elem sn a c2) (Collapse.collapse f) := by
  have k1 : ∀ s L R, Collapse.firstL f s (around w L R (.elem sn a cs)) = (around w (fL f w s L) (fR f w R).1 (.elem sn a c1), (fR f w R).2) := by
    induction w with
    | nil => intro s L R; simp only [around, fL, fR, List.headD_cons, Collapse.firstL_append, e1]
    | cons x w ih =>
      obtain ⟨n, c⟩ := x
      have h : f.isPre n = false := hw (n, c) (by simp)
      intro s L R
      simp [around, fL, fR, Collapse.firstL_append, Collapse.firstL, Collapse.first, h, ih fun y hy => hw y (by simp [hy])]
  have k2 : ∀ s L R, Collapse.secondL f s (around w L R (.elem sn a c1)) = (around w (gL f w L).1 (gR f w s R) (.elem sn a c2), (gL f w L).2) := by
    clear k1
    induction w with
    | nil => intro s L R; simp only [around, gL, gR, List.headD_cons, Collapse.secondL_append, e2]
    | cons x w ih =>
      obtain ⟨n, c⟩ := x
      have h : f.isPre n = false := hw (n, c) (by simp)
      intro s L R
      simp [around, gL, gR, Collapse.secondL_append, Collapse.secondL, Collapse.second, h, ih fun y hy => hw y (by simp [hy])]
  refine ⟨fun L => (gL f w (fL f w ⟨none, false⟩ L)).1, fun R => gR f w .stop (fR f w R).1, fun L hL => gL_keeps f w _ (fL_keeps f w _ _ hL),
    fun R hR => gR_keeps f w _ _ (fR_keeps f w _ hR), fun L R => ?_⟩
  rw [treeAround, Collapse.collapse, hd, if_neg (by simp), Collapse.children, k1, k2]
  rfl

theorem collapse_tcut' {f : Collapse.DomFuncs} (hw : ∀ x ∈ w, f.isPre x.1 = false)
    (hd : f.isPre b!"#document" = false) (hr : f.isBlock sn = true) (hp : f.isPre sn = false) (cs : List Node) :
    TCut w (.elem sn a cs) (.elem sn a (Collapse.secondL f .block (Collapse.firstL f ⟨none, false⟩ cs).1).1) (Collapse.collapse f) := by
  have v : ∀ s, Collapse.visit f s sn = ⟨none, false⟩ := by intro s; rw [Collapse.visit, hr]; rfl
  have b : ∀ nx, Collapse.before f nx sn = .block := by intro s; rw [Collapse.before, hr]; rfl
  refine collapse_tcut_of hw hd (c1 := (Collapse.firstL f ⟨none, false⟩ cs).1) ?_ ?_
  · intro s B
    simp [Collapse.firstL, Collapse.first, hp, v]
  · intro nx X
    simp [Collapse.secondL, Collapse.second, hp, b]

/-- The content of a preformatted block stays as it is. -/
theorem collapse_pre {f : Collapse.DomFuncs} (hw : ∀ x ∈ w, f.isPre x.1 = false)
    (hd : f.isPre b!"#document" = false) (hr : f.isBlock sn = true) (hp : f.isPre sn = true) (cs : List Node) :
    TCut w (.elem sn a cs) (.elem sn a cs) (Collapse.collapse f) := by
  have v : ∀ s, Collapse.visit f s sn = ⟨none, false⟩ := by intro s; rw [Collapse.visit, hr]; rfl
  have b : ∀ nx, Collapse.before f nx sn = .block := by intro s; rw [Collapse.before, hr]; rfl
  refine collapse_tcut_of hw hd (c1 := cs) ?_ ?_
  · intro s B
    simp [Collapse.firstL, Collapse.first, hp, v]
  · intro nx X
    simp [Collapse.secondL, Collapse.second, hp, b]

theorem collapse_tcut {f : Collapse.DomFuncs} (hw : ∀ x ∈ w, f.isPre x.1 = false)
    (hd : f.isPre b!"#document" = false) (hr : f.isBlock sn = true) (hp : f.isPre sn = false)
    (ht : ∀ d ∈ t, shown d ≠ []) : TCut w (sep sn a t) (sep sn a (t.map shown)) (Collapse.collapse f) := by
  have h := collapse_tcut' (a := a) hw hd hr hp (t.toList.map .text)
  have e : (Collapse.secondL f .block (Collapse.firstL f ⟨none, false⟩ (t.toList.map .text)).1).1 = (t.map shown).toList.map .text := by
    cases t with
    | none => rfl
    | some d =>
      have hd : ¬ Page.lead d = [] := fun h => ht d rfl ((Page.shown_nil d).2 h)
      have hf : Collapse.firstText ⟨none, false⟩ d = ([.text (Page.lead d)], ⟨some (decide ((Page.lead d).getLast? = some SP)), false⟩) := by
        have e : Page.lead d = if (oneSpace d).head? = some SP then (oneSpace d).tail else oneSpace d := rfl
        simp only [Collapse.firstText, Collapse.replaceWs_eq, true_or, true_and]
        rw [← e]
        rw [if_neg hd]
      simp [Collapse.firstL, Collapse.first, hf, Collapse.secondL, Collapse.second, Page.shown_eq]
  rw [e] at h
  exact h

/-! ## Spaces between emphasis and code -/

section
variable (f : Nat → Bytes → Bytes)

def mtL : Outer → Nat → List (List Node) → List (List Node)
  | [], k, L => [(mapTextsL f k (L.headD [])).1]
  | _ :: w, k, L => (mapTextsL f k (L.headD [])).1 :: mtL w (k + evTexts (eventsL (L.headD []))) L.tail

def mtR : Outer → Nat → List (List Node) → List (List Node)
  | [], k, R => [(mapTextsL f k (R.headD [])).1]
  | _ :: w, k, R => (mapTextsL f (k + evTexts (evR w R.tail)) (R.headD [])).1 :: mtR w k R.tail

theorem mtL_empty (w : Outer) : ∀ k, Keeps (mtL f w k) := by
  induction w with
  | nil => intro k L hL; exact .cons (by rw [hL.head]; rfl) empty_nil
  | cons x w ih => intro k L hL; exact .cons (by rw [hL.head]; rfl) (ih _ _ hL.tail)

theorem mtR_empty (w : Outer) : ∀ k, Keeps (mtR f w k) := by
  induction w with
  | nil => intro k L hL; exact .cons (by rw [hL.head]; rfl) empty_nil
  | cons x w ih => intro k L hL; exact .cons (by rw [hL.head]; rfl) (ih _ _ hL.tail)

theorem evTexts_cons (e : Ev) (l : List Ev) (h : e ≠ .text) : evTexts (e :: l) = evTexts l := by
  rw [evTexts, evTexts, List.countP_cons]; simp [h]

theorem mapTexts_around {s s' : Node} {c : Nat} (w : Outer) : ∀ k L R, mapTexts f (k + evTexts (evL w L)) s = (s', k + evTexts (evL w L) + c) →
    mapTextsL f k (around w L R s) = (around w (mtL f w k L) (mtR f w (k + evTexts (evL w L) + c) R) s', k + evTexts (evL w L) + c + evTexts (evR w R)) := by
  induction w with
  | nil =>
    intro k L R h
    simp only [evL] at h
    have h1 := (mapTexts_count f).2 (L.headD []) k
    have h2 := (mapTexts_count f).2 (R.headD []) (k + evTexts (eventsL (L.headD [])) + c)
    simp only [around, mtL, mtR, evL, evR, List.headD_cons]
    rw [mapTextsL_append, mapTextsL, h1, h]
    simp only [h2]
  | cons x w ih =>
    obtain ⟨n, b⟩ := x
    intro k L R h
    have e : evTexts (evL ((n, b) :: w) L) = evTexts (eventsL (L.headD [])) + evTexts (evL w L.tail) := by
      rw [evL, evTexts_append, evTexts_cons _ _ (by simp)]
    have e' : evTexts (evR ((n, b) :: w) R) = evTexts (evR w R.tail) + evTexts (eventsL (R.headD [])) := by
      rw [evR, evTexts_append, evTexts_cons _ _ (by simp)]
    rw [e, ← Nat.add_assoc] at h ⊢
    rw [e', ← Nat.add_assoc]
    have h0 := ih (k + evTexts (eventsL (L.headD []))) L.tail R.tail h
    have h1 := (mapTexts_count f).2 (L.headD []) k
    have h2 := (mapTexts_count f).2 (R.headD [])
    simp only [around, mtL, mtR, List.headD_cons, List.tail_cons]
    rw [mapTextsL_append, mapTextsL, h1, mapTexts, h0]
    simp only [h2]

end

theorem mtL_congr {f g : Nat → Bytes → Bytes} {K : Nat} (h : ∀ i, i < K → f i = g i) (w : Outer) : ∀ k L, k + evTexts (evL w L) ≤ K → mtL f w k L = mtL g w k L := by
  induction w with
  | nil =>
    intro k L hk
    simp only [evL] at hk
    have := (mapTexts_congr 0 K h).2 (L.headD []) k hk
    simp only [mtL]
    rw [Nat.add_zero] at this
    rw [this]
  | cons x w ih =>
    obtain ⟨n, b⟩ := x
    intro k L hk
    rw [evL, evTexts_append, evTexts_cons _ _ (by simp)] at hk
    have := (mapTexts_congr 0 K h).2 (L.headD []) k (by omega)
    rw [Nat.add_zero] at this
    simp only [mtL]
    rw [this, ih _ _ (by omega)]

theorem mtR_congr {f g : Nat → Bytes → Bytes} {d K : Nat} (h : ∀ i, i < K → f (i + d) = g i) (w : Outer) : ∀ k R, k + evTexts (evR w R) ≤ K →
    mtR f w (k + d) R = mtR g w k R := by
  induction w with
  | nil =>
    intro k R hk
    simp only [evR] at hk
    have := (mapTexts_congr d K h).2 (R.headD []) k hk
    simp only [mtR]
    rw [this]
  | cons x w ih =>
    obtain ⟨n, b⟩ := x
    intro k R hk
    rw [evR, evTexts_append, evTexts_cons _ _ (by simp)] at hk
    have := (mapTexts_congr d K h).2 (R.headD []) (k + evTexts (evR w R.tail)) (by omega)
    simp only [mtR]
    rw [show k + d + evTexts (evR w R.tail) = k + evTexts (evR w R.tail) + d by omega, this, ih _ _ (by omega)]

/-- The spaces that are added to a text. -/
def spaces (s : List Nat × List Nat) (i : Nat) (d : Bytes) : Bytes := List.replicate (s.2.count i) SP ++ d ++ List.replicate (s.1.count i) SP

theorem space_tcut' {outer inner : Bytes → Bool} (hsp : sn ≠ b!"span") (ho : outer sn = false) {cs : List Node} (sM : List Nat × List Nat)
    (hmid : ∀ before k Q, addedSpaces outer inner before k (eventsL cs ++ .cl sn :: Q) =
      (sM.1.map (· + k) ++ (addedSpaces outer inner [.cl sn] (k + evTexts (eventsL cs)) Q).1, sM.2.map (· + k) ++ (addedSpaces outer inner [.cl sn] (k + evTexts (eventsL cs)) Q).2))
    (hM : ∀ j, (j ∈ sM.1 ∨ j ∈ sM.2) → j < evTexts (eventsL cs)) :
    TCut w (.elem sn a cs) (.elem sn a (mapTextsL (spaces sM) 0 cs).1) (addSpace outer inner) := by
  let P : List (List Node) → List Ev := fun L => .op b!"#document" :: evL w L
  let Q : List (List Node) → List Ev := fun R => evR w R ++ [.cl b!"#document"]
  let sA : List (List Node) → List Nat × List Nat := fun L => addedSpaces outer inner [] 0 (P L ++ [.op sn])
  let sB : List (List Node) → List Nat × List Nat := fun R => addedSpaces outer inner [.cl sn] 0 (Q R)
  refine ⟨fun L => mtL (spaces (sA L)) w 0 L, fun R => mtR (spaces (sB R)) w 0 R, fun L hL => mtL_empty _ w 0 L hL, fun R hR => mtR_empty _ w 0 R hR, fun L R => ?_⟩
  generalize hKK : evTexts (eventsL cs) = K at hM hmid
  let N := evTexts (evL w L)
  have hE : events (treeAround w L R (.elem sn a cs)) = P L ++ .op sn :: (eventsL cs ++ .cl sn :: Q R) := by
    simp [treeAround, events, eventsL_around, eventsL, P, Q]
  have hK : evTexts (P L) = N := by simp only [P, N]; rw [evTexts_cons _ _ (by simp)]
  have hs : addedSpaces outer inner [] 0 (events (treeAround w L R (.elem sn a cs))) =
      ((sA L).1 ++ (sM.1.map (· + N) ++ (sB R).1.map (· + (N + K))), (sA L).2 ++ (sM.2.map (· + N) ++ (sB R).2.map (· + (N + K)))) := by
    rw [hE, added_split hsp ho, hmid, hK, Nat.zero_add, ← Nat.zero_add (N + K), added_shift (N + K) _ _ 0 (by intro hp; simp [prevIsText, hsp] at hp)]
    simp only [Nat.zero_add, sA, sB]
  have hbound : ∀ j, (j ∈ (sA L).1 ∨ j ∈ (sA L).2) → j < N := by
    intro j hj
    rcases hj with hj | hj
    · obtain ⟨X, n, Y, e1, e2, e3, e4, e5⟩ := (added_before outer inner _ _ _ _).mp hj
      have hp := prevText_pos _ e4
      have hle : evTexts X ≤ N := by
        have := congrArg evTexts e1
        rw [evTexts_append, evTexts_append, hK] at this
        have h0 : evTexts [Ev.op sn] = 0 := rfl
        omega
      rw [List.append_nil, evTexts, List.countP_reverse] at hp
      rw [evTexts] at e5 hle
      omega
    · obtain ⟨X, n, Y, e1, e2, e3, e4, e5⟩ := (added_after outer inner _ _ _ _).mp hj
      rcases List.eq_nil_or_concat Y with rfl | ⟨Y', y, rfl⟩
      · simp [nextIsText] at e4
      · rw [List.concat_eq_append] at e1 e4
        have hy : y = .op sn := by
          have := congrArg List.getLast? e1
          have e7 : X ++ Ev.cl n :: (Y' ++ [y]) = (X ++ Ev.cl n :: Y') ++ [y] := by simp
          rw [e7] at this
          simp only [List.getLast?_append, List.getLast?_singleton, Option.some_or, Option.some.injEq] at this
          exact this.symm
        subst hy
        have hp := nextText_pos hsp _ e4
        have := congrArg evTexts e1
        rw [evTexts_append, hK, evTexts_append, ← List.singleton_append (x := Ev.cl n), evTexts_append, evTexts_append] at this
        omega
  generalize hall : addedSpaces outer inner [] 0 (events (treeAround w L R (.elem sn a cs))) = all at hs
  have zA : ∀ i, N ≤ i → (sA L).1.count i = 0 ∧ (sA L).2.count i = 0 := fun i hi =>
    ⟨List.count_eq_zero.mpr fun hm => by have := hbound _ (.inl hm); omega, List.count_eq_zero.mpr fun hm => by have := hbound _ (.inr hm); omega⟩
  have zM : ∀ i, K ≤ i → sM.1.count i = 0 ∧ sM.2.count i = 0 := fun i hi =>
    ⟨List.count_eq_zero.mpr fun hm => by have := hM _ (.inl hm); omega, List.count_eq_zero.mpr fun hm => by have := hM _ (.inr hm); omega⟩
  have h3 : mapTexts (spaces all) (0 + N) (.elem sn a cs) = (.elem sn a (mapTextsL (spaces sM) 0 cs).1, 0 + N + K) := by
    have hc := (mapTexts_count (spaces all)).2 cs (0 + N)
    have he := (mapTexts_congr (f := spaces all) (g := spaces sM) N K (by
      intro i hi
      funext d
      simp only [spaces, hs, List.count_append, (zA (i + N) (by omega)).1, (zA (i + N) (by omega)).2, count_shift, Nat.zero_add,
        count_shift_zero _ _ _ (show i + N < N + K by omega), Nat.add_zero])).2 cs 0 (by omega)
    rw [mapTexts]
    simp only [hc, hKK, he]
  have hm := mapTexts_around (spaces all) w 0 L R h3
  show (mapTexts (spaces (addedSpaces outer inner [] 0 (events (treeAround w L R (.elem sn a cs))))) 0 _).1 = _
  rw [hall, treeAround, mapTexts, hm]
  have hc := mtL_congr (f := spaces all) (g := spaces (sA L)) (K := N) (by
      intro i hi
      funext d
      simp only [spaces, hs, Nat.add_zero, List.count_append, count_shift_zero _ _ _ (show i < N + K by omega), count_shift_zero _ _ _ (show i < N by omega)]) w 0 L (by omega)
  have hc' := mtR_congr (f := spaces all) (g := spaces (sB R)) (d := N + K) (K := evTexts (evR w R)) (by
      intro i hi
      funext d
      have z3 : i + (N + K) = (i + K) + N := by omega
      have z1 := (zM (i + K) (by omega)).1
      have z2 := (zM (i + K) (by omega)).2
      simp only [spaces, hs, List.count_append, (zA (i + (N + K)) (by omega)).1, (zA (i + (N + K)) (by omega)).2, count_shift]
      rw [z3, count_shift, count_shift, z1, z2]
      simp only [Nat.zero_add]) w 0 R (by omega)
  rw [Nat.zero_add] at hc'
  simp only [hc]
  rw [Nat.zero_add, hc']
  rfl

theorem added_cl {outer inner : Bytes → Bool} (hsp : sn ≠ b!"span") (ho : outer sn = false) (before : List Ev) (k : Nat) (Q : List Ev) :
    addedSpaces outer inner before k (.cl sn :: Q) = addedSpaces outer inner [.cl sn] k Q := by
  have hf := added_forget hsp (outer := outer) (inner := inner) before Q [] k
  simp only [List.nil_append] at hf
  rw [added_cons]
  simp only [ho, Bool.false_and, Bool.false_eq_true, if_false]
  rw [if_neg (by simp), hf]

theorem space_tcut {outer inner : Bytes → Bool} (hsp : sn ≠ b!"span") (ho : outer sn = false) : TCut w (sep sn a t) (sep sn a t) (addSpace outer inner) := by
  have h := space_tcut' (w := w) (a := a) (cs := t.toList.map .text) (outer := outer) (inner := inner) hsp ho ([], []) (by
    intro before k Q
    cases t with
    | none => simp only [Option.toList_none, List.map_nil, eventsL, List.nil_append]; exact added_cl hsp ho _ _ _
    | some d =>
      simp only [Option.toList_some, List.map_cons, List.map_nil, eventsL, events, List.append_nil, List.cons_append, List.nil_append]
      rw [added_cons]
      simp only [if_true]
      exact added_cl hsp ho _ _ _) (by simp)
  have e : (mapTextsL (spaces ([], [])) 0 (t.toList.map .text)).1 = t.toList.map .text := by
    cases t <;> simp [mapTextsL, mapTexts, spaces]
  rw [e] at h
  exact h

/-! ## All steps -/

variable {E : Render.Env}

theorem strike_tcut (hw : Good w) (hn : SepName sn) : TCut w (sep sn a t) (sep sn a t) (Render.strikePreRender E) := by
  unfold Render.strikePreRender
  by_cases hs : E.strike.isSome = true
  · simp only [hs, if_true]
    refine TCut.comp (g := mergeAdjacent Render.isStrike) (f := removeRedundant Render.bothStrike)
      (adjacent_tcut (fun x hx => ⟨(hw x hx).span, (hw x hx).strike⟩) (by decide) (by decide) hn.span hn.strike) (redundant_tcut (fun x hx => ?_) ?_)
    · rw [Render.bothStrike, (hw x hx).strike]; rfl
    · rw [Render.bothStrike, hn.strike]; rfl
  · simp only [hs]
    exact TCut.id

theorem handle_tcut (T : NameTables) (hw : Good w) (hn : SepName sn) : TCut w (sep sn a t) (sep sn a t) (handlePreRender T) := by
  have bb' : ∀ n, isBoldOrItalic n = false → bothBoldOrItalic n n = false := by
    intro n h
    simp only [isBoldOrItalic, Bool.or_eq_false_iff] at h
    simp [bothBoldOrItalic, h.1, h.2]
  have bb : ∀ x ∈ w, bothBoldOrItalic x.1 x.1 = false := fun x hx => bb' _ (hw x hx).bold
  have bl : ∀ x ∈ w, bothLink x.1 x.1 = false := by
    intro x hx; simp [bothLink, (hw x hx).link]
  exact (((((((((((move_tcut hw hn).comp (leaf_tcut hw)).comp (swap_tcut (fun x hx => (hw x hx).link) hn.link)).comp
    (swap_tcut (fun x hx => (hw x hx).bold) hn.bold)).comp (redundant_tcut bl (by simp [bothLink, hn.link]))).comp (space_tcut hn.span hn.bold)).comp
    (adjacent_tcut (fun x hx => ⟨(hw x hx).span, (hw x hx).code⟩) (by decide) (by decide) hn.span hn.code)).comp
    (swap_tcut (fun x hx => (hw x hx).code) hn.code)).comp
    (emptyCode_tcut hw hn)).comp (adjacent_tcut (fun x hx => ⟨(hw x hx).span, (hw x hx).bold⟩) (by decide) (by decide) hn.span hn.bold)).comp
    (redundant_tcut bb (bb' _ hn.bold))).comp (rename_tcut T hw hn)

/-- **The tree before the rendering** of a document with a rule or a title: the parts before and behind it do not influence each other. -/
theorem preRender_tree (hw : Good w) (hn : SepName sn) (hr : E.tables.isBlock sn = true) (hk : sn = b!"hr" ∨ t.isSome = true) (ht : ∀ d ∈ t, shown d ≠ []) :
    TCut w (sep sn a t) (sep sn a (t.map shown)) (Render.preRender E) := by
  have hrem := remove_tcut (a := a) (t := t) hw hn
  have hhan := handle_tcut (a := a) (t := t) E.tables hw hn
  have hstr := strike_tcut (a := a) (t := t) (E := E) hw hn
  have hcol : TCut w (sep sn a t) (sep sn a (t.map shown)) (Collapse.collapse (Collapse.baseFuncs (Render.isBlock E))) := by
    refine collapse_tcut ?_ rfl ?_ ?_ ht
    · intro x hx
      have h := hw x hx
      simp [Collapse.baseFuncs, h.pre, h.code']
    · show (!Render.isRemoved sn && E.tables.isBlock sn) = true
      rw [hr, hn.kept]; rfl
    · simp [Collapse.baseFuncs, hn.pre, hn.code']
  unfold Render.preRender
  by_cases hd : E.cfg.disableListEndComment = true
  · simp only [hd, if_true]
    exact ((hcol.comp hstr).comp hhan).comp hrem
  · simp only [hd]
    exact (((( listEnd_tcut hw hn (by simpa using hk)).comp hcol).comp hstr).comp hhan).comp hrem

end Verif.Cut
