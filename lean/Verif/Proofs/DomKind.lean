import Verif.Proofs.DomInside
import Verif.Proofs.DomListEnd
import Verif.Proofs.CollapseTree
/-!
# What holds of every node, through all steps of the normalisation
-/
set_option linter.unusedSimpArgs false

namespace Verif.Dom
open Verif Verif.DomUtils Verif.Spec Verif.Collapse

/-- Conditions on the names, attributes and texts of a tree, and the names of elements that have no content. -/
structure Kinds where
  N : Bytes → Prop
  A : List (Bytes × Bytes) → Prop
  R : Bytes → Prop
  V : Bytes → Prop

mutual
/-- The conditions hold everywhere, and there is no document node (except for the root, if `top`). -/
def ok (K : Kinds) (top : Bool) : Node → Prop
  | .elem n a cs => K.N n ∧ K.A a ∧ (K.V n → cs = []) ∧ okL K cs
  | .document cs => top = true ∧ okL K cs
  | .text d => K.R d
  | .comment _ => True
  | .doctype _ => True
def okL (K : Kinds) : List Node → Prop
  | [] => True
  | n :: ns => ok K false n ∧ okL K ns
end

variable {K : Kinds}

theorem okL_append {a b : List Node} : okL K (a ++ b) ↔ okL K a ∧ okL K b := by
  induction a with
  | nil => simp [okL]
  | cons x a ih => simp [okL, ih, and_assoc]

theorem okL_mem {l : List Node} : okL K l ↔ ∀ x ∈ l, ok K false x := by
  induction l with
  | nil => simp [okL]
  | cons x a ih => simp [okL, ih]

theorem ok_top {t : Bool} {n : Node} (h : ok K false n) : ok K t n := by
  cases n with
  | document cs => exact absurd h.1 (by simp)
  | _ => exact h

theorem ok_children {t : Bool} {n : Node} (h : ok K t n) : okL K n.children := by
  cases n with
  | elem n a cs => exact h.2.2.2
  | document cs => exact h.2
  | _ => trivial

theorem ok_rename (T : NameTables) (hN : K.N b!"div") (hV : ¬ K.V b!"div") :
    (∀ n, ∀ t, ok K t n → ok K t (renameFakeSpans T n)) ∧ (∀ ns, okL K ns → okL K (renameFakeSpansL T ns) ∧ (ns = [] → renameFakeSpansL T ns = [])) := by
  apply induct
  · intro d t h; exact h
  · intro d t h; exact h
  · intro d t h; exact h
  · intro cs ih t h; exact ⟨h.1, (ih h.2).1⟩
  · intro n a cs ih t h
    rw [renameFakeSpans]
    have := ih h.2.2.2
    split
    · exact ⟨hN, h.2.1, fun hv => absurd hv hV, this.1⟩
    · exact ⟨h.1, h.2.1, fun hv => this.2 (h.2.2.1 hv), this.1⟩
  · intro _; exact ⟨trivial, fun _ => rfl⟩
  · intro n ns ih1 ih2 h
    exact ⟨⟨ih1 false h.1, (ih2 h.2).1⟩, by simp⟩

theorem ok_redundantIn (same : Bytes → Bytes → Bool) :
    (∀ n, ok K false n → ∀ anc, okL K (removeRedundantIn same anc n)) ∧
    (∀ ns, okL K ns → ∀ anc, okL K (removeRedundantL same anc ns) ∧ (ns = [] → removeRedundantL same anc ns = [])) := by
  apply induct
  · intro d h anc; exact ⟨h, trivial⟩
  · intro d h anc; exact ⟨h, trivial⟩
  · intro d h anc; exact ⟨h, trivial⟩
  · intro cs ih h anc; exact absurd h.1 (by simp)
  · intro n a cs ih h anc
    rw [removeRedundantIn]
    split
    · exact (ih h.2.2.2 _).1
    · exact ⟨⟨h.1, h.2.1, fun hv => (ih h.2.2.2 _).2 (h.2.2.1 hv), (ih h.2.2.2 _).1⟩, trivial⟩
  · intro _ anc; exact ⟨trivial, fun _ => rfl⟩
  · intro n ns ih1 ih2 h anc
    rw [removeRedundantL, okL_append]
    exact ⟨⟨ih1 h.1 anc, (ih2 h.2 anc).1⟩, by simp⟩

theorem ok_redundant (same : Bytes → Bytes → Bool) (n : Node) (t : Bool) (h : ok K t n) : ok K t (removeRedundant same n) := by
  cases n with
  | elem n a cs =>
    have := (ok_redundantIn (K := K) same).2 cs h.2.2.2 [n]
    exact ⟨h.1, h.2.1, fun hv => this.2 (h.2.2.1 hv), this.1⟩
  | document cs => exact ⟨h.1, ((ok_redundantIn (K := K) same).2 cs h.2 _).1⟩
  | _ => exact h

theorem ok_collect (m : Bytes → Bool) (hs : ¬ K.V b!"span") :
    (∀ n, ok K false n → okL K (collectNode m n).moved ∧ okL K (collectNode m n).left) ∧
    (∀ ns, okL K ns → okL K (collectL m ns).moved ∧ okL K (collectL m ns).left) := by
  apply induct
  · intro d h; exact ⟨trivial, h, trivial⟩
  · intro d h; exact ⟨trivial, h, trivial⟩
  · intro d h; exact ⟨trivial, h, trivial⟩
  · intro cs ih h; exact ⟨trivial, h, trivial⟩
  · intro n a cs ih h
    rw [collectNode]
    split
    · rename_i hn
      subst hn
      exact ⟨(ih h.2.2.2).1, ⟨h.1, h.2.1, fun hv => absurd hv hs, (ih h.2.2.2).2⟩, trivial⟩
    · split
      · exact ⟨h.2.2.2, trivial⟩
      · exact ⟨trivial, h, trivial⟩
  · intro _; exact ⟨trivial, trivial⟩
  · intro n ns ih1 ih2 h
    rw [collectL]
    simp only
    split
    · exact ⟨okL_append.2 ⟨(ih1 h.1).1, (ih2 h.2).1⟩, okL_append.2 ⟨(ih1 h.1).2, (ih2 h.2).2⟩⟩
    · exact ⟨(ih1 h.1).1, okL_append.2 ⟨(ih1 h.1).2, h.2⟩⟩

/-- The conditions hold in what is still to be visited. -/
def okF (K : Kinds) : List (List Node) → Prop
  | [] => True
  | f :: fs => okL K f ∧ okF K fs

theorem ok_collectFrames (m : Bytes → Bool) (hs : ¬ K.V b!"span") : ∀ fs, okF K fs → okL K (collectFrames m fs).1 ∧ okF K (collectFrames m fs).2
  | [], _ => ⟨trivial, trivial⟩
  | f :: fs, h => by
    have h1 := (ok_collect m hs).2 f h.1
    have h2 := ok_collectFrames m hs fs h.2
    rw [collectFrames]
    simp only
    split
    · exact ⟨okL_append.2 ⟨h1.1, h2.1⟩, h1.2, h2.2⟩
    · exact ⟨h1.1, h1.2, h.2⟩

theorem ok_mergeF (m : Bytes → Bool) (hs : ¬ K.V b!"span") (hm : ∀ n, m n = true → ¬ K.V n) (fs : List (List Node)) :
    okF K fs → okF K (mergeAdjacentF m fs) := by
  fun_induction mergeAdjacentF m fs with
  | case1 => intro _; trivial
  | case2 fs ih => intro h; exact ⟨trivial, ih h.2⟩
  | case3 n cs fs ks cs' fs' heq ih =>
    intro h
    have h1 := h.1.1
    have hstep : okF K (mergeStep m n cs fs) := by
      rw [mergeStep]
      split
      · have hc := ok_collectFrames m hs (cs :: fs) ⟨h.1.2, h.2⟩
        exact ⟨okL_append.2 ⟨ok_children h1, hc.1⟩, hc.2⟩
      · exact ⟨ok_children h1, h.1.2, h.2⟩
    have ih2 := ih hstep
    rw [heq] at ih2
    refine ⟨⟨?_, ih2.2.1⟩, ih2.2.2⟩
    cases n with
    | elem n a k =>
      refine ⟨h1.1, h1.2.1, ?_, ih2.1⟩
      intro hv
      have hmn : m n = false := by
        cases hmn : m n with
        | false => rfl
        | true => exact absurd hv (hm n hmn)
      have hk := h1.2.2.1 hv
      subst hk
      rw [mergeStep] at heq
      simp only [Node.name, hmn, Bool.false_and, Bool.false_eq_true, if_false, Node.children] at heq
      rw [mergeAdjacentF] at heq
      simp only [List.cons.injEq] at heq
      exact heq.1.symm
    | document k => exact absurd h1.1 (by simp)
    | text d => exact h1
    | comment d => trivial
    | doctype d => trivial
  | case4 n cs fs h ih => intro _; trivial

theorem ok_merge (m : Bytes → Bool) (hs : ¬ K.V b!"span") (hm : ∀ n, m n = true → ¬ K.V n) (n : Node) (t : Bool) (h : ok K t n) : ok K t (mergeAdjacent m n) := by
  obtain ⟨ks, hk⟩ := mergeAdjacentF_single m n
  rw [mergeAdjacent, hk]
  rw [mergeAdjacentF] at hk
  have hst : mergeStep m n [] [] = [n.children, []] := by simp [mergeStep]
  rw [hst] at hk
  have hok := ok_mergeF m hs hm [n.children, []] ⟨ok_children h, trivial, trivial⟩
  simp only [List.headD_cons]
  cases n with
  | elem n a cs =>
    rcases hr : mergeAdjacentF m [(Node.elem n a cs).children, []] with _ | ⟨x, _ | ⟨y, l⟩⟩
    · rw [hr] at hk; simp at hk
    · rw [hr] at hk; simp at hk
    · rw [hr] at hk hok
      simp only [withChildren, List.cons.injEq, Node.elem.injEq, true_and] at hk
      rw [withChildren, ← hk.1.1]
      refine ⟨h.1, h.2.1, ?_, hok.1⟩
      intro hv
      rw [Node.children, h.2.2.1 hv, mergeAdjacentF] at hr
      simp only [List.cons.injEq] at hr
      exact hr.1.symm
  | document cs =>
    rcases hr : mergeAdjacentF m [(Node.document cs).children, []] with _ | ⟨x, _ | ⟨y, l⟩⟩
    · rw [hr] at hk; simp at hk
    · rw [hr] at hk; simp at hk
    · rw [hr] at hk hok
      simp only [withChildren, List.cons.injEq, Node.document.injEq] at hk
      rw [withChildren, ← hk.1.1]
      exact ⟨h.1, hok.1⟩
  | text d => exact h
  | comment d => trivial
  | doctype d => trivial

theorem ok_emptyCode : (∀ n, ∀ t, ok K t n → ok K t (removeEmptyCode n)) ∧
    (∀ ns, okL K ns → okL K (removeEmptyCodeL ns) ∧ (ns = [] → removeEmptyCodeL ns = [])) := by
  apply induct
  · intro d t h; exact h
  · intro d t h; exact h
  · intro d t h; exact h
  · intro cs ih t h; exact ⟨h.1, (ih h.2).1⟩
  · intro n a cs ih t h
    exact ⟨h.1, h.2.1, fun hv => (ih h.2.2.2).2 (h.2.2.1 hv), (ih h.2.2.2).1⟩
  · intro _; exact ⟨trivial, fun _ => rfl⟩
  · intro n ns ih1 ih2 h
    refine ⟨?_, by simp⟩
    rw [removeEmptyCodeL]
    split
    · exact (ih2 h.2).1
    · exact ⟨ih1 false h.1, (ih2 h.2).1⟩

theorem ok_swap (outer inner : Bytes → Bool) (ho : ∀ n, outer n = true → ¬ K.V n) (hi : ∀ n, inner n = true → ¬ K.V n) :
    (∀ n, ∀ t, ok K t n → ok K t (swapTags outer inner n)) ∧
    (∀ ns, okL K ns → okL K (swapTagsL outer inner ns) ∧ (ns = [] → swapTagsL outer inner ns = [])) := by
  apply induct
  · intro d t h; exact h
  · intro d t h; exact h
  · intro d t h; exact h
  · intro cs ih t h; exact ⟨h.1, (ih h.2).1⟩
  · intro n a cs ih t h
    have plain : ok K t (.elem n a (swapTagsL outer inner cs)) :=
      ⟨h.1, h.2.1, fun hv => (ih h.2.2.2).2 (h.2.2.1 hv), (ih h.2.2.2).1⟩
    rw [swapTags]
    split
    · rename_i n' a' ks hf
      split
      · rename_i hoi
        rw [Bool.and_eq_true] at hoi
        have hmem : Node.elem n' a' ks ∈ cs := by
          have : Node.elem n' a' ks ∈ cs.filter fun c => !isEmptyText c := by rw [hf]; simp
          exact (List.mem_filter.1 this).1
        have hin := okL_mem.1 h.2.2.2 _ hmem
        refine ⟨hin.1, hin.2.1, fun hv => absurd hv (hi _ hoi.2), okL_mem.2 ?_⟩
        intro x hx
        rw [List.mem_map] at hx
        obtain ⟨c, hc, rfl⟩ := hx
        split
        · exact okL_mem.1 h.2.2.2 c hc
        · exact ⟨h.1, h.2.1, fun hv => absurd hv (ho _ hoi.1), hin.2.2.2⟩
      · exact plain
    · exact plain
  · intro _; exact ⟨trivial, fun _ => rfl⟩
  · intro n ns ih1 ih2 h
    exact ⟨⟨ih1 false h.1, (ih2 h.2).1⟩, by simp⟩

theorem ok_mapTexts (f : Nat → Bytes → Bytes) (hf : ∀ k d, K.R d → K.R (f k d)) : (∀ n, ∀ t, ok K t n → ∀ k, ok K t (mapTexts f k n).1) ∧
    (∀ ns, okL K ns → ∀ k, okL K (mapTextsL f k ns).1 ∧ (ns = [] → (mapTextsL f k ns).1 = [])) := by
  apply induct
  · intro d t h k; exact hf k d h
  · intro d t h k; trivial
  · intro d t h k; trivial
  · intro cs ih t h k; exact ⟨h.1, (ih h.2 k).1⟩
  · intro n a cs ih t h k
    exact ⟨h.1, h.2.1, fun hv => (ih h.2.2.2 k).2 (h.2.2.1 hv), (ih h.2.2.2 k).1⟩
  · intro _ k; exact ⟨trivial, fun _ => rfl⟩
  · intro n ns ih1 ih2 h k
    exact ⟨⟨ih1 false h.1 k, (ih2 h.2 _).1⟩, by simp⟩

/-- The conditions on what `LeafBlockAlternatives` puts into the tree. -/
structure LeafOK (K : Kinds) : Prop where
  strong : K.N b!"strong" ∧ ¬ K.V b!"strong"
  span : K.N b!"span" ∧ ¬ K.V b!"span"
  code : K.N b!"code" ∧ ¬ K.V b!"code"
  br : K.N b!"br"
  none : K.A []
  quote1 : K.R b!" \""
  quote2 : K.R b!"\" "

theorem ok_leaf (hK : LeafOK K) : (∀ n, ok K false n → ∀ l i, okL K (leafAlternativesIn l i n)) ∧
    (∀ ns, okL K ns → ∀ l i, okL K (leafAlternativesL l i ns) ∧ (ns = [] → leafAlternativesL l i ns = [])) := by
  apply induct
  · intro d h l i; exact ⟨h, trivial⟩
  · intro d h l i; exact ⟨h, trivial⟩
  · intro d h l i; exact ⟨h, trivial⟩
  · intro cs ih h l i; exact absurd h.1 (by simp)
  · intro n a cs ih h l i
    rw [leafAlternativesIn]
    have hk := ih h.2.2.2 (l || decide (getStructure n = .leaf)) (i || decide (getStructure n = .inline))
    split
    · rw [alternative]
      split
      · exact ⟨⟨hK.strong.1, h.2.1, fun hv => absurd hv hK.strong.2, hk.1⟩, ⟨hK.br, hK.none, fun _ => rfl, trivial⟩, trivial⟩
      split
      · exact ⟨hK.quote1, ⟨hK.span.1, h.2.1, fun hv => absurd hv hK.span.2, hk.1⟩, hK.quote2, trivial⟩
      split
      · exact ⟨⟨hK.code.1, h.2.1, fun hv => absurd hv hK.code.2, hk.1⟩, trivial⟩
      split
      · trivial
      · exact ⟨⟨hK.span.1, h.2.1, fun hv => absurd hv hK.span.2, hk.1⟩, trivial⟩
    · exact ⟨⟨h.1, h.2.1, fun hv => hk.2 (h.2.2.1 hv), hk.1⟩, trivial⟩
  · intro _ l i; exact ⟨trivial, fun _ => rfl⟩
  · intro n ns ih1 ih2 h l i
    rw [leafAlternativesL, okL_append]
    exact ⟨⟨ih1 h.1 l i, (ih2 h.2 l i).1⟩, by simp⟩

theorem ok_leafAlternatives (hK : LeafOK K) (n : Node) (t : Bool) (h : ok K t n) : ok K t (leafAlternatives n) := by
  cases n with
  | document cs => exact ⟨h.1, ((ok_leaf hK).2 cs h.2 false false).1⟩
  | text d => exact h
  | comment d => trivial
  | doctype d => trivial
  | elem n a cs =>
    have := (ok_leaf hK).1 (.elem n a cs) h false false
    rw [leafAlternatives_eq] at this
    exact ok_top this.1

theorem ok_moveItemsGo (hN : K.N b!"li") (hV : ¬ K.V b!"li") (hA : K.A []) :
    ∀ (cs : List Node) (cur : Option (List (Bytes × Bytes) × List Node × List Node)),
      (∀ a ks bl, cur = some (a, ks, bl) → K.A a ∧ okL K ks ∧ okL K bl) → okL K cs → okL K (moveItemsGo cur cs)
  | [], none, _, _ => by simp [moveItemsGo, okL]
  | [], some (a, ks, bl), h, _ => by
    have := h a ks bl rfl
    rw [moveItemsGo]
    exact ⟨⟨hN, this.1, fun hv => absurd hv hV, this.2.1⟩, this.2.2⟩
  | c :: cs, cur, h, hcs => by
    have hcur : okL K (match (generalizing := false) cur with | none => [] | some (a, ks, blanks) => .elem b!"li" a ks :: blanks) := by
      rcases cur with _ | ⟨a, ks, bl⟩
      · trivial
      · have := h a ks bl rfl
        exact ⟨⟨hN, this.1, fun hv => absurd hv hV, this.2.1⟩, this.2.2⟩
    rw [moveItemsGo_cons]
    split
    · rw [okL_append]
      refine ⟨hcur, ok_moveItemsGo hN hV hA cs _ ?_ hcs.2⟩
      intro a ks bl he
      rename_i hli
      cases c with
      | elem n a' ks' =>
        simp only [Option.some.injEq, Prod.mk.injEq] at he
        obtain ⟨rfl, rfl, rfl⟩ := he
        exact ⟨hcs.1.2.1, hcs.1.2.2.2, trivial⟩
      | _ => simp [isLi] at hli
    split
    · split
      · exact ⟨hcs.1, ok_moveItemsGo hN hV hA cs none (by simp) hcs.2⟩
      · rename_i a ks bl
        have := h a ks bl rfl
        refine ok_moveItemsGo hN hV hA cs _ ?_ hcs.2
        intro a' ks' bl' he
        simp only [Option.some.injEq, Prod.mk.injEq] at he
        obtain ⟨rfl, rfl, rfl⟩ := he
        exact ⟨this.1, this.2.1, okL_append.2 ⟨this.2.2, hcs.1, trivial⟩⟩
    · split
      · refine ok_moveItemsGo hN hV hA cs _ ?_ hcs.2
        intro a' ks' bl' he
        simp only [Option.some.injEq, Prod.mk.injEq] at he
        obtain ⟨rfl, rfl, rfl⟩ := he
        exact ⟨hA, ⟨hcs.1, trivial⟩, trivial⟩
      · rename_i a ks bl
        have := h a ks bl rfl
        refine ok_moveItemsGo hN hV hA cs _ ?_ hcs.2
        intro a' ks' bl' he
        simp only [Option.some.injEq, Prod.mk.injEq] at he
        obtain ⟨rfl, rfl, rfl⟩ := he
        exact ⟨this.1, okL_append.2 ⟨this.2.1, hcs.1, trivial⟩, this.2.2⟩

theorem ok_moveListItems (hN : K.N b!"li") (hV : ¬ K.V b!"li") (hA : K.A []) (hul : ¬ K.V b!"ul") (hol : ¬ K.V b!"ol") :
    (∀ n, ∀ t, ok K t n → ok K t (moveListItems n)) ∧
    (∀ ns, okL K ns → okL K (moveListItemsL ns) ∧ (ns = [] → moveListItemsL ns = [])) := by
  apply induct
  · intro d t h; exact h
  · intro d t h; exact h
  · intro d t h; exact h
  · intro cs ih t h; exact ⟨h.1, (ih h.2).1⟩
  · intro n a cs ih t h
    rw [moveListItems]
    refine ⟨h.1, h.2.1, ?_, ?_⟩
    · intro hv
      split
      · rename_i hn
        rcases hn with rfl | rfl
        · exact absurd hv hol
        · exact absurd hv hul
      · exact (ih h.2.2.2).2 (h.2.2.1 hv)
    · split
      · exact ok_moveItemsGo hN hV hA _ none (by simp) (ih h.2.2.2).1
      · exact (ih h.2.2.2).1
  · intro _; exact ⟨trivial, fun _ => rfl⟩
  · intro n ns ih1 ih2 h
    exact ⟨⟨ih1 false h.1, (ih2 h.2).1⟩, by simp⟩

/-! ## Collapsing -/

/-- The conditions on texts survive the changes of `Collapse`. -/
structure TextOK (R : Bytes → Prop) : Prop where
  ws : ∀ d, R d → R (replaceWs d)
  tail : ∀ d, R d → d.head? = some SP → R d.tail
  suffix : ∀ d, R d → R (trimSuffix d)

theorem ok_first (f : DomFuncs) (hR : TextOK K.R) :
    (∀ n, ok K false n → ∀ s, okL K (first f s n).1) ∧ (∀ ns, okL K ns → ∀ s, okL K (firstL f s ns).1 ∧ (ns = [] → (firstL f s ns).1 = [])) := by
  apply induct
  · intro d h s
    rw [first, firstText]
    have h1 := hR.ws d h
    have key : ∀ (t : Bytes) (v : Vars), K.R t → okL K (if t = [] then ([], s) else ([Node.text t], v)).1 := by
      intro t v ht
      split
      · trivial
      · exact ⟨ht, trivial⟩
    apply key
    split
    · rename_i hc
      exact hR.tail _ h1 hc.2.2
    · exact h1
  · intro d h s; exact ⟨trivial, trivial⟩
  · intro d h s; trivial
  · intro cs ih h s; trivial
  · intro n a cs ih h s
    rw [first]
    split
    · exact ⟨h, trivial⟩
    · have := ih h.2.2.2 (visit f s n)
      exact ⟨⟨h.1, h.2.1, fun hv => this.2 (h.2.2.1 hv), this.1⟩, trivial⟩
  · intro _ s; exact ⟨trivial, fun _ => rfl⟩
  · intro n ns ih1 ih2 h s
    rw [firstL]
    simp only [okL_append]
    exact ⟨⟨ih1 h.1 s, (ih2 h.2 _).1⟩, by simp⟩

theorem ok_second (f : DomFuncs) (hR : TextOK K.R) :
    (∀ n, ok K false n → ∀ x, okL K (second f x n).1) ∧ (∀ ns, okL K ns → ∀ x, okL K (secondL f x ns).1 ∧ (ns = [] → (secondL f x ns).1 = [])) := by
  apply induct
  · intro d h x
    cases x with
    | other => exact ⟨h, trivial⟩
    | block => exact ⟨hR.suffix d h, trivial⟩
    | stop =>
      rw [second]
      split
      · trivial
      · exact ⟨hR.suffix d h, trivial⟩
  · intro d h x; exact ⟨trivial, trivial⟩
  · intro d h x; exact ⟨trivial, trivial⟩
  · intro cs ih h x; exact absurd h.1 (by simp)
  · intro n a cs ih h x
    rw [second]
    split
    · exact ⟨h, trivial⟩
    · have := ih h.2.2.2 (before f x n)
      exact ⟨⟨h.1, h.2.1, fun hv => this.2 (h.2.2.1 hv), this.1⟩, trivial⟩
  · intro _ x; exact ⟨trivial, fun _ => rfl⟩
  · intro n ns ih1 ih2 h x
    rw [secondL]
    simp only [okL_append]
    exact ⟨⟨ih1 h.1 _, (ih2 h.2 _).1⟩, by simp⟩

theorem ok_collapse (f : DomFuncs) (hR : TextOK K.R) (n : Node) (t : Bool) (h : ok K t n) : ok K t (collapse f n) := by
  have hc : ∀ cs, okL K cs → okL K (Collapse.children f cs) ∧ (cs = [] → Collapse.children f cs = []) := by
    intro cs h
    have h1 := (ok_first (K := K) f hR).2 cs h ⟨none, false⟩
    have h2 := (ok_second (K := K) f hR).2 _ h1.1 .stop
    exact ⟨h2.1, fun he => h2.2 (h1.2 he)⟩
  cases n with
  | document cs =>
    rw [collapse]
    split
    · exact h
    · exact ⟨h.1, (hc cs h.2).1⟩
  | elem n a cs =>
    rw [collapse]
    split
    · exact h
    · exact ⟨h.1, h.2.1, fun hv => (hc cs h.2.2.2).2 (h.2.2.1 hv), (hc cs h.2.2.2).1⟩
  | _ => exact h

theorem ok_listEnd : (∀ n, ∀ t, ok K t n → ∀ e, ok K t (addListEndIn e n)) ∧
    (∀ ns, okL K ns → ∀ e, okL K (addListEndL e ns) ∧ (ns = [] → addListEndL e ns = [])) := by
  apply induct
  · intro d t h e; exact h
  · intro d t h e; exact h
  · intro d t h e; exact h
  · intro cs ih t h e; exact ⟨h.1, (ih h.2 _).1⟩
  · intro n a cs ih t h e
    exact ⟨h.1, h.2.1, fun hv => (ih h.2.2.2 _).2 (h.2.2.1 hv), (ih h.2.2.2 _).1⟩
  · intro _ e; exact ⟨trivial, fun _ => rfl⟩
  · intro n ns ih1 ih2 h e
    refine ⟨?_, by simp⟩
    rw [addListEndL]
    split
    · exact ⟨ih1 false h.1 _, trivial, (ih2 h.2 _).1⟩
    · exact ⟨ih1 false h.1 _, (ih2 h.2 _).1⟩

/-! ## What is not inside of what -/

variable {bad closed : Bytes → Bool}

theorem first_outside (f : DomFuncs) :
    (∀ n, ∀ o, Outside bad closed o n → ∀ s, OutsideL bad closed o (first f s n).1) ∧
    (∀ ns, ∀ o, OutsideL bad closed o ns → ∀ s, OutsideL bad closed o (firstL f s ns).1) := by
  apply induct
  · intro d o h s
    rw [first, firstText]
    have key : ∀ (t : Bytes) (v : Vars), OutsideL bad closed o (if t = [] then ([], s) else ([Node.text t], v)).1 := by
      intro t v
      split
      · trivial
      · exact ⟨trivial, trivial⟩
    apply key
  · intro d o h s; exact ⟨trivial, trivial⟩
  · intro d o h s; trivial
  · intro cs ih o h s; trivial
  · intro n a cs ih o h s
    rw [first]
    split
    · exact ⟨h, trivial⟩
    · exact ⟨⟨h.1, ih _ h.2 _⟩, trivial⟩
  · intro o _ s; trivial
  · intro n ns ih1 ih2 o h s
    rw [firstL]
    exact (outsideL_append _ _ _).2 ⟨ih1 o h.1 s, ih2 o h.2 _⟩

theorem second_outside (f : DomFuncs) :
    (∀ n, ∀ o, Outside bad closed o n → ∀ x, OutsideL bad closed o (second f x n).1) ∧
    (∀ ns, ∀ o, OutsideL bad closed o ns → ∀ x, OutsideL bad closed o (secondL f x ns).1) := by
  apply induct
  · intro d o h x
    cases x with
    | other => exact ⟨trivial, trivial⟩
    | block => exact ⟨trivial, trivial⟩
    | stop => rw [second]; split <;> simp [OutsideL, Outside]
  · intro d o h s; exact ⟨trivial, trivial⟩
  · intro d o h s; exact ⟨trivial, trivial⟩
  · intro cs ih o h x; exact ⟨h, trivial⟩
  · intro n a cs ih o h x
    rw [second]
    split
    · exact ⟨h, trivial⟩
    · exact ⟨⟨h.1, ih _ h.2 _⟩, trivial⟩
  · intro o _ x; trivial
  · intro n ns ih1 ih2 o h x
    rw [secondL]
    exact (outsideL_append _ _ _).2 ⟨ih1 o h.1 _, ih2 o h.2 _⟩

theorem collapse_outside (f : DomFuncs) (n : Node) (o : Bool) (h : Outside bad closed o n) : Outside bad closed o (collapse f n) := by
  cases n with
  | document cs =>
    rw [collapse]
    split
    · exact h
    · exact (second_outside f).2 _ _ ((first_outside f).2 _ _ h _) _
  | elem n a cs =>
    rw [collapse]
    split
    · exact h
    · exact ⟨h.1, (second_outside f).2 _ _ ((first_outside f).2 _ _ h.2 _) _⟩
  | _ => exact h

theorem listEnd_outside : (∀ n, ∀ o, Outside bad closed o n → ∀ e, Outside bad closed o (addListEndIn e n)) ∧
    (∀ ns, ∀ o, OutsideL bad closed o ns → ∀ e, OutsideL bad closed o (addListEndL e ns)) := by
  apply induct
  · intro d o h e; exact h
  · intro d o h e; exact h
  · intro d o h e; exact h
  · intro cs ih o h e; exact ih o h _
  · intro n a cs ih o h e; exact ⟨h.1, ih _ h.2 _⟩
  · intro o _ e; trivial
  · intro n ns ih1 ih2 o h e
    rw [addListEndL]
    split
    · exact ⟨ih1 o h.1 _, trivial, ih2 o h.2 _⟩
    · exact ⟨ih1 o h.1 _, ih2 o h.2 _⟩

/-- After `handlePreRender`, no block is inside a heading, code, emphasis or a link. -/
theorem handlePreRender_outside (T : NameTables) (doc : Node) : Outside isBlockName isNarrow false (handlePreRender T doc) := by
  have hcl : isNarrow b!"#document" = false := by decide
  have start : ∀ d, Outside isBlockName isNarrow false (leafAlternatives d) := by
    intro d
    have := (outside_items (bad := isBlockName) (closed := isNarrow) hcl).1 (leafAlternatives d) []
    rw [List.any_nil] at this
    rw [this]
    intro i hi k a' hk hb
    have h := leaf_outside.1 d [] rfl i
    rw [leafAlternatives_eq, itemsL_singleton] at h
    exact h hi (by rw [hk]; exact hb)
  unfold handlePreRender
  exact (moveListItems_outside (by decide) (by decide) (by decide) (by decide)).1 _ _ (start _)

end Verif.Dom
