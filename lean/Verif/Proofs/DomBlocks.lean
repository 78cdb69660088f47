import Verif.Proofs.DomText
/-!
# Alternatives for blocks, list items, ends of lists
-/

namespace Verif.Dom
open Verif Verif.DomUtils Verif.Spec

/-! ## Alternatives for blocks -/

/-- A container or leaf block. -/
def isBlockName (n : Bytes) : Bool := getStructure n = .container || getStructure n = .leaf

/-- A leaf block or an inline element. -/
def isNarrow (n : Bytes) : Bool := getStructure n = .leaf || getStructure n = .inline

/-- Some node is an element with a property. -/
def isElem (p : Bytes → Bool) : What → Bool
  | .elem n _ => p n
  | _ => false

theorem alternative_inside (n : Bytes) (a : List (Bytes × Bytes)) (cs : List Node) (anc : List Bytes) (i : Item)
    (h : ∀ anc, ∀ i ∈ itemsL anc cs, isElem isBlockName i.what = false)
    (hi : i ∈ itemsL anc (alternative n a cs)) : isElem isBlockName i.what = false := by
  have hs : isBlockName b!"strong" = false := by decide
  have hb : isBlockName b!"br" = false := by decide
  have hsp : isBlockName b!"span" = false := by decide
  have hc : isBlockName b!"code" = false := by decide
  rw [alternative] at hi
  split at hi
  · simp only [itemsL, items, List.append_nil, List.mem_cons, List.mem_append, List.not_mem_nil, or_false] at hi
    rcases hi with (rfl | hi) | rfl
    · exact hs
    · exact h _ i hi
    · exact hb
  split at hi
  · simp only [itemsL, items, List.append_nil, List.mem_cons, List.mem_append, List.not_mem_nil, or_false] at hi
    rcases hi with rfl | (rfl | hi) | rfl
    · rfl
    · exact hsp
    · exact h _ i hi
    · rfl
  split at hi
  · simp only [itemsL, items, List.append_nil, List.mem_cons] at hi
    rcases hi with rfl | hi
    · exact hc
    · exact h _ i hi
  split at hi
  · simp [itemsL] at hi
  · simp only [itemsL, items, List.append_nil, List.mem_cons] at hi
    rcases hi with rfl | hi
    · exact hsp
    · exact h _ i hi

theorem leaf_inside :
    (∀ n, ∀ l i, (l || i) = true → ∀ anc, ∀ x ∈ itemsL anc (leafAlternativesIn l i n), isElem isBlockName x.what = false) ∧
    (∀ ns, ∀ l i, (l || i) = true → ∀ anc, ∀ x ∈ itemsL anc (leafAlternativesL l i ns), isElem isBlockName x.what = false) := by
  apply induct
  · intro d l i h anc x hx
    simp only [leafAlternativesIn, itemsL, items, List.append_nil, List.mem_singleton] at hx
    subst hx; rfl
  · intro d l i h anc x hx
    simp only [leafAlternativesIn, itemsL, items, List.append_nil, List.mem_singleton] at hx
    subst hx; rfl
  · intro d l i h anc x hx
    simp only [leafAlternativesIn, itemsL, items, List.append_nil, List.mem_singleton] at hx
    subst hx; rfl
  · intro cs ih l i h anc x hx
    simp only [leafAlternativesIn, itemsL, items, List.append_nil, List.mem_cons] at hx
    rcases hx with rfl | hx
    · rfl
    · exact ih l i h _ x hx
  · intro n a cs ih l i h anc x hx
    rw [leafAlternativesIn] at hx
    have ih' := ih (l || decide (getStructure n = .leaf)) (i || decide (getStructure n = .inline)) (by
      cases l <;> cases i <;> simp_all)
    split at hx
    · exact alternative_inside n a _ anc x ih' hx
    · rename_i hns
      rw [itemsL_singleton, items, List.mem_cons] at hx
      rcases hx with rfl | hx
      · simp only [isElem, isBlockName]
        simp only [h, and_true, not_or] at hns
        simp [hns]
      · exact ih' _ x hx
  · intro l i _ anc x hx
    simp [leafAlternativesL, itemsL] at hx
  · intro n ns ih1 ih2 l i h anc x hx
    rw [leafAlternativesL, itemsL_append, List.mem_append] at hx
    rcases hx with hx | hx
    · exact ih1 l i h anc x hx
    · exact ih2 l i h anc x hx

theorem leaf_outside :
    (∀ n, ∀ anc, anc.any isNarrow = false → ∀ x ∈ itemsL anc (leafAlternativesIn false false n),
      isElem isBlockName x.what = true → x.anc.any isNarrow = false) ∧
    (∀ ns, ∀ anc, anc.any isNarrow = false → ∀ x ∈ itemsL anc (leafAlternativesL false false ns),
      isElem isBlockName x.what = true → x.anc.any isNarrow = false) := by
  apply induct
  · intro d anc h x hx
    simp only [leafAlternativesIn, itemsL, items, List.append_nil, List.mem_singleton] at hx
    subst hx; simp [isElem]
  · intro d anc h x hx
    simp only [leafAlternativesIn, itemsL, items, List.append_nil, List.mem_singleton] at hx
    subst hx; simp [isElem]
  · intro d anc h x hx
    simp only [leafAlternativesIn, itemsL, items, List.append_nil, List.mem_singleton] at hx
    subst hx; simp [isElem]
  · intro cs ih anc h x hx
    simp only [leafAlternativesIn, itemsL, items, List.append_nil, List.mem_cons] at hx
    rcases hx with rfl | hx
    · simp [isElem]
    · refine ih _ ?_ x hx
      rw [List.any_cons, h, Bool.or_false]
      decide
  · intro n a cs ih anc h x hx hb
    rw [leafAlternativesIn] at hx
    simp only [Bool.false_or, Bool.false_eq_true, and_false, if_false, itemsL_singleton, items, List.mem_cons] at hx
    rcases hx with rfl | hx
    · exact h
    · cases hn : isNarrow n with
      | true =>
        exfalso
        have := leaf_inside.2 cs _ _ (by
          simp only [isNarrow, Bool.or_eq_true] at hn
          rcases hn with hn | hn
          · rw [hn]; rfl
          · rw [hn]; simp) _ x hx
        rw [this] at hb
        simp at hb
      | false =>
        simp only [isNarrow, Bool.or_eq_false_iff] at hn
        rw [hn.1, hn.2] at hx
        refine ih _ ?_ x hx hb
        rw [List.any_cons, h, Bool.or_false]
        simp [isNarrow, hn]
  · intro anc _ x hx
    simp [leafAlternativesL, itemsL] at hx
  · intro n ns ih1 ih2 anc h x hx
    rw [leafAlternativesL, itemsL_append, List.mem_append] at hx
    rcases hx with hx | hx
    · exact ih1 anc h x hx
    · exact ih2 anc h x hx

/-- Horizontal rules have no content. -/
def HrEmpty (l : List Node) : Prop := ∀ x ∈ l, x.name = b!"hr" → x.children = []

/-- The visible characters of some texts, without quotation marks. -/
def unquoted (l : List Bytes) : Bytes := (l.flatMap visible).filter (· ≠ 34)

theorem unquoted_append (a b : List Bytes) : unquoted (a ++ b) = unquoted a ++ unquoted b := by simp [unquoted]

theorem alternative_txts (n : Bytes) (a : List (Bytes × Bytes)) (cs : List Node) (h : n = b!"hr" → txtsL cs = []) :
    unquoted (txtsL (alternative n a cs)) = unquoted (txtsL cs) := by
  have e1 : unquoted [b!" \""] = [] := by decide
  have e2 : unquoted [b!"\" "] = [] := by decide
  rw [alternative]
  split
  · simp [txtsL, txts]
  split
  · simp only [txtsL, txts]
    rw [unquoted_append, unquoted_append, unquoted_append, e1, e2]
    simp [unquoted]
  split
  · simp [txtsL, txts]
  split
  · rename_i hn
    rw [h hn]
    rfl
  · simp [txtsL, txts]

theorem leaf_txts :
    (∀ n, HrEmpty (nodes n) → ∀ l i, unquoted (txtsL (leafAlternativesIn l i n)) = unquoted (txts n)) ∧
    (∀ ns, HrEmpty (nodesL ns) → ∀ l i, unquoted (txtsL (leafAlternativesL l i ns)) = unquoted (txtsL ns)) := by
  apply induct
  · intro d _ l i; rfl
  · intro d _ l i; rfl
  · intro d _ l i; rfl
  · intro cs ih h l i
    rw [leafAlternativesIn, txtsL_singleton, txts, txts]
    exact ih (fun x hx => h x (by simp [nodes, hx])) l i
  · intro n a cs ih h l i
    rw [leafAlternativesIn]
    have ih' := ih (fun x hx => h x (by simp [nodes, hx]))
    split
    · rw [alternative_txts, ih', txts]
      intro hn
      have := h (.elem n a cs) (by simp [nodes]) hn
      simp only [Node.children] at this
      rw [this]
      rfl
    · rw [txtsL_singleton, txts, ih', txts]
  · intro _ l i; rfl
  · intro n ns ih1 ih2 h l i
    rw [leafAlternativesL, txtsL_append, unquoted_append, ih1 (fun x hx => h x (by simp [nodesL, hx])),
      ih2 (fun x hx => h x (by simp [nodesL, hx])), txtsL, unquoted_append]

/-- Without quotations in narrow places, the texts are unchanged. -/
theorem leaf_txts_exact :
    (∀ n, HrEmpty (nodes n) → ∀ l i anc, (l || i) = anc.any isNarrow →
      (∀ x ∈ items anc n, isElem (· = b!"blockquote") x.what = true → x.anc.any isNarrow = false) →
      txtsL (leafAlternativesIn l i n) = txts n) ∧
    (∀ ns, HrEmpty (nodesL ns) → ∀ l i anc, (l || i) = anc.any isNarrow →
      (∀ x ∈ itemsL anc ns, isElem (· = b!"blockquote") x.what = true → x.anc.any isNarrow = false) →
      txtsL (leafAlternativesL l i ns) = txtsL ns) := by
  apply induct
  · intro d _ l i _ _ _; rfl
  · intro d _ l i _ _ _; rfl
  · intro d _ l i _ _ _; rfl
  · intro cs ih h l i anc he hq
    rw [leafAlternativesIn, txtsL_singleton, txts, txts]
    refine ih (fun x hx => h x (by simp [nodes, hx])) l i (b!"#document" :: anc) ?_ (fun x hx => hq x (by simp [items, hx]))
    rw [he, List.any_cons]
    have : isNarrow b!"#document" = false := by decide
    rw [this, Bool.false_or]
  · intro n a cs ih h l i anc he hq
    rw [leafAlternativesIn]
    have ih' := ih (fun x hx => h x (by simp [nodes, hx])) (l || decide (getStructure n = .leaf)) (i || decide (getStructure n = .inline))
      (n :: anc) (by
        rw [List.any_cons, ← he, isNarrow]
        cases l <;> cases i <;> cases decide (getStructure n = .leaf) <;> cases decide (getStructure n = .inline) <;> rfl)
      (fun x hx => hq x (by simp [items, hx]))
    split
    · rename_i hc
      rw [alternative]
      split
      · simp [txtsL, txts, ih']
      split
      · rename_i hn
        have := hq ⟨anc, .elem n a⟩ (by simp [items]) (by simp [isElem, hn])
        simp only at this
        rw [← he, hc.2] at this
        simp at this
      split
      · simp [txtsL, txts, ih']
      split
      · rename_i hn
        have := h (.elem n a cs) (by simp [nodes]) hn
        simp only [Node.children] at this
        rw [this]
        rfl
      · simp [txtsL, txts, ih']
    · rw [txtsL_singleton, txts, ih', txts]
  · intro _ l i _ _ _; rfl
  · intro n ns ih1 ih2 h l i anc he hq
    rw [leafAlternativesL, txtsL_append, ih1 (fun x hx => h x (by simp [nodesL, hx])) l i anc he (fun x hx => hq x (by simp [itemsL, hx])),
      ih2 (fun x hx => h x (by simp [nodesL, hx])) l i anc he (fun x hx => hq x (by simp [itemsL, hx])), txtsL]

theorem leafIn_single (l i : Bool) (n : Node) (h : (l || i) = false) : ∃ m, leafAlternativesIn l i n = [m] := by
  cases n with
  | elem n a cs => rw [leafAlternativesIn]; simp only [h]; simp
  | _ => simp [leafAlternativesIn]

theorem leafAlternatives_eq (n : Node) : leafAlternativesIn false false n = [leafAlternatives n] := by
  obtain ⟨m, hm⟩ := leafIn_single false false n rfl
  rw [leafAlternatives, hm]
  rfl

/-! ## List items -/

/-- The texts that are not blank. -/
def solid (l : List Bytes) : List Bytes := l.filter fun d => !(trimSpace d).isEmpty

theorem solid_append (a b : List Bytes) : solid (a ++ b) = solid a ++ solid b := by simp [solid]

theorem isEmptyText_txts (c : Node) (h : isEmptyText c = true) : ∃ d, c = .text d ∧ trimSpace d = [] := by
  cases c <;> simp [isEmptyText] at h
  exact ⟨_, rfl, h⟩

theorem isEmptyText_solid (c : Node) (h : isEmptyText c = true) : solid (txts c) = [] := by
  obtain ⟨d, rfl, hd⟩ := isEmptyText_txts c h
  simp [txts, solid, hd]

theorem blanks_solid (l : List Node) (h : ∀ c ∈ l, isEmptyText c = true) : solid (txtsL l) = [] := by
  induction l with
  | nil => rfl
  | cons c l ih =>
    rw [txtsL, solid_append, isEmptyText_solid c (h c (by simp)), ih (fun c hc => h c (by simp [hc]))]
    rfl

/-- The texts of the current item. -/
def curTxts : Option (List (Bytes × Bytes) × List Node × List Node) → List Bytes
  | none => []
  | some (_, ks, _) => txtsL ks

theorem moveItemsGo_cons (cur : Option (List (Bytes × Bytes) × List Node × List Node)) (c : Node) (cs : List Node) :
    moveItemsGo cur (c :: cs) =
    if isLi c then
      (match cur with | none => [] | some (a, ks, blanks) => .elem b!"li" a ks :: blanks) ++
        moveItemsGo (some (match c with | .elem _ a ks => (a, ks, []) | _ => ([], [], []))) cs
    else if isEmptyText c then
      match cur with
      | none => c :: moveItemsGo none cs
      | some (a, ks, blanks) => moveItemsGo (some (a, ks, blanks ++ [c])) cs
    else
      match cur with
      | none => moveItemsGo (some ([], [c], [])) cs
      | some (a, ks, blanks) => moveItemsGo (some (a, ks ++ [c], blanks)) cs := by
  rcases cur with _ | ⟨a, ks, bl⟩
  · cases c <;> rfl
  · cases c <;> rfl

theorem moveItemsGo_solid : ∀ (cs : List Node) (cur : Option (List (Bytes × Bytes) × List Node × List Node)),
    (∀ x ∈ cur, ∀ c ∈ x.2.2, isEmptyText c = true) →
    solid (txtsL (moveItemsGo cur cs)) = solid (curTxts cur) ++ solid (txtsL cs)
  | [], none, _ => by simp [moveItemsGo, curTxts, txtsL, solid]
  | [], some (a, ks, bl), h => by
    have := blanks_solid bl (h _ rfl)
    rw [moveItemsGo]
    rw [show txtsL (Node.elem b!"li" a ks :: bl) = txtsL ks ++ txtsL bl from rfl, solid_append, this, curTxts]
    rfl
  | c :: cs, cur, h => by
    rw [moveItemsGo_cons, txtsL, solid_append]
    split
    · rename_i hli
      cases c with
      | elem n a ks =>
        rw [txtsL_append, solid_append, moveItemsGo_solid cs _ (by simp)]
        cases cur with
        | none => simp [curTxts, txts, solid, txtsL]
        | some x =>
          obtain ⟨a', ks', bl⟩ := x
          have := blanks_solid bl (h _ rfl)
          simp only [txtsL, curTxts, txts]
          rw [solid_append, this]
          simp
      | _ => simp [isLi] at hli
    split
    · rename_i _ hbl
      cases cur with
      | none =>
        simp only
        rw [txtsL, solid_append, moveItemsGo_solid cs none (by simp)]
        simp [curTxts, solid]
      | some x =>
        obtain ⟨a', ks', bl⟩ := x
        simp only
        rw [moveItemsGo_solid cs _ (by
          intro x hx
          simp only [Option.mem_def, Option.some.injEq] at hx
          subst hx
          intro c' hc'
          rcases List.mem_append.1 hc' with hc' | hc'
          · exact h _ rfl c' hc'
          · simp at hc'; subst hc'; exact hbl)]
        rw [isEmptyText_solid c hbl]
        simp [curTxts]
    · cases cur with
      | none =>
        simp only
        rw [moveItemsGo_solid cs _ (by simp)]
        simp [curTxts, solid, txtsL]
      | some x =>
        obtain ⟨a', ks', bl⟩ := x
        simp only
        rw [moveItemsGo_solid cs _ (by
          intro x hx
          simp only [Option.mem_def, Option.some.injEq] at hx
          subst hx
          exact h (a', ks', bl) rfl)]
        simp only [curTxts]
        rw [txtsL_append, solid_append, List.append_assoc, txtsL_singleton]

theorem moveListItems_solid :
    (∀ n, solid (txts (moveListItems n)) = solid (txts n)) ∧ (∀ ns, solid (txtsL (moveListItemsL ns)) = solid (txtsL ns)) := by
  apply induct
  · intro d; rfl
  · intro d; rfl
  · intro d; rfl
  · intro cs ih; simpa [moveListItems, txts] using ih
  · intro n a cs ih
    rw [moveListItems]
    simp only [txts]
    split
    · rw [moveItemsGo_solid _ _ (by simp), ih]
      simp [curTxts, solid]
    · exact ih
  · rfl
  · intro n ns ih1 ih2; rw [moveListItemsL, txtsL, solid_append, ih1, ih2, txtsL, solid_append]

theorem moveItemsGo_children : ∀ (cs : List Node) (cur : Option (List (Bytes × Bytes) × List Node × List Node)),
    (∀ x ∈ cur, ∀ c ∈ x.2.2, isEmptyText c = true) →
    ∀ c ∈ moveItemsGo cur cs, isLi c = true ∨ isEmptyText c = true
  | [], none, _, c, hc => by simp [moveItemsGo] at hc
  | [], some (a, ks, bl), h, c, hc => by
    rw [moveItemsGo, List.mem_cons] at hc
    rcases hc with rfl | hc
    · left; simp [isLi]
    · right; exact h _ rfl c hc
  | c' :: cs, cur, h, c, hc => by
    rw [moveItemsGo_cons] at hc
    split at hc
    · rcases List.mem_append.1 hc with hc | hc
      · cases cur with
        | none => simp at hc
        | some x =>
          obtain ⟨a', ks', bl⟩ := x
          simp only [List.mem_cons] at hc
          rcases hc with rfl | hc
          · left; simp [isLi]
          · right; exact h _ rfl c hc
      · exact moveItemsGo_children cs _ (by
          intro x hx
          simp only [Option.mem_def, Option.some.injEq] at hx
          subst hx
          cases c' <;> simp) c hc
    split at hc
    · rename_i _ hbl
      cases cur with
      | none =>
        simp only [List.mem_cons] at hc
        rcases hc with rfl | hc
        · right; exact hbl
        · exact moveItemsGo_children cs none (by simp) c hc
      | some x =>
        obtain ⟨a', ks', bl⟩ := x
        exact moveItemsGo_children cs _ (by
          intro x hx
          simp only [Option.mem_def, Option.some.injEq] at hx
          subst hx
          intro c' hc'
          rcases List.mem_append.1 hc' with hc' | hc'
          · exact h _ rfl c' hc'
          · simp at hc'; subst hc'; exact hbl) c hc
    · cases cur with
      | none => exact moveItemsGo_children cs _ (by simp) c hc
      | some x =>
        obtain ⟨a', ks', bl⟩ := x
        exact moveItemsGo_children cs _ (by
          intro x hx
          simp only [Option.mem_def, Option.some.injEq] at hx
          subst hx
          exact h (a', ks', bl) rfl) c hc

/-- Every child of a list is an item or a blank text. -/
def ItemsOK (x : Node) : Prop := x.name = b!"ul" ∨ x.name = b!"ol" → ∀ c ∈ x.children, isLi c = true ∨ isEmptyText c = true

theorem nodesL_mem {x c : Node} {cs : List Node} (hc : c ∈ cs) (hx : x ∈ nodes c) : x ∈ nodesL cs := by
  induction cs with
  | nil => simp at hc
  | cons d cs ih =>
    rw [nodesL, List.mem_append]
    rcases List.mem_cons.1 hc with rfl | hc
    · exact .inl hx
    · exact .inr (ih hc)

theorem nodesL_mem_iff {x : Node} {cs : List Node} : x ∈ nodesL cs ↔ ∃ c ∈ cs, x ∈ nodes c := by
  induction cs with
  | nil => simp [nodesL]
  | cons d cs ih => simp [nodesL, ih]

/-- All nodes below the children of the current item and below the remaining children. -/
theorem moveItemsGo_nodes (P : Node → Prop) (hli : ∀ a ks, P (.elem b!"li" a ks)) : ∀ (cs : List Node) (cur : Option (List (Bytes × Bytes) × List Node × List Node)),
    (∀ x ∈ cur, (∀ y ∈ nodesL x.2.1, P y) ∧ ∀ y ∈ nodesL x.2.2, P y) → (∀ y ∈ nodesL cs, P y) →
    ∀ y ∈ nodesL (moveItemsGo cur cs), P y
  | [], none, _, _, y, hy => by simp [moveItemsGo, nodesL] at hy
  | [], some (a, ks, bl), h, _, y, hy => by
    rw [moveItemsGo, nodesL, nodes, List.cons_append, List.mem_cons, List.mem_append] at hy
    have := h _ rfl
    rcases hy with rfl | hy | hy
    · exact hli _ _
    · exact this.1 y hy
    · exact this.2 y hy
  | c :: cs, cur, h, hcs, y, hy => by
    have h1 : ∀ y ∈ nodes c, P y := fun y hy => hcs y (by simp [nodesL, hy])
    have h2 : ∀ y ∈ nodesL cs, P y := fun y hy => hcs y (by simp [nodesL, hy])
    rw [moveItemsGo_cons] at hy
    split at hy
    · rename_i hl
      rw [nodesL_append, List.mem_append] at hy
      rcases hy with hy | hy
      · cases cur with
        | none => simp [nodesL] at hy
        | some x =>
          obtain ⟨a', ks', bl⟩ := x
          have := h _ rfl
          simp only [nodesL, nodes, List.cons_append, List.mem_cons, List.mem_append] at hy
          rcases hy with rfl | hy | hy
          · exact hli _ _
          · exact this.1 y hy
          · exact this.2 y hy
      · refine moveItemsGo_nodes P hli cs _ ?_ h2 y hy
        intro x hx
        simp only [Option.mem_def, Option.some.injEq] at hx
        subst hx
        cases c with
        | elem n a ks => exact ⟨fun y hy => h1 y (by simp [nodes, hy]), by simp [nodesL]⟩
        | _ => simp [isLi] at hl
    split at hy
    · cases cur with
      | none =>
        simp only [nodesL, List.mem_append] at hy
        rcases hy with hy | hy
        · exact h1 y hy
        · exact moveItemsGo_nodes P hli cs none (by simp) h2 y hy
      | some x =>
        obtain ⟨a', ks', bl⟩ := x
        refine moveItemsGo_nodes P hli cs _ ?_ h2 y hy
        intro x hx
        simp only [Option.mem_def, Option.some.injEq] at hx
        subst hx
        have := h _ rfl
        refine ⟨this.1, ?_⟩
        intro y hy
        rw [nodesL_append, List.mem_append] at hy
        rcases hy with hy | hy
        · exact this.2 y hy
        · simp only [nodesL, List.append_nil] at hy; exact h1 y hy
    · cases cur with
      | none =>
        refine moveItemsGo_nodes P hli cs _ ?_ h2 y hy
        intro x hx
        simp only [Option.mem_def, Option.some.injEq] at hx
        subst hx
        refine ⟨?_, by simp [nodesL]⟩
        intro y hy
        simp only [nodesL, List.append_nil] at hy; exact h1 y hy
      | some x =>
        obtain ⟨a', ks', bl⟩ := x
        refine moveItemsGo_nodes P hli cs _ ?_ h2 y hy
        intro x hx
        simp only [Option.mem_def, Option.some.injEq] at hx
        subst hx
        have := h _ rfl
        refine ⟨?_, this.2⟩
        intro y hy
        rw [nodesL_append, List.mem_append] at hy
        rcases hy with hy | hy
        · exact this.1 y hy
        · simp only [nodesL, List.append_nil] at hy; exact h1 y hy

theorem moveListItems_ok : (∀ n, ∀ x ∈ nodes (moveListItems n), ItemsOK x) ∧ (∀ ns, ∀ x ∈ nodesL (moveListItemsL ns), ItemsOK x) := by
  apply induct
  · intro d x hx
    simp only [moveListItems, nodes, List.mem_singleton] at hx
    subst hx; simp [ItemsOK, Node.children]
  · intro d x hx
    simp only [moveListItems, nodes, List.mem_singleton] at hx
    subst hx; simp [ItemsOK, Node.children]
  · intro d x hx
    simp only [moveListItems, nodes, List.mem_singleton] at hx
    subst hx; simp [ItemsOK, Node.children]
  · intro cs ih x hx
    simp only [moveListItems, nodes, List.mem_cons] at hx
    rcases hx with rfl | hx
    · simp [ItemsOK, Node.name]
    · exact ih x hx
  · intro n a cs ih x hx
    simp only [moveListItems, nodes, List.mem_cons] at hx
    rcases hx with rfl | hx
    · intro hn
      simp only [Node.name, Node.children] at hn ⊢
      rw [if_pos (by rcases hn with h | h <;> simp [h])]
      exact moveItemsGo_children _ _ (by simp)
    · split at hx
      · exact moveItemsGo_nodes ItemsOK (by intro a ks; simp [ItemsOK, Node.name]) _ _ (by simp) ih x hx
      · exact ih x hx
  · intro x hx
    simp [moveListItemsL, nodesL] at hx
  · intro n ns ih1 ih2 x hx
    rw [moveListItemsL, nodesL, List.mem_append] at hx
    rcases hx with hx | hx
    · exact ih1 x hx
    · exact ih2 x hx

end Verif.Dom
