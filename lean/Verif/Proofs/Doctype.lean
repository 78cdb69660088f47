import Verif.Proofs.CutDom
/-!
# A doctype at the beginning of a document

The steps before rendering keep it there, treat the other nodes as if it was not there, and remove it at last.
-/
set_option linter.unusedSimpArgs false

namespace Verif.Cut
open Verif Verif.Spec Verif.DomUtils Verif.Dom

/-- The step keeps the doctype and treats the other nodes as without it. -/
def Lead (d : Bytes) (f : Node → Node) : Prop :=
  ∃ F : List Node → List Node, ∀ cs, f (.document (.doctype d :: cs)) = .document (.doctype d :: F cs) ∧ f (.document cs) = .document (F cs)

variable {d : Bytes}

theorem Lead.comp {f g : Node → Node} (hg : Lead d g) (hf : Lead d f) : Lead d (fun n => g (f n)) := by
  obtain ⟨F, h⟩ := hf
  obtain ⟨G, h'⟩ := hg
  exact ⟨G ∘ F, fun cs => by simp [(h cs).1, (h cs).2, (h' _).1, (h' _).2]⟩

theorem remove_lead : Lead d (preRenderRemove Render.isRemoved) := by
  refine ⟨fun cs => mergeTextGo none (removeInL Render.isRemoved cs), fun cs => ?_⟩
  have h1 : Render.isRemoved b!"#document" = false := by decide
  have h2 : Render.isRemoved b!"#doctype" = false := by decide
  constructor
  · simp [preRenderRemove, Node.name, h1, h2, removeIn, removeInL, mergeText, mergeTextGo, flush]
  · simp [preRenderRemove, Node.name, h1, removeIn, mergeText]

theorem rename_lead (T : NameTables) : Lead d (renameFakeSpans T) :=
  ⟨renameFakeSpansL T, fun cs => by simp [renameFakeSpans, renameFakeSpansL]⟩

theorem redundant_lead (same : Bytes → Bytes → Bool) : Lead d (removeRedundant same) :=
  ⟨removeRedundantL same [b!"#document"], fun cs => by simp [removeRedundant, removeRedundantL, removeRedundantIn]⟩

theorem emptyCode_lead : Lead d removeEmptyCode :=
  ⟨removeEmptyCodeL, fun cs => by simp [removeEmptyCode, removeEmptyCodeL, Node.name]⟩

theorem swap_lead (outer inner : Bytes → Bool) : Lead d (swapTags outer inner) :=
  ⟨swapTagsL outer inner, fun cs => by simp [swapTags, swapTagsL]⟩

theorem leaf_lead : Lead d leafAlternatives :=
  ⟨leafAlternativesL false false, fun cs => by simp [leafAlternatives, leafAlternativesIn, leafAlternativesL]⟩

theorem move_lead : Lead d moveListItems :=
  ⟨moveListItemsL, fun cs => by simp [moveListItems, moveListItemsL]⟩

theorem adjacent_lead {m : Bytes → Bool} (hd : m b!"#document" = false) (hr : m b!"#doctype" = false) : Lead d (mergeAdjacent m) := by
  have hone : ∀ B, mergeAdjacentF m [B] = [(mergeAdjacentF m [B]).headD []] := by
    intro B
    have hl := mergeAdjacentF_length m [B]
    rcases hg : mergeAdjacentF m [B] with _ | ⟨x, _ | ⟨y, z⟩⟩
    · simp [hg] at hl
    · rfl
    · simp [hg] at hl
  have hone' : ∀ B k, mergeAdjacentF m (B :: List.replicate k []) = (mergeAdjacentF m [B]).headD [] :: List.replicate k [] := by
    intro B k
    rw [← List.singleton_append, merge_empties, hone]
    rfl
  have h1 := fun B => hone' B 1
  refine ⟨fun cs => (mergeAdjacentF m [cs]).headD [], fun cs => ⟨?_, ?_⟩⟩
  · rw [mergeAdjacent, mergeAdjacentF, mergeStep, if_neg (by simp [Node.name, hd])]
    simp only [Node.children]
    rw [mergeAdjacentF, mergeStep, if_neg (by simp [Node.name, hr])]
    simp only [Node.children]
    rw [mergeAdjacentF]
    simp only [List.replicate_one] at h1
    rw [h1]
    rfl
  · rw [mergeAdjacent, mergeAdjacentF, mergeStep, if_neg (by simp [Node.name, hd])]
    simp only [Node.children]
    simp only [List.replicate_one] at h1
    rw [h1]
    rfl

/-! ## Spaces -/

/-- The walk before the nodes behind the doctype, backwards. -/
abbrev leadEvents : List Ev := [.cl b!"#doctype", .op b!"#doctype", .op b!"#document"]

theorem lead_last {inner : Bytes → Bool} (hi : inner b!"#doctype" = false) (es : List Ev) :
    es ≠ [] → lastIsInner inner (es ++ leadEvents) = lastIsInner inner (es ++ [.op b!"#document"]) := by
  have go : ∀ es, lastIsInner.go inner (es ++ leadEvents) = lastIsInner.go inner (es ++ [.op b!"#document"]) := by
    intro es
    induction es with
    | nil => simp [lastIsInner.go, hi]
    | cons e es ih => cases e <;> simp [lastIsInner.go, ih]
  intro he
  cases es with
  | nil => exact absurd rfl he
  | cons e es =>
    have := go (e :: es)
    cases e <;> simp only [List.cons_append, lastIsInner] at this ⊢ <;> exact this

theorem lead_prev (es : List Ev) : prevIsText (es ++ leadEvents) = prevIsText (es ++ [.op b!"#document"]) := by
  induction es with
  | nil => simp [prevIsText]
  | cons e es ih => cases e <;> simp [prevIsText, ih]

theorem lead_added {outer inner : Bytes → Bool} (hi : inner b!"#doctype" = false) : ∀ (rest u : List Ev) (k : Nat),
    (u = [] → ∀ n r, rest = .cl n :: r → outer n = false) →
    addedSpaces outer inner (u ++ leadEvents) k rest = addedSpaces outer inner (u ++ [.op b!"#document"]) k rest := by
  intro rest
  induction rest with
  | nil => intros; rfl
  | cons e rest ih =>
    intro u k hu
    have h := ih (e :: u) (if e = .text then k + 1 else k) (by simp)
    simp only [List.cons_append] at h
    rw [added_cons, added_cons, h, lead_prev]
    cases e with
    | cl n =>
      by_cases hn : u = []
      · have := hu hn n rest rfl
        simp only [this, Bool.false_and, Bool.false_eq_true, if_false]
      · rw [lead_last hi u hn]
    | _ => rfl

theorem eventsL_head : ∀ (cs : List Node) (n : Bytes) (r e : List Ev), eventsL cs ++ e = .cl n :: r → eventsL cs = [] := by
  intro cs
  induction cs with
  | nil => intros; rfl
  | cons x cs ih =>
    intro n r e h
    cases x <;> simp [eventsL, events] at h

theorem space_lead {outer inner : Bytes → Bool} (hd : outer b!"#document" = false) (hr : outer b!"#doctype" = false) (hi : inner b!"#doctype" = false) :
    Lead d (addSpace outer inner) := by
  let spaces : List Nat × List Nat → Nat → Bytes → Bytes := fun s i d => List.replicate (s.2.count i) SP ++ d ++ List.replicate (s.1.count i) SP
  refine ⟨fun cs => (mapTextsL (spaces (addedSpaces outer inner [] 0 (events (.document cs)))) 0 cs).1, fun cs => ⟨?_, rfl⟩⟩
  have he : addedSpaces outer inner [] 0 (events (.document (.doctype d :: cs))) = addedSpaces outer inner [] 0 (events (.document cs)) := by
    have e1 : events (.document (.doctype d :: cs)) = .op b!"#document" :: .op b!"#doctype" :: .cl b!"#doctype" :: (eventsL cs ++ [.cl b!"#document"]) := by
      simp [events, eventsL]
    have e2 : events (.document cs) = .op b!"#document" :: (eventsL cs ++ [.cl b!"#document"]) := by simp [events]
    have h := lead_added (outer := outer) hi (eventsL cs ++ [.cl b!"#document"]) [] 0 (by
      intro _ n r e
      have h0 := eventsL_head cs n r _ e
      rw [h0, List.nil_append, List.cons.injEq, Ev.cl.injEq] at e
      rw [← e.1]; exact hd)
    have o : ∀ (n : Bytes) (b : List Ev) (after : List Ev), outer n = false → addedSpaces outer inner b 0 (.op n :: after) = addedSpaces outer inner (.op n :: b) 0 after := by
      intro n b after hn
      rw [added_cons]
      simp only [hn, Bool.false_and, Bool.false_eq_true, if_false]
      rfl
    have c : ∀ (n : Bytes) (b : List Ev) (after : List Ev), outer n = false → addedSpaces outer inner b 0 (.cl n :: after) = addedSpaces outer inner (.cl n :: b) 0 after := by
      intro n b after hn
      rw [added_cons]
      simp only [hn, Bool.false_and, Bool.false_eq_true, if_false]
      rfl
    rw [e1, e2, o _ _ _ hd, o _ _ _ hr, c _ _ _ hr, o _ _ _ hd]
    exact h
  show (mapTexts (spaces (addedSpaces outer inner [] 0 (events (.document (.doctype d :: cs))))) 0 _).1 = _
  rw [he]
  rfl

/-! ## All steps -/

theorem handle_lead (T : NameTables) : Lead d (handlePreRender T) :=
  (((((((((((move_lead).comp leaf_lead).comp (swap_lead _ _)).comp (swap_lead _ _)).comp (redundant_lead _)).comp
    (space_lead (by decide) (by decide) (by decide))).comp (adjacent_lead (by decide) (by decide))).comp (swap_lead _ _)).comp
    emptyCode_lead).comp (adjacent_lead (by decide) (by decide))).comp (redundant_lead _)).comp (rename_lead T)

theorem strike_lead (E : Render.Env) : Lead d (Render.strikePreRender E) := by
  unfold Render.strikePreRender
  by_cases hs : E.strike.isSome = true
  · simp only [hs, if_true]
    exact (adjacent_lead (m := Render.isStrike) (by decide) (by decide)).comp (redundant_lead _)
  · simp only [hs]
    exact ⟨fun cs => cs, fun _ => ⟨rfl, rfl⟩⟩

/-- The tree before rendering is the same with and without the doctype. -/
theorem preRender_lead (E : Render.Env) (d : Bytes) (cs : List Node) : Render.preRender E (.document (.doctype d :: cs)) = Render.preRender E (.document cs) := by
  obtain ⟨F, hF⟩ := ((strike_lead E).comp (handle_lead E.tables)).comp (remove_lead (d := d))
  have h1 := (hF cs).1
  have h2 := (hF cs).2
  simp only at h1 h2
  unfold Render.preRender
  simp only [h1, h2]
  have hp : (Collapse.baseFuncs (Render.isBlock E)).isPre b!"#document" = false := by rfl
  simp only [Collapse.collapse, hp, Collapse.children, Collapse.firstL, Collapse.first]
  rfl

end Verif.Cut
