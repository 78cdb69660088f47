import Verif.Model.Render
import Verif.Proofs.Dom
/-!
# Trees that the pre-render handlers leave as they are

A tree is calm if it has none of the things that the pre-render handlers repair: no removed elements, no spans, no inline elements of the same kind
that follow each other, no code at the ends of emphasis, no blocks in headings, only items in lists, no neighbouring texts.
-/

namespace Verif.Calm
open Verif Verif.DomUtils Verif.Render

/-- The names of the inline elements that the handlers look at. -/
def isInl (n : Bytes) : Bool := isBoldOrItalic n || DomUtils.isInlineCode n || isLink n || isStrike n

/-- An inline element? -/
def inlNode : Node → Bool
  | .elem n _ _ => isInl n
  | _ => false

/-- The kinds of inline elements that are merged. -/
def kinds : List (Bytes → Bool) := [isBoldOrItalic, DomUtils.isInlineCode, isStrike]

/-- An inline element of a kind? -/
def kindNode (m : Bytes → Bool) : Node → Bool
  | .elem n _ _ => m n
  | _ => false

/-- A text? -/
def textNode : Node → Bool
  | .text _ => true
  | _ => false

/-- Inline elements of the same kind? -/
def alike (a b : Node) : Bool := kinds.any fun m => kindNode m a && kindNode m b

/-- No two neighbours are both inline elements of the same kind or both texts. -/
def apart : List Node → Bool
  | [] => true
  | [_] => true
  | a :: b :: cs => !alike a b && !(textNode a && textNode b) && apart (b :: cs)

/-- Only texts or only one text that is not empty. -/
def oneText : List Node → Bool
  | [.text t] => !t.isEmpty
  | _ => false

/-- What may be in a heading. -/
def leafChild : Node → Bool
  | .text _ => true
  | .elem n _ cs => isInl n || (n = b!"img" && cs.isEmpty)
  | _ => false

/-- Bold or italic text does not begin or end with code, and is not a link alone. -/
def calmEnds (cs : List Node) : Bool :=
  !cs.head?.any (kindNode DomUtils.isInlineCode) && !cs.getLast?.any (kindNode DomUtils.isInlineCode) &&
    match cs.filter fun c => !isEmptyText c with
    | [c] => !kindNode isLink c
    | _ => true

/-- The conditions on one element and its children. -/
def calmElem (n : Bytes) (cs : List Node) : Bool :=
  !isRemoved n && n ≠ b!"span" && n ≠ b!"#document" && (!isInl n || !cs.isEmpty) && (!(DomUtils.isInlineCode n || isStrike n) || oneText cs) &&
    (!isBoldOrItalic n || calmEnds cs) &&
    ((getStructure n != .leaf && getStructure n != .inline) || cs.all leafChild) &&
    (!(n = b!"ul" || n = b!"ol") || cs.all fun c => isLi c || isEmptyText c) && apart cs

mutual
/-- A tree that the handlers leave as it is. -/
def calm : Node → Bool
  | .text _ => true
  | .elem n _ cs => calmElem n cs && calmL cs
  | .comment _ => false
  | .doctype _ => false
  | .document _ => false
/-- The same for trees that follow each other. -/
def calmL : List Node → Bool
  | [] => true
  | n :: ns => calm n && calmL ns
end

theorem calmL_mem {cs : List Node} (h : calmL cs = true) : ∀ c ∈ cs, calm c = true := by
  induction cs with
  | nil => simp
  | cons n ns ih =>
    simp only [calmL, Bool.and_eq_true] at h
    intro c hc
    rcases List.mem_cons.1 hc with rfl | hc
    · exact h.1
    · exact ih h.2 c hc

theorem calmL_append (a b : List Node) : calmL (a ++ b) = (calmL a && calmL b) := by
  induction a with
  | nil => simp [calmL]
  | cons n a ih => simp [calmL, ih, Bool.and_assoc]

theorem apart_tail {n : Node} {ns : List Node} (h : apart (n :: ns) = true) : apart ns = true := by
  cases ns with
  | nil => rfl
  | cons m ns => simp only [apart, Bool.and_eq_true] at h; exact h.2

/-- The parts of the condition on an element. -/
structure CE (n : Bytes) (cs : List Node) : Prop where
  removed : isRemoved n = false
  span : n ≠ b!"span"
  document : n ≠ b!"#document"
  inl : isInl n = true → cs ≠ []
  code : DomUtils.isInlineCode n = true ∨ isStrike n = true → ∃ t, t ≠ [] ∧ cs = [.text t]
  ends : isBoldOrItalic n = true → calmEnds cs = true
  leaf : getStructure n = .leaf ∨ getStructure n = .inline → ∀ c ∈ cs, leafChild c = true
  list : n = b!"ul" ∨ n = b!"ol" → ∀ c ∈ cs, isLi c = true ∨ isEmptyText c = true
  apart : apart cs = true

theorem CE.of {n cs} (h : calmElem n cs = true) : CE n cs := by
  simp only [calmElem, Bool.and_eq_true, Bool.or_eq_true, Bool.not_eq_true', bne_iff_ne, ne_eq,
    List.all_eq_true, decide_not] at h
  obtain ⟨⟨⟨⟨⟨⟨⟨⟨h1, h2⟩, h2'⟩, h3⟩, h7⟩, h8⟩, h4⟩, h5⟩, h6⟩ := h
  refine ⟨h1, by simpa using h2, by simpa using h2', ?_, ?_, ?_, ?_, ?_, h6⟩
  · intro hi
    rcases h3 with h3 | h3
    · rw [hi] at h3; simp at h3
    · simpa using h3
  · intro hi
    rcases h7 with h7 | h7
    · simp only [Bool.or_eq_false_iff] at h7
      rw [h7.1, h7.2] at hi; simp at hi
    · match cs, h7 with
      | [.text t], h7 => exact ⟨t, by simpa [oneText] using h7, rfl⟩
  · intro hi
    rcases h8 with h8 | h8
    · rw [hi] at h8; simp at h8
    · exact h8
  · intro hl
    rcases h4 with h4 | h4
    · rcases hl with hl | hl
      · exact absurd hl h4.1
      · exact absurd hl h4.2
    · exact h4
  · intro hl
    rcases h5 with h5 | h5
    · simp at h5; rcases hl with hl | hl
      · exact absurd hl h5.1
      · exact absurd hl h5.2
    · exact h5

theorem calm_elem {n a cs} (h : calm (.elem n a cs) = true) : CE n cs ∧ calmL cs = true := by
  simp only [calm, Bool.and_eq_true] at h
  exact ⟨CE.of h.1, h.2⟩

/-! ## The steps -/

theorem removeIn_calm : (∀ n : Node, calm n = true → removeIn isRemoved n = n) ∧
    (∀ ns : List Node, calmL ns = true → removeInL isRemoved ns = ns) := by
  apply Verif.Dom.induct (P := fun n => calm n = true → removeIn isRemoved n = n)
    (Q := fun ns => calmL ns = true → removeInL isRemoved ns = ns)
  · intro d _; rfl
  · intro d h; simp [calm] at h
  · intro d h; simp [calm] at h
  · intro cs _ h; simp [calm] at h
  · intro n a cs ih h
    rw [removeIn, ih (calm_elem h).2]
  · intro _; rfl
  · intro n ns ih1 ih2 h
    simp only [calmL, Bool.and_eq_true] at h
    have hr : isRemoved n.name = false := by
      cases n with
      | elem m a cs => exact (calm_elem h.1).1.removed
      | text d => rw [Node.name]; decide
      | comment d => simp [calm] at h
      | doctype d => simp [calm] at h
      | document d => simp [calm] at h
    rw [removeInL, if_neg (by simp [hr]), ih1 h.1, ih2 h.2]

theorem mergeText_calm : (∀ n : Node, calm n = true → mergeText n = n) ∧
    (∀ ns : List Node, calmL ns = true → apart ns = true → mergeTextGo none ns = ns ∧
      ∀ p, (∀ m ms, ns = m :: ms → textNode m = false) → mergeTextGo (some p) ns = .text p :: ns) := by
  apply Verif.Dom.induct (P := fun n => calm n = true → mergeText n = n)
    (Q := fun ns => calmL ns = true → apart ns = true → mergeTextGo none ns = ns ∧
      ∀ p, (∀ m ms, ns = m :: ms → textNode m = false) → mergeTextGo (some p) ns = .text p :: ns)
  · intro d _; rw [mergeText]
  · intro d h; simp [calm] at h
  · intro d h; simp [calm] at h
  · intro cs _ h; simp [calm] at h
  · intro n a cs ih h
    rw [mergeText, (ih (calm_elem h).2 (calm_elem h).1.apart).1]
  · intro _ _; exact ⟨by simp [mergeTextGo, flush], fun p _ => by simp [mergeTextGo, flush]⟩
  · intro n ns ih1 ih2 h hap
    simp only [calmL, Bool.and_eq_true] at h
    have ih2 := ih2 h.2 (apart_tail hap)
    cases n with
    | elem m a cs =>
      refine ⟨?_, fun p _ => ?_⟩
      · simp only [mergeTextGo, flush, ih1 h.1, ih2.1, List.nil_append]
      · simp only [mergeTextGo, flush, ih1 h.1, ih2.1, List.singleton_append]
    | text d =>
      refine ⟨?_, fun p hp => ?_⟩
      · simp only [mergeTextGo]
        refine ih2.2 d ?_
        rintro m ms rfl
        simp only [apart, Bool.and_eq_true] at hap
        simpa [textNode] using hap.1.2
      · have := hp _ _ rfl; simp [textNode] at this
    | comment d => simp [calm] at h
    | doctype d => simp [calm] at h
    | document d => simp [calm] at h

theorem renameFakeSpans_calm (T : NameTables) : (∀ n : Node, calm n = true → renameFakeSpans T n = n) ∧
    (∀ ns : List Node, calmL ns = true → renameFakeSpansL T ns = ns) := by
  apply Verif.Dom.induct (P := fun n => calm n = true → renameFakeSpans T n = n)
    (Q := fun ns => calmL ns = true → renameFakeSpansL T ns = ns)
  · intro d _; rfl
  · intro d h; simp [calm] at h
  · intro d h; simp [calm] at h
  · intro cs _ h; simp [calm] at h
  · intro n a cs ih h
    rw [renameFakeSpans, ih (calm_elem h).2, if_neg (fun hh => (calm_elem h).1.span hh.1)]
  · intro _; rfl
  · intro n ns ih1 ih2 h
    simp only [calmL, Bool.and_eq_true] at h
    rw [renameFakeSpansL, ih1 h.1, ih2 h.2]

/-- A kind of inline elements. -/
def InlKind (m : Bytes → Bool) : Prop := ∀ n, m n = true → isInl n = true

mutual
/-- No element of the same kind is in an element; `anc` are the names of the elements around. -/
def once (same : Bytes → Bytes → Bool) (anc : List Bytes) : Node → Bool
  | .elem n _ cs => !(same n n && anc.any (same n)) && onceL same (n :: anc) cs
  | .text _ | .comment _ | .doctype _ | .document _ => true
/-- The same for trees that follow each other. -/
def onceL (same : Bytes → Bytes → Bool) (anc : List Bytes) : List Node → Bool
  | [] => true
  | n :: ns => once same anc n && onceL same anc ns
end

theorem onceL_append (same : Bytes → Bytes → Bool) (anc : List Bytes) (a b : List Node) :
    onceL same anc (a ++ b) = (onceL same anc a && onceL same anc b) := by
  induction a with
  | nil => simp [onceL]
  | cons n a ih => simp [onceL, ih, Bool.and_assoc]

theorem removeRedundant_calm (same : Bytes → Bytes → Bool) :
    (∀ n : Node, calm n = true → ∀ anc, once same anc n = true → removeRedundantIn same anc n = [n]) ∧
    (∀ ns : List Node, calmL ns = true → ∀ anc, onceL same anc ns = true → removeRedundantL same anc ns = ns) := by
  apply Verif.Dom.induct (P := fun n => calm n = true → ∀ anc, once same anc n = true → removeRedundantIn same anc n = [n])
    (Q := fun ns => calmL ns = true → ∀ anc, onceL same anc ns = true → removeRedundantL same anc ns = ns)
  · intro d _ _ _; rfl
  · intro d h; simp [calm] at h
  · intro d h; simp [calm] at h
  · intro cs _ h; simp [calm] at h
  · intro n a cs ih h anc hanc
    simp only [once, Bool.and_eq_true, Bool.not_eq_true'] at hanc
    rw [removeRedundantIn, if_neg (by rw [hanc.1]; simp), ih (calm_elem h).2 _ hanc.2]
  · intro _ _ _; rfl
  · intro n ns ih1 ih2 h anc hanc
    simp only [calmL, onceL, Bool.and_eq_true] at h hanc
    rw [removeRedundantL, ih1 h.1 anc hanc.1, ih2 h.2 anc hanc.2]; rfl

/-! Merging -/

theorem kinds_inl : ∀ m ∈ kinds, InlKind m := by
  intro m hm n h
  simp only [kinds, List.mem_cons, List.not_mem_nil, or_false] at hm
  rcases hm with rfl | rfl | rfl <;> simp [isInl, h]

theorem collectL_calm {m : Bytes → Bool} (hm : m ∈ kinds) {n : Node} {a cs c ns}
    (hc : calm c = true) (hmn : m n.name = true) (hn : n = .elem n.name a cs) (hap : apart (n :: c :: ns) = true) :
    collectL m (c :: ns) = ⟨[], c :: ns, false⟩ := by
  have hin : kindNode m n = true := by rw [hn]; exact hmn
  cases c with
  | elem k b ks =>
    have hk : m k = false := by
      rw [← Bool.not_eq_true]; intro hk
      have h2 : kindNode m (.elem k b ks) = true := hk
      have h3 : alike n (.elem k b ks) = true := by
        rw [alike, List.any_eq_true]
        exact ⟨m, hm, by rw [hin, h2]; rfl⟩
      simp [apart, h3] at hap
    have hsp := (calm_elem hc).1.span
    simp only [collectL, collectNode]
    rw [if_neg hsp]
    simp [hk]
  | text d => simp [collectL, collectNode]
  | comment d => simp [calm] at hc
  | doctype d => simp [calm] at hc
  | document d => simp [calm] at hc

theorem mergeStep_calm {m : Bytes → Bool} (hm : m ∈ kinds) {n : Node} {cs : List Node} {fs : List (List Node)}
    (h : ∀ f ∈ (n :: cs) :: fs, apart f = true ∧ calmL f = true) : mergeStep m n cs fs = n.children :: cs :: fs := by
  rw [mergeStep]
  split
  · rename_i hh
    have h0 := h _ (List.mem_cons_self)
    have hcalm := h0.2
    simp only [calmL, Bool.and_eq_true] at hcalm
    simp only [Bool.and_eq_true] at hh
    cases cs with
    | nil => simp at hh
    | cons c cs =>
      simp only [calmL, Bool.and_eq_true] at hcalm
      cases n with
      | elem k a ks =>
        rw [collectFrames, collectL_calm hm hcalm.2.1 hh.1 rfl h0.1]
        simp
      | text d =>
        exfalso
        have := kinds_inl m hm _ hh.1
        revert this; rw [Node.name]; decide
      | comment d => simp [calm] at hcalm
      | doctype d => simp [calm] at hcalm
      | document d => simp [calm] at hcalm
  · rfl

theorem withChildren_children (n : Node) : withChildren n n.children = n := by cases n <;> rfl

theorem calm_children {n : Node} (h : calm n = true) : apart n.children = true ∧ calmL n.children = true := by
  cases n with
  | elem k a ks => exact ⟨(calm_elem h).1.apart, (calm_elem h).2⟩
  | text d => exact ⟨rfl, rfl⟩
  | comment d => simp [calm] at h
  | doctype d => simp [calm] at h
  | document d => simp [calm] at h

theorem mergeAdjacentF_calm {m : Bytes → Bool} (hm : m ∈ kinds) : ∀ fs : List (List Node),
    (∀ f ∈ fs, apart f = true ∧ calmL f = true) → mergeAdjacentF m fs = fs := by
  have step : ∀ (n : Node) (cs : List Node) (fs : List (List Node)),
      ((∀ f ∈ mergeStep m n cs fs, apart f = true ∧ calmL f = true) →
        mergeAdjacentF m (mergeStep m n cs fs) = mergeStep m n cs fs) →
      (∀ f ∈ (n :: cs) :: fs, apart f = true ∧ calmL f = true) → mergeAdjacentF m ((n :: cs) :: fs) = (n :: cs) :: fs := by
    intro n cs fs ih h
    have hstep := mergeStep_calm hm h
    rw [hstep] at ih
    have h0 := h _ (List.mem_cons_self)
    have hc := h0.2
    simp only [calmL, Bool.and_eq_true] at hc
    rw [mergeAdjacentF, hstep, ih]
    · simp [withChildren_children]
    · intro f hf
      rcases List.mem_cons.1 hf with rfl | hf
      · exact calm_children hc.1
      · rcases List.mem_cons.1 hf with rfl | hf
        · exact ⟨apart_tail h0.1, hc.2⟩
        · exact h f (by simp [hf])
  intro fs
  induction fs using mergeAdjacentF.induct (m := m) with
  | case1 => intro _; rw [mergeAdjacentF]
  | case2 fs ih => intro h; rw [mergeAdjacentF, ih (fun f hf => h f (by simp [hf]))]
  | case3 n cs fs _ _ _ _ ih => exact step n cs fs ih
  | case4 n cs fs _ ih => exact step n cs fs ih

theorem mergeAdjacent_calm {m : Bytes → Bool} (hm : m ∈ kinds) {cs : List Node} (h : calmL cs = true)
    (ha : apart cs = true) : mergeAdjacent m (.document cs) = .document cs := by
  rw [mergeAdjacent, mergeAdjacentF]
  have : mergeStep m (.document cs) [] [] = [cs, []] := by simp [mergeStep, Node.children]
  rw [this, mergeAdjacentF_calm hm]
  · rfl
  · intro f hf
    simp only [List.mem_cons, List.not_mem_nil, or_false] at hf
    rcases hf with rfl | rfl
    · exact ⟨ha, h⟩
    · exact ⟨rfl, rfl⟩

/-! Empty code -/

theorem removeEmptyCode_calm : (∀ n : Node, calm n = true → removeEmptyCode n = n) ∧
    (∀ ns : List Node, calmL ns = true → removeEmptyCodeL ns = ns) := by
  apply Verif.Dom.induct (P := fun n => calm n = true → removeEmptyCode n = n)
    (Q := fun ns => calmL ns = true → removeEmptyCodeL ns = ns)
  · intro d _; rfl
  · intro d h; simp [calm] at h
  · intro d h; simp [calm] at h
  · intro cs _ h; simp [calm] at h
  · intro n a cs ih h
    rw [removeEmptyCode, ih (calm_elem h).2]
  · intro _; rfl
  · intro n ns ih1 ih2 h
    simp only [calmL, Bool.and_eq_true] at h
    rw [removeEmptyCodeL, if_neg, ih1 h.1, ih2 h.2]
    rintro ⟨hn, ht⟩
    cases n with
    | elem k a ks =>
      rw [Node.name] at hn; subst hn
      obtain ⟨t, ht0, rfl⟩ := (calm_elem h.1).1.code (.inl (by decide))
      cases t with
      | nil => exact ht0 rfl
      | cons b t => simp [hasText, hasTextL] at ht
    | text d => rw [Node.name] at hn; revert hn; decide
    | comment d => simp [calm] at h
    | doctype d => simp [calm] at h
    | document d => simp [calm] at h

/-! Swapping -/

theorem swapTags_calm {outer inner : Bytes → Bool}
    (ho : ∀ n cs m a ks, outer n = true → CE n cs → (cs.filter fun c => !isEmptyText c) = [.elem m a ks] → inner m = false) :
    (∀ n : Node, calm n = true → swapTags outer inner n = n) ∧
    (∀ ns : List Node, calmL ns = true → swapTagsL outer inner ns = ns) := by
  apply Verif.Dom.induct (P := fun n => calm n = true → swapTags outer inner n = n)
    (Q := fun ns => calmL ns = true → swapTagsL outer inner ns = ns)
  · intro d _; rfl
  · intro d h; simp [calm] at h
  · intro d h; simp [calm] at h
  · intro cs _ h; simp [calm] at h
  · intro n a cs ih h
    have ih := ih (calm_elem h).2
    rw [swapTags]
    split
    · rename_i n' a' ks heq
      rw [if_neg, ih]
      intro hh
      simp only [Bool.and_eq_true] at hh
      have := ho _ _ _ _ _ hh.1 (calm_elem h).1 heq
      rw [hh.2] at this
      cases this
    · rw [ih]
  · intro _; rfl
  · intro n ns ih1 ih2 h
    simp only [calmL, Bool.and_eq_true] at h
    rw [swapTagsL, ih1 h.1, ih2 h.2]

theorem filter_mem {cs : List Node} {c : Node} (h : (cs.filter fun c => !isEmptyText c) = [c]) : c ∈ cs := by
  have : c ∈ cs.filter fun c => !isEmptyText c := by rw [h]; simp
  exact (List.mem_filter.1 this).1

theorem swap_code : ∀ n cs m a ks, DomUtils.isInlineCode n = true → CE n cs → (cs.filter fun c => !isEmptyText c) = [.elem m a ks] → isPre m = false := by
  intro n cs m a ks hn h hf
  obtain ⟨t, -, rfl⟩ := h.code (.inl hn)
  have := filter_mem hf
  simp at this

theorem swap_emph : ∀ n cs m a ks, isBoldOrItalic n = true → CE n cs → (cs.filter fun c => !isEmptyText c) = [.elem m a ks] → isLink m = false := by
  intro n cs m a ks hn h hf
  have := h.ends hn
  rw [calmEnds, hf] at this
  simp only [Bool.and_eq_true, kindNode] at this
  simpa using this.2

theorem swap_link : ∀ n cs m a ks, isLink n = true → CE n cs → (cs.filter fun c => !isEmptyText c) = [.elem m a ks] → isHeading m = false := by
  intro n cs m a ks hn h hf
  have hs : getStructure n = .inline := by
    have : n = b!"a" := by simpa [isLink] using hn
    rw [this]; decide
  have := h.leaf (.inr hs) _ (filter_mem hf)
  simp only [leafChild, Bool.or_eq_true, Bool.and_eq_true, decide_eq_true_eq] at this
  rcases this with hi | ⟨rfl, -⟩
  · simp only [isInl, isBoldOrItalic, isBold, isItalic, DomUtils.isInlineCode, isLink, isStrike, Bool.or_eq_true, decide_eq_true_eq] at hi
    rcases hi with ((((rfl|rfl)|(rfl|rfl))|(rfl|rfl|rfl|rfl|rfl))|rfl)|(rfl|rfl|rfl) <;> decide
  · decide

/-! Spaces -/

theorem isInl_text : isInl b!"#text" = false := by decide

theorem go_first {cs : List Node} (h : calmL cs = true) (hne : cs ≠ []) (hc : cs.head?.any (kindNode DomUtils.isInlineCode) = false) (rest : List Ev) :
    firstIsInner DomUtils.isInlineCode (eventsL cs ++ rest) = false := by
  cases cs with
  | nil => exact absurd rfl hne
  | cons c cs =>
    simp only [calmL, Bool.and_eq_true] at h
    cases c with
    | text d => rw [eventsL, events]; simp only [List.cons_append, firstIsInner, firstIsInner.go]; decide
    | elem n a ks =>
      have hs := (calm_elem h.1).1.span
      have hk : DomUtils.isInlineCode n = false := by simpa [kindNode] using hc
      rw [eventsL, events]
      simp only [List.cons_append, firstIsInner, firstIsInner.go]
      rw [if_neg hs, hk]
    | comment d => simp [calm] at h
    | doctype d => simp [calm] at h
    | document d => simp [calm] at h

/-- The last event of a tree. -/
def lastEv : Node → Ev
  | .elem n _ _ => .cl n
  | .text _ => .text
  | .comment d => .comment d
  | .doctype _ => .cl b!"#doctype"
  | .document _ => .cl b!"#document"

theorem events_last (n : Node) : ∃ evs, events n = evs ++ [lastEv n] := by
  cases n with
  | elem n a ks => exact ⟨.op n :: eventsL ks, by rw [events]; rfl⟩
  | text d => exact ⟨[], by rw [events]; rfl⟩
  | comment d => exact ⟨[], by rw [events]; rfl⟩
  | doctype d => exact ⟨[.op b!"#doctype"], by rw [events]; rfl⟩
  | document ks => exact ⟨.op b!"#document" :: eventsL ks, by rw [events]; rfl⟩

theorem eventsL_last : ∀ {cs : List Node} (hne : cs ≠ []), ∃ evs, eventsL cs = evs ++ [lastEv (cs.getLast hne)]
  | [], h => absurd rfl h
  | [c], _ => by
    obtain ⟨e, he⟩ := events_last c
    exact ⟨e, by simp [eventsL, he]⟩
  | c :: d :: cs, _ => by
    obtain ⟨e, he⟩ := eventsL_last (cs := d :: cs) (by simp)
    exact ⟨events c ++ e, by rw [eventsL, he]; simp⟩

theorem go_last {cs : List Node} (h : calmL cs = true) (hne : cs ≠ []) (hc : cs.getLast?.any (kindNode DomUtils.isInlineCode) = false) (rest : List Ev) :
    lastIsInner DomUtils.isInlineCode ((eventsL cs).reverse ++ rest) = false := by
  obtain ⟨evs, e⟩ := eventsL_last hne
  have hm := calmL_mem h _ (List.getLast_mem hne)
  rw [List.getLast?_eq_some_getLast hne] at hc
  rw [e]
  generalize cs.getLast hne = c at *
  simp only [List.reverse_append, List.reverse_cons, List.reverse_nil, List.nil_append, List.cons_append]
  cases c with
  | text d => simp only [lastEv, lastIsInner, lastIsInner.go]; decide
  | elem n a ks =>
    have hs := (calm_elem hm).1.span
    have hk : DomUtils.isInlineCode n = false := by simpa [kindNode] using hc
    simp only [lastEv, lastIsInner, lastIsInner.go]
    rw [if_neg hs, hk]
  | comment d => simp [calm] at hm
  | doctype d => simp [calm] at hm
  | document d => simp [calm] at hm

theorem addedSpaces_calm :
    (∀ n : Node, calm n = true → ∀ before k rest, ∃ k',
      addedSpaces isBoldOrItalic DomUtils.isInlineCode before k (events n ++ rest) =
        addedSpaces isBoldOrItalic DomUtils.isInlineCode ((events n).reverse ++ before) k' rest) ∧
    (∀ ns : List Node, calmL ns = true → ∀ before k rest, ∃ k',
      addedSpaces isBoldOrItalic DomUtils.isInlineCode before k (eventsL ns ++ rest) =
        addedSpaces isBoldOrItalic DomUtils.isInlineCode ((eventsL ns).reverse ++ before) k' rest) := by
  apply Verif.Dom.induct (P := fun n => calm n = true → ∀ before k rest, ∃ k',
      addedSpaces isBoldOrItalic DomUtils.isInlineCode before k (events n ++ rest) =
        addedSpaces isBoldOrItalic DomUtils.isInlineCode ((events n).reverse ++ before) k' rest)
    (Q := fun ns => calmL ns = true → ∀ before k rest, ∃ k',
      addedSpaces isBoldOrItalic DomUtils.isInlineCode before k (eventsL ns ++ rest) =
        addedSpaces isBoldOrItalic DomUtils.isInlineCode ((eventsL ns).reverse ++ before) k' rest)
  · intro d _ before k rest; exact ⟨k + 1, by simp [events, addedSpaces]⟩
  · intro d h; simp [calm] at h
  · intro d h; simp [calm] at h
  · intro cs _ h; simp [calm] at h
  · intro n a cs ih h before k rest
    obtain ⟨k', h'⟩ := ih (calm_elem h).2 (.op n :: before) k (.cl n :: rest)
    refine ⟨k', ?_⟩
    have f1 : (isBoldOrItalic n && firstIsInner DomUtils.isInlineCode (eventsL cs ++ .cl n :: rest) && prevIsText before) = false := by
      cases hn : isBoldOrItalic n with
      | false => rfl
      | true =>
        have he := (calm_elem h).1.ends hn
        simp only [calmEnds, Bool.and_eq_true, Bool.not_eq_true'] at he
        rw [go_first (calm_elem h).2 ((calm_elem h).1.inl (by simp [isInl, hn])) he.1.1]; rfl
    have f2 : (isBoldOrItalic n && lastIsInner DomUtils.isInlineCode ((eventsL cs).reverse ++ .op n :: before) && nextIsText rest) = false := by
      cases hn : isBoldOrItalic n with
      | false => rfl
      | true =>
        have he := (calm_elem h).1.ends hn
        simp only [calmEnds, Bool.and_eq_true, Bool.not_eq_true'] at he
        rw [go_last (calm_elem h).2 ((calm_elem h).1.inl (by simp [isInl, hn])) he.1.2]; rfl
    have e : events (.elem n a cs) ++ rest = .op n :: (eventsL cs ++ .cl n :: rest) := by simp [events]
    have e2 : (events (.elem n a cs)).reverse ++ before = .cl n :: ((eventsL cs).reverse ++ .op n :: before) := by simp [events]
    rw [e, e2, addedSpaces]
    simp only [f1, Bool.false_eq_true, if_false]
    rw [if_neg (by simp), h', addedSpaces]
    simp only [f2, Bool.false_eq_true, if_false]
    rw [if_neg (by simp)]
  · intro _ before k rest; exact ⟨k, rfl⟩
  · intro n ns ih1 ih2 h before k rest
    simp only [calmL, Bool.and_eq_true] at h
    obtain ⟨k1, h1⟩ := ih1 h.1 before k (eventsL ns ++ rest)
    obtain ⟨k2, h2⟩ := ih2 h.2 ((events n).reverse ++ before) k1 rest
    exact ⟨k2, by rw [eventsL, List.append_assoc, h1, h2]; simp⟩

theorem mapTexts_id : (∀ (n : Node) k, (mapTexts (fun _ d => d) k n).1 = n) ∧
    (∀ (ns : List Node) k, (mapTextsL (fun _ d => d) k ns).1 = ns) := by
  apply Verif.Dom.induct (P := fun n => ∀ k, (mapTexts (fun _ d => d) k n).1 = n)
    (Q := fun ns => ∀ k, (mapTextsL (fun _ d => d) k ns).1 = ns)
  · intro d k; rfl
  · intro d k; rfl
  · intro d k; rfl
  · intro cs ih k; simp [mapTexts, ih]
  · intro n a cs ih k; simp [mapTexts, ih]
  · intro k; rfl
  · intro n ns ih1 ih2 k; simp [mapTextsL, ih1, ih2]

theorem addSpace_calm {cs : List Node} (h : calmL cs = true) :
    addSpace isBoldOrItalic DomUtils.isInlineCode (.document cs) = .document cs := by
  have hod : isBoldOrItalic b!"#document" = false := by decide
  have : addedSpaces isBoldOrItalic DomUtils.isInlineCode [] 0 (events (.document cs)) = ([], []) := by
    obtain ⟨k', h'⟩ := addedSpaces_calm.2 cs h [.op b!"#document"] 0 [.cl b!"#document"]
    rw [events, addedSpaces]
    simp only [hod, Bool.false_and, Bool.false_eq_true, if_false]
    rw [if_neg (by simp), h', addedSpaces]
    simp [hod, addedSpaces]
  rw [addSpace, this]
  simp [mapTexts_id]

/-! Alternatives -/

theorem isInl_structure (n : Bytes) (h : isInl n = true) : getStructure n ≠ .container ∧ getStructure n ≠ .leaf := by
  simp only [isInl, isBoldOrItalic, isBold, isItalic, DomUtils.isInlineCode, isLink, isStrike, Bool.or_eq_true,
    decide_eq_true_eq] at h
  rcases h with ((((rfl|rfl)|(rfl|rfl))|(rfl|rfl|rfl|rfl|rfl))|rfl)|(rfl|rfl|rfl) <;> decide

theorem leaf_not_inline {n : Bytes} : getStructure n = .leaf → getStructure n ≠ .inline := by
  intro h; rw [h]; decide

/-- The children of an inline element. -/
theorem inl_children {n : Bytes} {cs : List Node} (hn : isInl n = true) (h : CE n cs) : ∀ c ∈ cs, leafChild c = true := by
  by_cases hc : DomUtils.isInlineCode n = true ∨ isStrike n = true
  · obtain ⟨t, -, rfl⟩ := h.code hc
    simp [leafChild]
  · refine h.leaf (.inr ?_)
    simp only [not_or, Bool.not_eq_true] at hc
    simp only [isInl, hc.1, hc.2, Bool.or_false, isBoldOrItalic, isBold, isItalic, isLink, Bool.or_eq_true, decide_eq_true_eq] at hn
    rcases hn with ((rfl | rfl) | (rfl | rfl)) | rfl <;> decide

/-- Texts and inline elements stay as they are. -/
theorem leafAlternatives_leaf :
    (∀ n : Node, ∀ l i, leafChild n = true → calm n = true → leafAlternativesIn l i n = [n]) ∧
    (∀ cs : List Node, ∀ l i, (∀ c ∈ cs, leafChild c = true) → calmL cs = true → leafAlternativesL l i cs = cs) := by
  apply Verif.Dom.induct (P := fun n => ∀ l i, leafChild n = true → calm n = true → leafAlternativesIn l i n = [n])
    (Q := fun cs => ∀ l i, (∀ c ∈ cs, leafChild c = true) → calmL cs = true → leafAlternativesL l i cs = cs)
  · intro d l i _ _; rfl
  · intro d l i _ h; simp [calm] at h
  · intro d l i _ h; simp [calm] at h
  · intro cs _ l i _ h; simp [calm] at h
  · intro n a cs ih l i hl h
    simp only [leafChild, Bool.or_eq_true, Bool.and_eq_true, decide_eq_true_eq, List.isEmpty_iff] at hl
    rcases hl with hl | ⟨rfl, rfl⟩
    · have := isInl_structure n hl
      rw [leafAlternativesIn, ih _ _ (inl_children hl (calm_elem h).1) (calm_elem h).2]
      simp only [this.1, this.2, or_self, false_and, if_false]
    · rw [leafAlternativesIn]
      have e : getStructure b!"img" ≠ .leaf ∧ getStructure b!"img" ≠ .container := by decide
      simp [e.1, e.2, leafAlternativesL]
  · intro l i _ _; rfl
  · intro c cs ih1 ih2 l i h hc
    simp only [calmL, Bool.and_eq_true] at hc
    rw [leafAlternativesL, ih1 l i (h c (by simp)) hc.1, ih2 l i (fun c' hc' => h c' (by simp [hc'])) hc.2]; rfl

theorem leafAlternatives_calm :
    (∀ n : Node, calm n = true → leafAlternativesIn false false n = [n]) ∧
    (∀ ns : List Node, calmL ns = true → leafAlternativesL false false ns = ns) := by
  apply Verif.Dom.induct (P := fun n => calm n = true → leafAlternativesIn false false n = [n])
    (Q := fun ns => calmL ns = true → leafAlternativesL false false ns = ns)
  · intro d _; rfl
  · intro d h; simp [calm] at h
  · intro d h; simp [calm] at h
  · intro cs _ h; simp [calm] at h
  · intro n a cs ih h
    rw [leafAlternativesIn]
    simp only [Bool.false_or, Bool.or_self, Bool.false_eq_true, and_false, if_false]
    by_cases hl : getStructure n = .leaf ∨ getStructure n = .inline
    · rw [leafAlternatives_leaf.2 cs _ _ ((calm_elem h).1.leaf hl) (calm_elem h).2]
    · rw [decide_eq_false (fun h => hl (.inl h)), decide_eq_false (fun h => hl (.inr h)), ih (calm_elem h).2]
  · intro _; rfl
  · intro n ns ih1 ih2 h
    simp only [calmL, Bool.and_eq_true] at h
    rw [leafAlternativesL, ih1 h.1, ih2 h.2]; rfl

/-! List items -/

theorem moveItemsGo_calm : ∀ (cs : List Node) (cur : Option (List (Bytes × Bytes) × List Node × List Node)),
    (∀ c ∈ cs, isLi c = true ∨ isEmptyText c = true) →
    moveItemsGo cur cs = (match cur with | none => [] | some (a, ks, blanks) => .elem b!"li" a ks :: blanks) ++ cs := by
  intro cs
  induction cs with
  | nil => intro cur _; rcases cur with _ | ⟨a, ks, bl⟩ <;> simp [moveItemsGo]
  | cons c cs ih =>
    intro cur h
    have h' : ∀ c ∈ cs, isLi c = true ∨ isEmptyText c = true := fun c hc => h c (by simp [hc])
    by_cases hli : isLi c = true
    · rw [moveItemsGo.eq_def]
      simp only
      rw [if_pos hli, ih _ h']
      cases c with
      | elem n a ks =>
        have hn : n = b!"li" := by simpa [isLi] using hli
        subst hn
        rcases cur with _ | ⟨a', ks', bl⟩ <;> simp
      | text d => simp [isLi] at hli
      | comment d => simp [isLi] at hli
      | doctype d => simp [isLi] at hli
      | document d => simp [isLi] at hli
    · have he : isEmptyText c = true := by
        rcases h c (by simp) with h1 | h1
        · exact absurd h1 hli
        · exact h1
      rw [moveItemsGo.eq_def]
      simp only
      rw [if_neg hli, if_pos he]
      rcases cur with _ | ⟨a, ks, bl⟩
      · simp only; rw [ih _ h']; simp
      · simp only; rw [ih _ h']; simp

theorem moveListItems_calm : (∀ n : Node, calm n = true → moveListItems n = n) ∧
    (∀ ns : List Node, calmL ns = true → moveListItemsL ns = ns) := by
  apply Verif.Dom.induct (P := fun n => calm n = true → moveListItems n = n)
    (Q := fun ns => calmL ns = true → moveListItemsL ns = ns)
  · intro d _; rfl
  · intro d h; simp [calm] at h
  · intro d h; simp [calm] at h
  · intro cs _ h; simp [calm] at h
  · intro n a cs ih h
    rw [moveListItems, ih (calm_elem h).2]
    split
    · rename_i hn
      rw [moveItemsGo_calm cs none ((calm_elem h).1.list hn.symm)]; rfl
    · rfl
  · intro _; rfl
  · intro n ns ih1 ih2 h
    simp only [calmL, Bool.and_eq_true] at h
    rw [moveListItemsL, ih1 h.1, ih2 h.2]

/-! ## All of them -/

theorem handlePreRender_calm (T : NameTables) {cs : List Node} (h : calmL cs = true) (ha : apart cs = true)
    (h1 : onceL bothBoldOrItalic [b!"#document"] cs = true) (h2 : onceL bothLink [b!"#document"] cs = true) :
    handlePreRender T (.document cs) = .document cs := by
  rw [handlePreRender]
  simp only [renameFakeSpans, (renameFakeSpans_calm T).2 cs h, removeRedundant, (removeRedundant_calm _).2 cs h _ h1,
    mergeAdjacent_calm (m := isBoldOrItalic) (by simp [kinds]) h ha, removeEmptyCode, removeEmptyCode_calm.2 cs h, swapTags, (swapTags_calm swap_code).2 cs h,
    mergeAdjacent_calm (m := DomUtils.isInlineCode) (by simp [kinds]) h ha, addSpace_calm h, (removeRedundant_calm _).2 cs h _ h2,
    (swapTags_calm swap_emph).2 cs h, (swapTags_calm swap_link).2 cs h, leafAlternatives, leafAlternativesIn,
    leafAlternatives_calm.2 cs h, moveListItems, moveListItems_calm.2 cs h, List.headD_cons]

theorem strikePreRender_calm (E : Env) {cs : List Node} (h : calmL cs = true) (ha : apart cs = true) (h1 : onceL bothStrike [b!"#document"] cs = true) :
    strikePreRender E (.document cs) = .document cs := by
  rw [strikePreRender]
  split
  · rw [removeRedundant, (removeRedundant_calm _).2 cs h _ h1, mergeAdjacent_calm (m := isStrike) (by simp [kinds]) h ha]
  · rfl

end Verif.Calm
