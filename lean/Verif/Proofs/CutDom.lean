import Verif.Spec.Sections
import Verif.Proofs.PageTree
import Verif.Proofs.DomSpace
import Verif.Proofs.DomText
import Verif.Proofs.DomListEnd
import Verif.Proofs.CollapseTwice
/-!
# Rules and titles in the steps before the rendering

What is before a rule (or a block with a plain text) and what is behind it do not see each other; the tree is in `Verif.Proofs.CutTree`.
-/
set_option linter.unusedSimpArgs false

namespace Verif.Cut
open Verif Verif.Spec Verif.DomUtils Verif.Dom

/-- A rule (without a text), or a paragraph or heading with a text. -/
def sep (m : Bytes) (a : List (Bytes × Bytes)) (t : Option Bytes) : Node := .elem m a (t.toList.map .text)

theorem sep_rule (a : List (Bytes × Bytes)) : rule a = sep b!"hr" a none := rfl

variable {w : List (Bytes × List (Bytes × Bytes))} {sn : Bytes} {a : List (Bytes × Bytes)} {t : Option Bytes}

/-- What is needed about the names of the containers. -/
structure Fine (n : Bytes) : Prop where
  bold : isBoldOrItalic n = false
  code : isInlineCode n = false
  link : isLink n = false
  strike : Render.isStrike n = false
  kept : Render.isRemoved n = false
  list : isListName n = false
  span : n ≠ b!"span"
  code' : n ≠ b!"code"
  pre : n ≠ b!"pre"
  struct : getStructure n ≠ .leaf ∧ getStructure n ≠ .inline

theorem fine_of {n : Bytes} (h : n ∉ markdownNames) : Fine n := by
  simp only [markdownNames, List.mem_cons, List.not_mem_nil, or_false, not_or] at h
  refine ⟨?_, ?_, ?_, ?_, ?_, ?_, ?_, ?_, ?_, ?_⟩
  · simp [isBoldOrItalic, isBold, isItalic, h]
  · simp [isInlineCode, h]
  · simp [isLink, h]
  · simp [Render.isStrike, h]
  · simp [Render.isRemoved, baseRemoves, h]
  · simp [isListName, h]
  · simp [h]
  · simp [h]
  · simp [h]
  · have h1 : n ∉ [b!"hr", b!"pre", b!"h1", b!"h2", b!"h3", b!"h4", b!"h5", b!"h6"] := by simp [h]
    have h2 : n ∉ [b!"#text", b!"span", b!"code", b!"b", b!"strong", b!"i", b!"em", b!"a", b!"img", b!"br"] := by simp [h]
    rw [getStructure, if_neg h1, if_neg h2]
    split <;> simp

/-- What is needed about the name of a separator. -/
structure CutName (m : Bytes) : Prop where
  bold : isBoldOrItalic m = false
  code : isInlineCode m = false
  link : isLink m = false
  strike : Render.isStrike m = false
  kept : Render.isRemoved m = false
  list : isListName m = false
  span : m ≠ b!"span"
  code' : m ≠ b!"code"

structure SepName (m : Bytes) : Prop extends CutName m where
  pre : m ≠ b!"pre"

def Good (w : List (Bytes × List (Bytes × Bytes))) : Prop := ∀ x ∈ w, Fine x.1

theorem Good.head {x w} (h : Good (x :: w)) : Fine x.1 := h x (by simp)
theorem Good.tail {x w} (h : Good (x :: w)) : Good w := fun y hy => h y (by simp [hy])

/-! ## Steps that go through the tree -/

theorem removeInL_append (r : Bytes → Bool) (A B : List Node) : removeInL r (A ++ B) = removeInL r A ++ removeInL r B := by
  induction A with
  | nil => rfl
  | cons n A ih => simp only [List.cons_append, removeInL]; split <;> simp [ih]

theorem redundantL_append (same : Bytes → Bytes → Bool) (anc : List Bytes) (A B : List Node) :
    removeRedundantL same anc (A ++ B) = removeRedundantL same anc A ++ removeRedundantL same anc B := by
  induction A with
  | nil => rfl
  | cons n A ih => simp [removeRedundantL, ih]

theorem swap_elem {outer inner : Bytes → Bool} {n : Bytes} (h : outer n = false) (a : List (Bytes × Bytes)) (cs : List Node) :
    swapTags outer inner (.elem n a cs) = .elem n a (swapTagsL outer inner cs) := by
  rw [swapTags]
  split <;> simp [h]

theorem leafL_append (A B : List Node) : leafAlternativesL false false (A ++ B) = leafAlternativesL false false A ++ leafAlternativesL false false B := by
  induction A with
  | nil => rfl
  | cons n A ih => simp [leafAlternativesL, ih]

/-! ## Merging of adjacent elements -/

/-- Add something at the end of the last list. -/
def addLast (T : List Node) : List (List Node) → List (List Node)
  | [] => []
  | [f] => [f ++ T]
  | f :: g :: fs => f :: addLast T (g :: fs)

theorem addLast_cons (T f : List Node) {fs : List (List Node)} (h : fs ≠ []) : addLast T (f :: fs) = f :: addLast T fs := by
  cases fs with
  | nil => exact absurd rfl h
  | cons g fs => rfl

theorem merge_empties (m : Bytes → Bool) (fs : List (List Node)) : ∀ k, mergeAdjacentF m (fs ++ List.replicate k []) = mergeAdjacentF m fs ++ List.replicate k [] := by
  have hcol0 : ∀ k, collectFrames m (List.replicate k []) = ([], List.replicate k []) := by
    intro k
    induction k with
    | zero => rfl
    | succ k ih => simp [List.replicate_succ, collectFrames, collectL, ih]
  have hcol : ∀ (fs : List (List Node)) k, collectFrames m (fs ++ List.replicate k []) = ((collectFrames m fs).1, (collectFrames m fs).2 ++ List.replicate k []) := by
    intro fs k
    induction fs with
    | nil => simp [hcol0, collectFrames]
    | cons f fs ih =>
      simp only [List.cons_append, collectFrames, ih]
      split <;> simp
  have hstep : ∀ n cs (fs : List (List Node)) k, mergeStep m n cs (fs ++ List.replicate k []) = mergeStep m n cs fs ++ List.replicate k [] := by
    intro n cs fs k
    have := hcol (cs :: fs) k
    rw [List.cons_append] at this
    simp only [mergeStep, this]
    split <;> simp
  have h0 : ∀ k, mergeAdjacentF m (List.replicate k []) = List.replicate k [] := by
    intro k
    induction k with
    | zero => rw [List.replicate_zero, mergeAdjacentF]
    | succ k ih => rw [List.replicate_succ, mergeAdjacentF, ih]
  fun_induction mergeAdjacentF m fs with
  | case1 => intro k; simp [h0]
  | case2 fs ih => intro k; rw [List.cons_append, mergeAdjacentF, ih, List.cons_append]
  | case3 n cs fs ks cs' fs' e ih =>
    intro k
    rw [List.cons_append, mergeAdjacentF, hstep, ih, e]
    rfl
  | case4 n cs fs e ih =>
    have hl := mergeAdjacentF_length m (mergeStep m n cs fs)
    have h2 : 2 ≤ (mergeStep m n cs fs).length := by
      rw [mergeStep]
      split
      · have := collectFrames_length m (cs :: fs); simp [this]
      · simp
    rcases hg : mergeAdjacentF m (mergeStep m n cs fs) with _ | ⟨x, _ | ⟨y, z⟩⟩
    · rw [hg] at hl; simp at hl; omega
    · rw [hg] at hl; simp at hl; omega
    · exact absurd hg (e x y z)

/-! ## The walk -/

theorem evTexts_append (x y : List Ev) : evTexts (x ++ y) = evTexts x + evTexts y := List.countP_append

/-! ## Comments between lists -/

/-- The begin of a rule or of a text: the search for the next list ends here. -/
def Stops (e : Ev) : Prop := e = .op b!"hr" ∨ e = .text

theorem nextIsList_rule {x : Ev} (hx : Stops x) (es rest : List Ev) : nextIsList (es ++ x :: rest) = nextIsList (es ++ [x]) := by
  induction es with
  | nil => rcases hx with rfl | rfl <;> (rw [List.nil_append, List.nil_append, nextIsList, nextIsList]; try rfl)
  | cons e es ih => cases e <;> simp only [List.cons_append, nextIsList, ih]

theorem addListEnd_rule {x : Ev} (hx : Stops x) (rest : List Ev) :
    (∀ n : Node, ∀ es, addListEndIn (es ++ x :: rest) n = addListEndIn (es ++ [x]) n) ∧
    (∀ ns : List Node, ∀ es, addListEndL (es ++ x :: rest) ns = addListEndL (es ++ [x]) ns) := by
  refine Dom.induct ?_ ?_ ?_ ?_ ?_ ?_ ?_
  · intro d es; simp [addListEndIn]
  · intro d es; simp [addListEndIn]
  · intro d es; simp [addListEndIn]
  · intro cs ih es
    have := ih (.cl b!"#document" :: es)
    simp only [List.cons_append] at this
    simp only [addListEndIn, this]
  · intro n a cs ih es
    have := ih (.cl n :: es)
    simp only [List.cons_append] at this
    simp only [addListEndIn, this]
  · intro es; rfl
  · intro n ns ih1 ih2 es
    have h1 := nextIsList_rule hx (eventsL ns ++ es) rest
    have h2 := ih1 (eventsL ns ++ es)
    have h3 := ih1 (.comment listEndComment :: eventsL ns ++ es)
    simp only [List.append_assoc, List.cons_append] at h1 h2 h3
    simp only [addListEndL, List.append_assoc, List.cons_append, h1, h2, h3, ih2]

theorem addListEndL_append (after : List Ev) (A B : List Node) :
    addListEndL after (A ++ B) = addListEndL (eventsL B ++ after) A ++ addListEndL after B := by
  induction A with
  | nil => rfl
  | cons n A ih =>
    simp only [List.cons_append, addListEndL, ih, Dom.eventsL_append, List.append_assoc]
    split <;> simp

/-! ## Spaces between emphasis and code -/

section
variable {outer inner : Bytes → Bool} {sn : Bytes} (hsp : sn ≠ b!"span")
include hsp

theorem firstGo_rule (es rest : List Ev) : firstIsInner.go inner (es ++ .op sn :: rest) = firstIsInner.go inner (es ++ [.op sn]) := by
  induction es with
  | nil => simp [firstIsInner.go, hsp]
  | cons e es ih => cases e <;> simp only [List.cons_append, firstIsInner.go, ih]

theorem first_rule (es rest : List Ev) : firstIsInner inner (es ++ .op sn :: rest) = firstIsInner inner (es ++ [.op sn]) := by
  have h := firstGo_rule hsp (inner := inner) es rest
  cases es with
  | nil => simpa [firstIsInner] using h
  | cons e es =>
    cases e with
    | cl n => simp [firstIsInner]
    | op n => simpa [firstIsInner] using h
    | text => simpa [firstIsInner] using h
    | comment d => simpa [firstIsInner] using h

theorem lastGo_rule (es rest : List Ev) : lastIsInner.go inner (es ++ .cl sn :: rest) = lastIsInner.go inner (es ++ [.cl sn]) := by
  induction es with
  | nil => simp [lastIsInner.go, hsp]
  | cons e es ih => cases e <;> simp only [List.cons_append, lastIsInner.go, ih]

theorem last_rule (es rest : List Ev) : lastIsInner inner (es ++ .cl sn :: rest) = lastIsInner inner (es ++ [.cl sn]) := by
  have h := lastGo_rule hsp (inner := inner) es rest
  cases es with
  | nil => simpa [lastIsInner] using h
  | cons e es =>
    cases e with
    | op n => simp [lastIsInner]
    | cl n => simpa [lastIsInner] using h
    | text => simpa [lastIsInner] using h
    | comment d => simpa [lastIsInner] using h

theorem nextText_rule (es rest : List Ev) : nextIsText (es ++ .op sn :: rest) = nextIsText (es ++ [.op sn]) := by
  induction es with
  | nil => simp [nextIsText, hsp]
  | cons e es ih => cases e <;> simp only [List.cons_append, nextIsText, ih]

theorem prevText_rule (es rest : List Ev) : prevIsText (es ++ .cl sn :: rest) = prevIsText (es ++ [.cl sn]) := by
  induction es with
  | nil => simp [prevIsText, hsp]
  | cons e es ih => cases e <;> simp only [List.cons_append, prevIsText, ih]

theorem nextText_pos (es : List Ev) (h : nextIsText (es ++ [.op sn]) = true) : 1 ≤ evTexts es := by
  induction es with
  | nil => simp [nextIsText, hsp] at h
  | cons e es ih =>
    cases e with
    | cl n => simp only [List.cons_append, nextIsText] at h; have := ih h; simpa [evTexts] using this
    | op n =>
      simp only [List.cons_append, nextIsText] at h
      split at h
      · have := ih h; simpa [evTexts] using this
      · simp at h
    | text => simp [evTexts]
    | comment d => simp [nextIsText] at h

omit hsp in
theorem prevText_pos (es : List Ev) (h : prevIsText es = true) : 1 ≤ evTexts es := by
  induction es with
  | nil => simp [prevIsText] at h
  | cons e es ih =>
    cases e with
    | op n => simp only [prevIsText] at h; have := ih h; simpa [evTexts] using this
    | cl n =>
      simp only [prevIsText] at h
      split at h
      · have := ih h; simpa [evTexts] using this
      · simp at h
    | text => simp [evTexts]
    | comment d => simp [prevIsText] at h

omit hsp in
theorem added_cons (before : List Ev) (k : Nat) (e : Ev) (after : List Ev) : addedSpaces outer inner before k (e :: after) =
    let r := addedSpaces outer inner (e :: before) (if e = .text then k + 1 else k) after
    match e with
    | .op n => if outer n && firstIsInner inner after && prevIsText before then ((k - 1) :: r.1, r.2) else r
    | .cl n => if outer n && lastIsInner inner before && nextIsText after then (r.1, k :: r.2) else r
    | _ => r := by
  cases e <;> rw [addedSpaces.eq_def]

/-- The part of the walk before a rule. -/
theorem added_split (ho : outer sn = false) (rest : List Ev) : ∀ (es before : List Ev) (k : Nat),
    addedSpaces outer inner before k (es ++ .op sn :: rest) =
      ((addedSpaces outer inner before k (es ++ [.op sn])).1 ++ (addedSpaces outer inner (.op sn :: (es.reverse ++ before)) (k + evTexts es) rest).1,
        (addedSpaces outer inner before k (es ++ [.op sn])).2 ++ (addedSpaces outer inner (.op sn :: (es.reverse ++ before)) (k + evTexts es) rest).2) := by
  intro es
  induction es with
  | nil => intro before k; simp [addedSpaces, ho, evTexts]
  | cons e es ih =>
    intro before k
    have h := ih (e :: before) (if e = .text then k + 1 else k)
    have hk : (if e = .text then k + 1 else k) + evTexts es = k + evTexts (e :: es) := by
      by_cases he : e = .text
      · simp [he, evTexts]; omega
      · simp [he, evTexts]
    rw [hk] at h
    rw [List.cons_append, added_cons, List.cons_append, added_cons, h]
    simp only [List.reverse_cons, List.append_assoc, List.singleton_append]
    cases e with
    | op n => simp only [first_rule hsp (inner := inner) es rest]; split <;> simp
    | cl n => simp only [nextText_rule hsp es rest]; split <;> simp
    | text => simp
    | comment d => simp

/-- What is before the rule has no influence behind it. -/
theorem added_forget (b : List Ev) : ∀ (rest u : List Ev) (k : Nat),
    addedSpaces outer inner (u ++ .cl sn :: b) k rest = addedSpaces outer inner (u ++ [.cl sn]) k rest := by
  intro rest
  induction rest with
  | nil => intros; rfl
  | cons e rest ih =>
    intro u k
    have h := ih (e :: u) (if e = .text then k + 1 else k)
    simp only [List.cons_append] at h
    rw [added_cons, added_cons, h, prevText_rule hsp, last_rule hsp]

omit hsp in
theorem added_shift (d : Nat) : ∀ (rest b : List Ev) (k : Nat), (prevIsText b = true → 1 ≤ k) →
    addedSpaces outer inner b (k + d) rest =
      ((addedSpaces outer inner b k rest).1.map (· + d), (addedSpaces outer inner b k rest).2.map (· + d)) := by
  intro rest
  induction rest with
  | nil => intros; rfl
  | cons e rest ih =>
    intro b k hb
    have hk : (if e = .text then k + d + 1 else k + d) = (if e = .text then k + 1 else k) + d := by split <;> omega
    have h := ih (e :: b) (if e = .text then k + 1 else k) (by
      intro hp
      cases e with
      | op n => rw [prevIsText] at hp; simpa using hb hp
      | cl n =>
        rw [prevIsText] at hp
        split at hp
        · simpa using hb hp
        · simp at hp
      | text => simp
      | comment c => simp [prevIsText] at hp)
    rw [added_cons, hk, h, added_cons _ k]
    cases e with
    | op n =>
      simp only
      split
      · rename_i hc
        simp only [Bool.and_eq_true] at hc
        have := hb hc.2
        simp only [List.map_cons, Prod.mk.injEq, List.cons.injEq, and_true]
        omega
      · rfl
    | cl n => simp only; split <;> simp
    | text => rfl
    | comment c => rfl

omit hsp in
theorem count_shift (l : List Nat) (d i : Nat) : (l.map (· + d)).count (i + d) = l.count i := by
  induction l with
  | nil => rfl
  | cons x l ih => simp [List.count_cons, ih]

omit hsp in
theorem count_shift_zero (l : List Nat) (d i : Nat) (h : i < d) : (l.map (· + d)).count i = 0 := by
  rw [List.count_eq_zero]
  intro hm
  obtain ⟨x, -, rfl⟩ := List.mem_map.mp hm
  omega

end

theorem mapTextsL_append (f : Nat → Bytes → Bytes) (A B : List Node) : ∀ k, mapTextsL f k (A ++ B) =
    ((mapTextsL f k A).1 ++ (mapTextsL f (mapTextsL f k A).2 B).1, (mapTextsL f (mapTextsL f k A).2 B).2) := by
  induction A with
  | nil => intro k; simp [mapTextsL]
  | cons n A ih => intro k; simp [mapTextsL, ih]

theorem mapTexts_count (f : Nat → Bytes → Bytes) :
    (∀ n : Node, ∀ k, (mapTexts f k n).2 = k + evTexts (events n)) ∧ (∀ ns : List Node, ∀ k, (mapTextsL f k ns).2 = k + evTexts (eventsL ns)) := by
  refine Dom.induct ?_ ?_ ?_ ?_ ?_ ?_ ?_
  · intro d k; simp [mapTexts, events, evTexts]
  · intro d k; simp [mapTexts, events, evTexts]
  · intro d k; simp [mapTexts, events, evTexts]
  · intro cs ih k
    simp only [mapTexts, ih, events]
    rw [← List.singleton_append, evTexts_append, evTexts_append]
    simp [evTexts]
  · intro n a cs ih k
    simp only [mapTexts, ih, events]
    rw [← List.singleton_append, evTexts_append, evTexts_append]
    simp [evTexts]
  · intro k; rfl
  · intro n ns ih1 ih2 k
    simp only [mapTextsL, ih2, ih1, eventsL, evTexts_append]
    omega

theorem mapTexts_congr {f g : Nat → Bytes → Bytes} (d K : Nat) (h : ∀ i, i < K → f (i + d) = g i) :
    (∀ n : Node, ∀ k, k + evTexts (events n) ≤ K → (mapTexts f (k + d) n).1 = (mapTexts g k n).1) ∧
    (∀ ns : List Node, ∀ k, k + evTexts (eventsL ns) ≤ K → (mapTextsL f (k + d) ns).1 = (mapTextsL g k ns).1) := by
  refine Dom.induct ?_ ?_ ?_ ?_ ?_ ?_ ?_
  · intro t k hk
    simp only [events, evTexts, List.countP_cons, List.countP_nil, decide_true, if_true] at hk
    simp only [mapTexts]; rw [h k (by omega)]
  · intro t k hk; simp [mapTexts]
  · intro t k hk; simp [mapTexts]
  · intro cs ih k hk
    simp only [events] at hk
    rw [← List.singleton_append, evTexts_append, evTexts_append] at hk
    simp only [mapTexts]; rw [ih k (by omega)]
  · intro n a cs ih k hk
    simp only [events] at hk
    rw [← List.singleton_append, evTexts_append, evTexts_append] at hk
    simp only [mapTexts]; rw [ih k (by omega)]
  · intro k hk; rfl
  · intro n ns ih1 ih2 k hk
    simp only [eventsL, evTexts_append] at hk
    have h1 := (mapTexts_count f).1 n (k + d)
    have h2 := (mapTexts_count g).1 n k
    have h3 := ih2 (k + evTexts (events n)) (by omega)
    have h4 : k + d + evTexts (events n) = k + evTexts (events n) + d := by omega
    simp only [mapTextsL]
    rw [h1, h2, h4, h3, ih1 k (by omega)]

variable {E : Render.Env}

theorem sepName_of {n : Bytes} (h : n ∈ [b!"hr", b!"p", b!"h1", b!"h2", b!"h3", b!"h4", b!"h5", b!"h6"]) : SepName n := by
  have : ∀ n ∈ [b!"hr", b!"p", b!"h1", b!"h2", b!"h3", b!"h4", b!"h5", b!"h6"], isBoldOrItalic n = false ∧ isInlineCode n = false ∧ isLink n = false ∧
    Render.isStrike n = false ∧ Render.isRemoved n = false ∧ isListName n = false ∧ n ≠ b!"span" ∧ n ≠ b!"code" ∧ n ≠ b!"pre" := by decide +kernel
  obtain ⟨h1, h2, h3, h4, h5, h6, h8, h9, h10⟩ := this n h
  exact ⟨⟨h1, h2, h3, h4, h5, h6, h8, h9⟩, h10⟩

theorem Fine.sep {n : Bytes} (h : Fine n) : SepName n := ⟨⟨h.bold, h.code, h.link, h.strike, h.kept, h.list, h.span, h.code'⟩, h.pre⟩

end Verif.Cut
