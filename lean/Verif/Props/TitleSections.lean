import Verif.Spec.TitleSections
import Verif.Props.Sections
/-!
# C101: a title separates a document
-/
set_option linter.unusedSimpArgs false

namespace Verif.Props
open Verif Verif.Render Verif.Spec Verif.DomUtils Verif.Commonmark Verif.Cut Verif.TextUtils

theorem solid_entity {s : Bytes} (h : Solid s) : Solid (entityReplace s) :=
  ⟨fun e => h.1 (_root_.Verif.Page.entityReplace_eq_nil e), fun w hw hs => h.2 w hw (_root_.Verif.Page.entityReplace_suffix _ rfl (_root_.Verif.Page.ws_chars w hw).2 _ hs)⟩

/-- Without markers and replaced bytes nothing was changed. -/
theorem escapeLoop_same (isMd : Nat → Bool) : ∀ s : Bytes, (∀ b ∈ Escape.escapeLoop isMd s, b ≠ 7 ∧ b ≠ 239) → Escape.escapeLoop isMd s = s := by
  intro s
  induction s with
  | nil => intro _; rfl
  | cons b s ih =>
    intro h
    rw [Escape.escapeLoop] at h ⊢
    split
    · rename_i h0
      rw [if_pos h0] at h
      exact absurd rfl (h 239 (by simp)).2
    · rename_i h0
      rw [if_neg h0] at h
      split
      · rename_i h1
        rw [if_pos h1] at h
        exact absurd rfl (h MARK (by simp)).1
      · rename_i h1
        rw [if_neg h1] at h
        rw [ih fun x hx => h x (by simp [hx])]

theorem escapeLoop_suffix (isMd : Nat → Bool) {w : Bytes} (hne : w ≠ []) (hw : ∀ b ∈ w, b ≠ 7 ∧ b ≠ 239 ∧ b ≠ 191 ∧ b ≠ 189) :
    ∀ s : Bytes, w <:+ Escape.escapeLoop isMd s → w <:+ s := by
  intro s
  induction s with
  | nil => exact id
  | cons b s ih =>
    have step : ∀ y : Bytes, (∀ d ∈ y, d = 7 ∨ d = 239 ∨ d = 191 ∨ d = 189) → ∀ z : Bytes, w <:+ y ++ z → w <:+ z := by
      intro y
      induction y with
      | nil => exact fun _ z h => h
      | cons d y ihy =>
        intro hy z h
        rw [List.cons_append, List.suffix_cons_iff] at h
        rcases h with h | h
        · have := hw d (by rw [h]; simp)
          rcases hy d (by simp) with h' | h' | h' | h' <;> simp [h'] at this
        · exact ihy (fun x hx => hy x (by simp [hx])) z h
    have one : w <:+ b :: Escape.escapeLoop isMd s → w <:+ b :: s := by
      intro h
      rw [List.suffix_cons_iff] at h
      rcases h with h | h
      · rw [h, escapeLoop_same isMd s fun x hx => ⟨(hw x (by rw [h]; simp [hx])).1, (hw x (by rw [h]; simp [hx])).2.1⟩]
        exact List.suffix_refl _
      · exact (ih h).trans (List.suffix_cons _ _)
    intro h
    rw [Escape.escapeLoop] at h
    split at h
    · exact (ih (step b!"\uFFFD" (by decide) _ h)).trans (List.suffix_cons _ _)
    · split at h
      · exact one (step [MARK] (by decide) _ h)
      · exact one h

theorem solid_escape (isMd : Nat → Bool) {s : Bytes} (h : Solid s) : Solid (Escape.escapeLoop isMd s) := by
  have hws : ∀ w ∈ whitespace, w ≠ [] ∧ ∀ b ∈ w, b ≠ 7 ∧ b ≠ 239 ∧ b ≠ 191 ∧ b ≠ 189 := by decide
  refine ⟨?_, fun w hw hs => h.2 w hw (escapeLoop_suffix isMd (hws w hw).1 (hws w hw).2 s hs)⟩
  rcases s with _ | ⟨b, s⟩
  · exact absurd rfl h.1
  · rw [Escape.escapeLoop]
    split
    · simp
    · split <;> simp

theorem solid_text (mode : Escape.Mode) {s : Bytes} (h : Solid s) : Solid (baseTextTransform mode Escape.isCommonmarkChar s) := by
  cases mode with
  | disabled => exact solid_entity h
  | smart => exact solid_escape _ (solid_entity h)

theorem solid_trim {s : Bytes} (h : Solid s) : Solid (trimSpace s) := by
  rw [trimSpace, trimRight_eq h.trimLeft.2]
  exact h.trimLeft

theorem solid_pound {s r : Bytes} (h : Solid s) (e : escapePoundSignAtEnd s = some r) : Solid r := by
  obtain ⟨x, d, rfl, -⟩ := h.last
  rw [escapePoundSignAtEnd] at e
  have hrev : (x ++ [d]).reverse = d :: x.reverse := by simp
  rw [hrev] at e
  simp only at e
  split at e
  · simp only [Option.some.injEq] at e
    exact e ▸ h
  · rename_i hd
    have hd : Ink d := by
      have : d = 35 := by simpa using hd
      subst this
      exact ⟨by decide, by decide⟩
    generalize x.reverse = xr at e
    cases xr with
    | nil => simp at e
    | cons c xr =>
      cases xr with
      | nil => simp only [Option.some.injEq] at e; exact e ▸ hd.solid [BS]
      | cons b xr =>
        simp only at e
        split at e
        · simp only [Option.some.injEq] at e
          exact e ▸ h
        · simp only [Option.some.injEq] at e
          have := hd.solid (BS :: b :: xr).reverse
          rw [← e]
          simpa using this

theorem ws_space : ∀ w ∈ whitespace, w = [SP] ∨ SP ∉ w := by decide

theorem solid_oneLine {s : Bytes} (h : Solid s) : Solid (onOneLine s) := by
  obtain ⟨x, d, rfl, hd⟩ := h.last
  have hd13 : d ≠ 13 := by rintro rfl; exact h.2 [13] (by decide) ⟨x, rfl⟩
  refine ⟨by simp [onOneLine], fun w hw hs => ?_⟩
  rcases ws_space w hw with rfl | hsp
  · obtain ⟨q, hq⟩ := hs
    rw [onOneLine, List.map_append] at hq
    have := List.append_inj_right' hq rfl
    simp only [List.map_cons, List.map_nil, List.cons.injEq, and_true] at this
    rw [if_neg (by rintro (h' | h'); exact hd.1 h'; exact hd13 h')] at this
    exact hd.2 this.symm
  · obtain ⟨q, hq⟩ := hs
    rw [onOneLine] at hq
    obtain ⟨s1, s2, e, h1, h2⟩ := List.map_eq_append_iff.1 hq.symm
    have e2 : s2 = w := by
      rw [← h2]
      symm
      refine (List.map_congr_left ?_).trans (List.map_id _)
      intro b hb
      split
      · rename_i hb'
        exfalso
        apply hsp
        rw [← h2]
        refine List.mem_map.2 ⟨b, hb, by rw [if_pos hb']⟩
      · rfl
    exact h.2 w hw ⟨s1, by rw [e, e2]⟩

theorem doubleSpaces_other {x : UInt8} (h : x ≠ SP) (n : Nat) (s : Bytes) : dropDoubleSpaces n (x :: s) = x :: dropDoubleSpaces 0 s := by
  simp [dropDoubleSpaces, h]

theorem dropDouble_same : ∀ s : Bytes, SP ∉ dropDoubleSpaces 0 s → dropDoubleSpaces 0 s = s := by
  intro s
  induction s with
  | nil => intro _; rfl
  | cons b s ih =>
    intro h
    by_cases hb : b = SP
    · exfalso; apply h; simp [dropDoubleSpaces, hb]
    · rw [doubleSpaces_other hb] at h ⊢
      simp only [List.mem_cons, not_or] at h
      rw [ih h.2]

theorem dropDouble_suffix {w : Bytes} (hw : SP ∉ w) : ∀ (s : Bytes) (k : Nat), w <:+ dropDoubleSpaces k s → w <:+ s := by
  intro s
  induction s with
  | nil => exact fun _ h => h
  | cons b s ih =>
    intro k h
    by_cases hb : b = SP
    · have h' : w <:+ dropDoubleSpaces (k + 1) s ∨ w <:+ SP :: dropDoubleSpaces (k + 1) s := by
        simp only [dropDoubleSpaces, hb, if_true] at h
        split at h
        · exact .inl h
        · exact .inr h
      have h'' : w <:+ dropDoubleSpaces (k + 1) s := by
        rcases h' with h' | h'
        · exact h'
        · rw [List.suffix_cons_iff] at h'
          rcases h' with h' | h'
          · exfalso; apply hw; rw [h']; simp
          · exact h'
      exact (ih _ h'').trans (List.suffix_cons _ _)
    · rw [doubleSpaces_other hb, List.suffix_cons_iff] at h
      rcases h with h | h
      · rw [h, dropDouble_same s fun h' => hw (by rw [h]; simp [h'])]
        exact List.suffix_refl _
      · exact (ih _ h).trans (List.suffix_cons _ _)

theorem solid_squeeze {s : Bytes} (h : Solid s) : Solid (Spec.squeeze s) := by
  rw [← squeeze_eq]
  obtain ⟨x, d, rfl, hd⟩ := h.last
  have key : ∀ (x : Bytes) k, ∃ x', dropDoubleSpaces k (x ++ [d]) = x' ++ [d] := by
    intro x
    induction x with
    | nil => intro k; exact ⟨[], by simp [dropDoubleSpaces, hd.2]⟩
    | cons b x ih =>
      intro k
      simp only [List.cons_append, dropDoubleSpaces]
      split
      · split
        · exact ih _
        · obtain ⟨x', e⟩ := ih (k + 1); exact ⟨b :: x', by rw [e]; rfl⟩
      · split
        · exact ih _
        · obtain ⟨x', e⟩ := ih 0; exact ⟨b :: x', by rw [e]; rfl⟩
  obtain ⟨x', e⟩ := key x 0
  refine ⟨by rw [e]; simp, fun w hw hs => ?_⟩
  rcases ws_space w hw with rfl | hsp
  · rw [e] at hs
    obtain ⟨q, hq⟩ := hs
    have := List.append_inj_right' hq rfl
    simp only [List.cons.injEq, and_true] at this
    exact hd.2 this.symm
  · exact h.2 w hw (dropDouble_suffix hsp _ _ hs)

theorem solid_ne {s : Bytes} (h : Solid s) : s.length ≠ 0 := by simpa using h.1

/-- The bytes end with a visible ASCII character. -/
def EndsInk (s : Bytes) : Prop := ∃ x d, s = x ++ [d] ∧ Ink d

theorem heading_shape {setext : Bool} {level : Nat} {s r : Bytes} (h : Solid s) (e : heading setext level s = some r) :
    ∃ core, Solid core ∧ r = b!"\n\n" ++ core ++ b!"\n\n" := by
  rw [heading, if_neg (solid_ne (solid_trim h))] at e
  split at e
  · simp only [Option.some.injEq] at e
    generalize escapeMultiLine (trimConsecutiveNewlines s) = c at e
    refine ⟨c ++ [NL] ++ setextUnderline level (underlineWidth c 3), ?_, by rw [← e]; simp⟩
    have hw : 3 ≤ underlineWidth c 3 := by
      rw [underlineWidth]
      split <;> omega
    generalize underlineWidth c 3 = k at hw
    obtain ⟨k, rfl⟩ : ∃ j, k = j + 1 := ⟨k - 1, by omega⟩
    have hi : Ink (if level = 1 then 61 else 45) := by
      split
      · exact ⟨by decide, by decide⟩
      · exact ⟨by decide, by decide⟩
    rw [setextUnderline, List.replicate_succ', ← List.append_assoc]
    exact hi.solid _
  · rw [Option.map_eq_some_iff] at e
    obtain ⟨c, e, rfl⟩ := e
    have h1 : Solid (atxContent s) := by
      rw [atxContent_eq]
      exact solid_trim (solid_squeeze (solid_oneLine h))
    have h2 := solid_pound h1 e
    refine ⟨List.replicate level 35 ++ [SP] ++ c, ⟨by simp, fun w hw hs => ?_⟩, by simp⟩
    have hws : ∀ w ∈ whitespace, 35 ∉ w ∧ (SP ∈ w → w = [SP]) := by decide
    obtain ⟨q, hq⟩ := hs
    rcases List.append_eq_append_iff.1 hq with ⟨a, ha1, ha2⟩ | ⟨a, ha1, ha2⟩
    · rcases List.eq_nil_or_concat a with rfl | ⟨a', b, rfl⟩
      · exact h2.2 w hw (by rw [ha2]; exact List.suffix_refl _)
      · rw [List.concat_eq_append] at ha1 ha2
        rw [← List.append_assoc] at ha1
        have hb := List.append_inj_right' ha1 rfl
        simp only [List.cons.injEq, and_true] at hb
        subst hb
        have hw1 := (hws w hw).2 (by rw [ha2]; simp)
        rw [hw1] at ha2
        cases a' with
        | nil => simp at ha2; exact h2.1 ha2
        | cons b a' => simp at ha2
    · exact h2.2 w hw ⟨a, ha2.symm⟩

/-- A title is rendered as a block. -/
theorem render_title (E : Env) (stuck : Bool) {n : Bytes} (hn : n ∈ titleNames) (hb : E.tables.isBlock n = true) (a : List (Bytes × Bytes)) {t : Bytes} (ht : Solid t)
    {r : Bytes} (e : renderNode E false stuck (titled n a t) = some r) : ∃ core, Solid core ∧ r = b!"\n\n" ++ core ++ b!"\n\n" := by
  have names : ∀ n ∈ titleNames, isBoldOrItalic n = false ∧ n ≠ b!"hr" ∧ n ≠ b!"br" ∧ ¬ (n = b!"ul" ∨ n = b!"ol") ∧ n ≠ b!"pre" ∧ DomUtils.isInlineCode n = false ∧
      n ≠ b!"blockquote" ∧ n ≠ b!"img" ∧ n ≠ b!"a" ∧ isStrike n = false ∧ n ≠ b!"table" ∧ n ≠ b!"tr" ∧ isRemoved n = false := by decide +kernel
  obtain ⟨n1, n2, n3, n4, n5, n6, n7, n9, n10, n11, n12, n13, n14⟩ := names n hn
  have ec : renderL E false (stuck || isProblematicParent n) [.text t] = some (baseTextTransform E.mode Escape.isCommonmarkChar t) := by
    simp [renderL, renderNode, linkTextTransform]
  rw [titled, renderNode] at e
  simp only [n1, n2, n3, n4, n5, n6, n7, n9, n10, n11, n12, n13, if_false, Bool.false_eq_true, false_and, ec, Option.bind_some, Option.map_some] at e
  split at e
  · exact heading_shape (solid_text _ ht) e
  · simp only [Option.some.injEq] at e
    exact ⟨_, solid_text _ ht, by rw [← e, fallback, isBlock, n14, hb]; rfl⟩

/-- What is rendered for a document with a title. -/
theorem rendered_title (E : Env) {w : Outer} (hw : ∀ x ∈ w, x.1 ∉ markdownNames) {n : Bytes} (hn : n ∈ titleNames)
    (a : List (Bytes × Bytes)) {t : Bytes} (ht : EndsVisible t) (hb : E.tables.isBlock n = true) :
    ∃ (f g : List (List Node) → Option Bytes) (r : Option Bytes), (∃ p, f [] = some p ∧ ∀ b ∈ p, b = NL) ∧ (∃ q, g [] = some q ∧ ∀ b ∈ q, b = NL) ∧
      (∀ s, r = some s → ∃ core, Solid core ∧ s = b!"\n\n" ++ core ++ b!"\n\n") ∧ (∃ stuck, r = renderNode E false stuck (titled n a (shown t))) ∧
      ∀ L R, renderNode E false false (preRender E (treeAround w L R (titled n a t))) =
        (f L).bind fun x => r.bind fun s => (g R).map fun y => x ++ s ++ y := by
  have hsn : n ∈ [b!"hr", b!"p", b!"h1", b!"h2", b!"h3", b!"h4", b!"h5", b!"h6"] := List.mem_cons_of_mem _ hn
  obtain ⟨f, g, stuck, hf, hg, h⟩ := rendered_tree E hw (sn := n) (t := some t) (sepName_of hsn) a hb (.inr rfl)
    (by intro d h; simp only [Option.mem_def, Option.some.injEq] at h; exact h ▸ ht.1)
  exact ⟨f, g, renderNode E false stuck (titled n a (shown t)), hf, hg, fun s e => render_title E stuck hn hb a ht e, ⟨stuck, rfl⟩, h⟩

/-- **C101** A title separates a document, wherever it is: what comes behind it does not depend on what comes before it, and the other way round. -/
theorem c101_title_anywhere {E : Env} {w : Outer} (hw : ∀ x ∈ w, x.1 ∉ markdownNames) {n : Bytes} (hn : n ∈ titleNames)
    (hb : E.tables.isBlock n = true) (h0 : E.isDigit 0 = false) (h1 : E.isDigit 10 = false) (a : List (Bytes × Bytes)) {t : Bytes} (ht : EndsVisible t)
    (L R : List (List Node)) {md : Bytes} (h : convertNode E (treeAround w L R (titled n a t)) = some md) :
    Continued (convertNode E (treeAround w [] [] (titled n a t))) (convertNode E (treeAround w L [] (titled n a t)))
      (convertNode E (treeAround w [] R (titled n a t))) (some md) := by
  obtain ⟨f, g, r, ⟨p, hf, hp⟩, ⟨q, hg, hq⟩, hr, -, hall⟩ := rendered_title E hw hn a ht hb
  have st : Escape.IsStock E.isDigit (handlers E) := _root_.Verif.Page.stock E
  rw [convertNode, hall, Option.map_eq_some_iff] at h
  obtain ⟨out, h, rfl⟩ := h
  cases hx : f L with
  | none => rw [hx] at h; simp at h
  | some x =>
  cases hs : r with
  | none => rw [hx, hs] at h; simp at h
  | some s =>
  cases hy : g R with
  | none => rw [hx, hs, hy] at h; simp at h
  | some y =>
  rw [hx, hs, hy] at h
  simp only [Option.bind_some, Option.map_some, Option.some.injEq] at h
  subst h
  obtain ⟨core, hcore, hsc⟩ := hr s hs
  have hA : convertNode E (treeAround w L [] (titled n a t)) = some (postRender E.mode (handlers E) (x ++ s ++ q)) := by
    rw [convertNode, hall, hx, hs, hg]; rfl
  have hB : convertNode E (treeAround w [] R (titled n a t)) = some (postRender E.mode (handlers E) (p ++ s ++ y)) := by
    rw [convertNode, hall, hf, hs, hy]; rfl
  have h1' : convertNode E (treeAround w [] [] (titled n a t)) = some (postRender E.mode (handlers E) (p ++ s ++ q)) := by
    rw [convertNode, hall, hf, hs, hg]; rfl
  have shape : ∀ x y, x ++ s ++ y = (x ++ [NL] ++ NL :: core) ++ NL :: NL :: y := by
    intro x y; rw [hsc]; simp
  rw [hA, hB, h1', shape, shape, shape, shape]
  have c1 := post_cut st h0 h1 E.mode (hcore.behind (x ++ [NL])) y
  have c2 := post_cut st h0 h1 E.mode (hcore.behind (x ++ [NL])) q
  have c3 := post_cut st h0 h1 E.mode (hcore.behind (p ++ [NL])) y
  have c4 := post_cut st h0 h1 E.mode (hcore.behind (p ++ [NL])) q
  rw [newlines_end hq, finish_nil] at c2 c4
  have c2' := c2.1.trans (List.append_nil _)
  have c4' := c4.1.trans (List.append_nil _)
  refine ⟨_, _, finish E.mode (handlers E) (trimRight (NL :: NL :: y)), rfl, rfl, ?_, ?_, c1.2⟩
  · rw [c3.1, c4']
  · rw [c1.1, c2']

/-- **C101** when the containers have no other content. -/
theorem c101_title_separates {E : Env} {w : List (Bytes × List (Bytes × Bytes))} (hw : ∀ x ∈ w, x.1 ∉ markdownNames) {n : Bytes} (hn : n ∈ titleNames)
    (hb : E.tables.isBlock n = true) (h0 : E.isDigit 0 = false) (h1 : E.isDigit 10 = false) (a : List (Bytes × Bytes)) {t : Bytes} (ht : EndsVisible t) (A B : List Node)
    {md : Bytes} (h : convertNode E (documentOf w (A ++ titled n a t :: B)) = some md) :
    Continued (convertNode E (documentOf w [titled n a t])) (convertNode E (documentOf w (A ++ [titled n a t]))) (convertNode E (documentOf w (titled n a t :: B))) (some md) := by
  obtain ⟨e1, e2, e3, e4⟩ := documentOf_around w (titled n a t) A B
  rw [e1] at h
  rw [e2, e3, e4]
  exact c101_title_anywhere hw hn hb h0 h1 a ht _ _ h

/-- **C101** The document can be converted if what is before the title and what is behind it can be. -/
theorem c101_title_panics (E : Env) {w : Outer} (hw : ∀ x ∈ w, x.1 ∉ markdownNames) {n : Bytes} (hn : n ∈ titleNames)
    (hb : E.tables.isBlock n = true) (a : List (Bytes × Bytes)) {t : Bytes} (ht : EndsVisible t) (L R : List (List Node)) :
    convertNode E (treeAround w L R (titled n a t)) = none ↔
      convertNode E (treeAround w L [] (titled n a t)) = none ∨ convertNode E (treeAround w [] R (titled n a t)) = none := by
  obtain ⟨f, g, r, ⟨p, hf, -⟩, ⟨q, hg, -⟩, -, -, hall⟩ := rendered_title E hw hn a ht hb
  rw [convertNode, convertNode, convertNode, hall, hall, hall, hf, hg]
  cases f L <;> cases r <;> cases g R <;> simp

/-! ## Titles of plain words -/

theorem line_trim {r : Bytes} (hr : Line r) : trimSpace r = r := by
  rcases hr' : r with _ | ⟨d, y⟩
  · exact absurd hr' hr.ne
  rcases List.eq_nil_or_concat r with he | ⟨x, c, he⟩
  · exact absurd he hr.ne
  rw [List.concat_eq_append] at he
  have hd : Ink d := by
    have hb := hr.first
    rw [hr'] at hb
    simp only [List.head?_cons, ne_eq, Option.some.injEq] at hb
    rcases hr.chars d (by rw [hr']; simp) with h | h
    · exact h
    · exact absurd h hb
  have hc : Ink c := by
    have hb := hr.last
    rw [he] at hb
    simp only [List.getLast?_append, List.getLast?_singleton, Option.some_or, ne_eq, Option.some.injEq] at hb
    rcases hr.chars c (by rw [he]; simp) with h | h
    · exact h
    · exact absurd h hb
  obtain ⟨x', hx, e⟩ := trimLeft_cut hd.ws [] y
  have : x' = [] := List.suffix_nil.1 hx
  subst this
  rw [List.nil_append] at e
  have h1 := trimRight_behind hc x []
  have h2 : trimRight [] = [] := rfl
  rw [List.append_nil, h2, List.append_nil, ← he, hr'] at h1
  rw [trimSpace, e, h1]

theorem shown_ends (t : Bytes) : (shown t).head? ≠ some 32 ∧ (shown t).getLast? ≠ some 32 := by
  have hs : _root_.Verif.Page.Seen (oneSpace t) := (_root_.Verif.Page.oneSpaceAfter_spec t false).1
  rw [shown]
  generalize oneSpace t = s at hs
  have h1 : (if s.head? = some 32 then s.tail else s).head? ≠ some 32 := by
    split
    case isFalse h => exact h
    case isTrue h =>
      intro h'
      match s, h, h' with
      | a :: b :: s, h, h' =>
        simp only [List.head?_cons, Option.some.injEq, List.tail_cons] at h h'
        subst h; subst h'
        exact hs.no_two ⟨[], s, rfl⟩
  have h2 : ¬ [32, 32] <:+: (if s.head? = some 32 then s.tail else s) := by
    split
    · exact fun h => hs.no_two (h.trans (List.tail_suffix s).isInfix)
    · exact hs.no_two
  generalize (if s.head? = some 32 then s.tail else s) = v at h1 h2
  split
  case isFalse h => exact ⟨h1, h⟩
  case isTrue h =>
    rcases List.eq_nil_or_concat v with rfl | ⟨x, c, rfl⟩
    · simp at h
    rw [List.concat_eq_append] at *
    simp only [List.getLast?_append, List.getLast?_singleton, Option.some_or, Option.some.injEq] at h
    subst h
    rw [List.dropLast_concat]
    constructor
    · cases x with
      | nil => simp
      | cons a x => simpa using h1
    · intro h
      rcases List.eq_nil_or_concat x with rfl | ⟨y, c, rfl⟩
      · simp at h
      rw [List.concat_eq_append] at *
      simp only [List.getLast?_append, List.getLast?_singleton, Option.some_or, Option.some.injEq] at h
      subst h
      exact h2 ⟨y, [], by simp⟩

theorem words_table : ∀ b : UInt8, isWordByte b = true ∨ b ∈ b!" ,:;?/%@" → (Ink b ∨ b = 32) ∧ b ∉ Escape.commonmarkChars ∧ b ≠ 0 ∧ b ≠ 60 ∧ b ≠ 62 ∧ b ≠ 35 ∧ b < 128 := by
  have key : ∀ i : Fin 256, isWordByte (UInt8.ofNat i.val) = true ∨ UInt8.ofNat i.val ∈ b!" ,:;?/%@" →
      ((33 ≤ UInt8.ofNat i.val ∧ UInt8.ofNat i.val ≤ 126) ∨ UInt8.ofNat i.val = 32) ∧ UInt8.ofNat i.val ∉ Escape.commonmarkChars ∧ UInt8.ofNat i.val ≠ 0 ∧
      UInt8.ofNat i.val ≠ 60 ∧ UInt8.ofNat i.val ≠ 62 ∧ UInt8.ofNat i.val ≠ 35 ∧ UInt8.ofNat i.val < 128 := by decide +kernel
  intro b h
  have := key ⟨b.toNat, b.toNat_lt⟩
  simp only [UInt8.ofNat_toNat] at this
  exact this h

theorem words_line {t : Bytes} (h : PlainWords t) : Line (shown t) :=
  ⟨h.1, fun b hb => (words_table b (h.2 b hb)).1, (shown_ends t).1, (shown_ends t).2⟩

theorem words_text (mode : Escape.Mode) {s : Bytes} (h : ∀ b ∈ s, isWordByte b = true ∨ b ∈ b!" ,:;?/%@") : baseTextTransform mode Escape.isCommonmarkChar s = s := by
  have e1 : entityReplace s = s := by
    induction s with
    | nil => rfl
    | cons b s ih =>
      have hb := words_table b (h b (by simp))
      rw [_root_.Verif.Page.entityReplace_other hb.2.2.2.1 hb.2.2.2.2.1, ih fun x hx => h x (by simp [hx])]
  have e2 : Escape.escapeLoop Escape.isCommonmarkChar s = s := by
    clear e1
    induction s with
    | nil => rfl
    | cons b s ih =>
      have hb := words_table b (h b (by simp))
      have hr : (decodeRune (b :: s)).1 = b.toNat := by rw [Escape.decodeRune_ascii b s hb.2.2.2.2.2.2]
      have hm : Escape.isCommonmarkChar (decodeRune (b :: s)).1 = false := by
        rw [hr, Escape.isCommonmarkChar]
        rw [Bool.eq_false_iff]
        intro ha
        rw [List.any_eq_true] at ha
        obtain ⟨c, hc, hcb⟩ := ha
        rw [beq_iff_eq] at hcb
        exact hb.2.1 (UInt8.toNat_inj.1 hcb ▸ hc)
      rw [Escape.escapeLoop, if_neg hb.2.2.1, if_neg (by rw [hm]; decide), ih fun x hx => h x (by simp [hx])]
  cases mode with
  | disabled => exact e1
  | smart => rw [baseTextTransform, e1]; exact e2

theorem line_atx {r : Bytes} (hr : Line r) (h2 : ¬ [32, 32] <:+: r) : atxContent r = r := by
  have e1 : onOneLine r = r := by
    rw [onOneLine]
    refine (List.map_congr_left ?_).trans (List.map_id _)
    intro b hb
    rw [if_neg]
    · rfl
    · rintro (rfl | rfl)
      · exact hr.not_mem (b := 10) (by decide) (by decide) hb
      · exact hr.not_mem (b := 13) (by decide) (by decide) hb
  rw [atxContent_eq, e1, _root_.Verif.Page.squeeze_id h2, line_trim hr]

theorem heading_words {setext : Bool} {level : Nat} (hs : (setext && level < 3) = false) {t : Bytes} (h : PlainWords t) :
    heading setext level (shown t) = some (b!"\n\n" ++ (List.replicate level 35 ++ [SP] ++ shown t) ++ b!"\n\n") := by
  have hl := words_line h
  have hne : (trimSpace (shown t)).length ≠ 0 := by rw [line_trim hl]; simpa using h.1
  have hp : escapePoundSignAtEnd (shown t) = some (shown t) := by
    rcases List.eq_nil_or_concat (shown t) with he | ⟨x, c, he⟩
    · exact absurd he h.1
    rw [List.concat_eq_append] at he
    have hc := (words_table c (h.2 c (by rw [he]; simp))).2.2.2.2.2.1
    rw [he, escapePoundSignAtEnd]
    have hrev : (x ++ [c]).reverse = c :: x.reverse := by simp
    rw [hrev]
    simp only [hc, ne_eq, not_false_eq_true, if_true]
  rw [heading, if_neg hne, hs, line_atx hl (_root_.Verif.Page.shown_seen t).no_two, hp]
  simp

/-- A heading is written with pound signs. -/
def PoundStyle (E : Env) (n : Bytes) : Prop := E.cfg.headingStyle ≠ b!"setext" ∨ n ∉ [b!"h1", b!"h2"]

theorem render_words (E : Env) (stuck : Bool) {n : Bytes} (hn : n ∈ titleNames) (hb : E.tables.isBlock n = true) (hs : PoundStyle E n) (a : List (Bytes × Bytes)) {t : Bytes}
    (ht : PlainWords t) : renderNode E false stuck (titled n a (shown t)) = some (b!"\n\n" ++ titleLine n t ++ b!"\n\n") := by
  have names : ∀ n ∈ titleNames, isBoldOrItalic n = false ∧ n ≠ b!"hr" ∧ n ≠ b!"br" ∧ ¬ (n = b!"ul" ∨ n = b!"ol") ∧ n ≠ b!"pre" ∧ DomUtils.isInlineCode n = false ∧
      n ≠ b!"blockquote" ∧ n ≠ b!"img" ∧ n ≠ b!"a" ∧ isStrike n = false ∧ n ≠ b!"table" ∧ n ≠ b!"tr" ∧ isRemoved n = false ∧ (isHeading n = false → n = b!"p") ∧
      (isHeading n = true → (n ∉ [b!"h1", b!"h2"] → ¬ headingLevel n < 3) ∧ ∃ d ∈ [49, 50, 51, 52, 53, 54], n = [104, d] ∧ headingLevel n = d.toNat - 48) := by decide +kernel
  obtain ⟨n1, n2, n3, n4, n5, n6, n7, n9, n10, n11, n12, n13, n14, n15, n16⟩ := names n hn
  have ec : renderL E false (stuck || isProblematicParent n) [.text (shown t)] = some (shown t) := by
    simp [renderL, renderNode, linkTextTransform, words_text E.mode ht.2]
  rw [titled, renderNode]
  simp only [n1, n2, n3, n4, n5, n6, n7, n9, n10, n11, n12, n13, if_false, Bool.false_eq_true, false_and, ec, Option.bind_some, Option.map_some]
  cases hh : isHeading n with
  | true =>
    obtain ⟨m1, d, hd, e, hl⟩ := n16 hh
    rw [if_pos rfl, heading_words _ ht, hl, e]
    · rfl
    · rcases hs with hs | hs
      · rw [decide_eq_false hs]; rfl
      · rw [decide_eq_false (m1 hs), Bool.and_false]
  | false =>
    rw [if_neg (by decide)]
    have hp := n15 hh
    subst hp
    rw [fallback, isBlock, n14, hb]
    rfl

theorem line_solid {r : Bytes} (hl : Line r) : EndsInk r := by
  rcases List.eq_nil_or_concat r with he | ⟨x, c, he⟩
  · exact absurd he hl.ne
  rw [List.concat_eq_append] at he
  have hlast : r.getLast? = some c := by rw [he]; simp
  refine ⟨x, c, he, ?_⟩
  rcases hl.chars c (by rw [he]; simp) with h | h
  · exact h
  · exact absurd (h ▸ hlast) hl.last

theorem words_endsVisible {t : Bytes} (h : PlainWords t) : EndsVisible t := by
  obtain ⟨x, d, e, hd⟩ := line_solid (words_line h)
  rw [EndsVisible, e]
  exact hd.solid x

theorem titleLine_line {n : Bytes} (hn : n ∈ titleNames) {t : Bytes} (ht : PlainWords t) : Line (titleLine n t) := by
  have hl := words_line ht
  have names : ∀ n ∈ titleNames, n = b!"p" ∨ ∃ d ∈ [49, 50, 51, 52, 53, 54], n = [104, d] ∧ ∃ k, d.toNat - 48 = k + 1 := by
    intro n hn
    simp only [titleNames, List.mem_cons, List.not_mem_nil, or_false] at hn
    rcases hn with rfl | rfl | rfl | rfl | rfl | rfl | rfl
    · exact .inl rfl
    · exact .inr ⟨49, by decide, rfl, 0, rfl⟩
    · exact .inr ⟨50, by decide, rfl, 1, rfl⟩
    · exact .inr ⟨51, by decide, rfl, 2, rfl⟩
    · exact .inr ⟨52, by decide, rfl, 3, rfl⟩
    · exact .inr ⟨53, by decide, rfl, 4, rfl⟩
    · exact .inr ⟨54, by decide, rfl, 5, rfl⟩
  rcases names n hn with rfl | ⟨d, -, rfl, k, hk⟩
  · exact hl
  · have e : titleLine [104, d] t = List.replicate (k + 1) 35 ++ [32] ++ shown t := by rw [← hk]; rfl
    rw [e]
    refine ⟨by simp, ?_, by simp [List.replicate_succ], ?_⟩
    · intro b hb
      simp only [List.append_assoc, List.mem_append, List.mem_replicate, List.mem_singleton] at hb
      rcases hb with ⟨-, rfl⟩ | rfl | hb
      · exact .inl ⟨by decide, by decide⟩
      · exact .inr rfl
      · exact hl.chars b hb
    · rw [List.getLast?_append]
      cases h : (shown t).getLast? with
      | none => exact absurd (List.getLast?_eq_none_iff.1 h) ht.1
      | some c => rw [Option.some_or, ← h]; exact hl.last

/-- **C101** A heading (with pound signs) or a paragraph of plain words: what is before it ends with its line, what is behind it begins with this line, and the
whole is put together of the two. -/
theorem c101_words {E : Env} {w : Outer} (hw : ∀ x ∈ w, x.1 ∉ markdownNames) {n : Bytes} (hn : n ∈ titleNames)
    (hb : E.tables.isBlock n = true) (hs : PoundStyle E n) (h0 : E.isDigit 0 = false) (h1 : E.isDigit 10 = false) (a : List (Bytes × Bytes)) {t : Bytes} (ht : PlainWords t)
    (L R : List (List Node)) {md : Bytes} (h : convertNode E (treeAround w L R (titled n a t)) = some md) :
    Separated (titleLine n t) (convertNode E (treeAround w L [] (titled n a t))) (convertNode E (treeAround w [] R (titled n a t))) (some md) := by
  obtain ⟨m, u, v, e1, e2, e3, e4, hv⟩ := c101_title_anywhere hw hn hb h0 h1 a (words_endsVisible ht) L R h
  obtain ⟨f, g, r, ⟨p, hf, hp⟩, ⟨q, hg, hq⟩, -, ⟨stuck, hr⟩, hall⟩ := rendered_title E hw hn a (words_endsVisible ht) hb
  rw [render_words E stuck hn hb hs a ht] at hr
  have hl := titleLine_line hn ht
  have st : Escape.IsStock E.isDigit (handlers E) := _root_.Verif.Page.stock E
  obtain ⟨r0, d, hrd, hd⟩ := line_solid hl
  have tail : ∀ x, postRender E.mode (handlers E) (x ++ (b!"\n\n" ++ titleLine n t ++ b!"\n\n") ++ q) =
      postRender E.mode (handlers E) ((x ++ [NL, NL]) ++ titleLine n t) := by
    intro x
    have c := (post_cut st h0 h1 E.mode (hd.solid (x ++ [NL, NL] ++ r0)) q).1
    rw [newlines_end hq, finish_nil] at c
    have c' := c.trans (List.append_nil _)
    have s1 : x ++ (b!"\n\n" ++ titleLine n t ++ b!"\n\n") ++ q = x ++ [NL, NL] ++ r0 ++ [d] ++ NL :: NL :: q := by rw [hrd]; simp
    have s2 : (x ++ [NL, NL]) ++ titleLine n t = x ++ [NL, NL] ++ r0 ++ [d] := by rw [hrd]; simp
    rw [s1, s2, c']
  have em : m = titleLine n t := by
    rw [convertNode, hall, hf, hg, hr] at e1
    simp only [Option.bind_some, Option.map_some, Option.some.injEq] at e1
    rw [← e1, tail]
    exact post_rule _ _ hl (by
      intro b hb
      simp only [List.mem_append, List.mem_cons, List.not_mem_nil, or_false] at hb
      rcases hb with hb | hb | hb
      · exact hp b hb
      · exact hb
      · exact hb)
  obtain ⟨u', eu⟩ : ∃ u', u = u' ++ titleLine n t := by
    rw [convertNode, hall, hg, hr] at e2
    cases hx : f L with
    | none => rw [hx] at e2; simp at e2
    | some x =>
      rw [hx] at e2
      simp only [Option.bind_some, Option.map_some, Option.some.injEq] at e2
      rw [← e2, tail]
      exact post_ends E.mode (handlers E) (x ++ [NL, NL]) hl
  subst em eu
  exact ⟨u', v, e2, e3, e4, hv⟩

/-- **C101** for pages as they come from a parser: the title is in the body, maybe inside of other containers. -/
theorem c101_page {E : Env} {w : List (Bytes × List (Bytes × Bytes))} (hw : ∀ x ∈ w, x.1 ∉ markdownNames) {n : Bytes} (hn : n ∈ titleNames)
    (hb : E.tables.isBlock n = true) (h0 : E.isDigit 0 = false) (h1 : E.isDigit 10 = false) (d : Bytes) (ha he : List (Bytes × Bytes))
    (hs : List Node) (ba a : List (Bytes × Bytes)) {t : Bytes} (ht : EndsVisible t) (A B : List Node) {md : Bytes}
    (h : convertNode E (wholePage d ha he hs ba (within w (A ++ titled n a t :: B))) = some md) :
    Continued (convertNode E (wholePage d ha he hs ba (within w [titled n a t]))) (convertNode E (wholePage d ha he hs ba (within w (A ++ [titled n a t]))))
      (convertNode E (wholePage d ha he hs ba (within w (titled n a t :: B)))) (some md) := by
  rw [wholePage_convert] at h ⊢
  rw [wholePage_convert, wholePage_convert]
  exact c101_title_separates (w := (b!"html", ha) :: (b!"body", ba) :: w) (by
    intro x hx
    rcases List.mem_cons.1 hx with rfl | hx
    · show b!"html" ∉ markdownNames; decide
    · rcases List.mem_cons.1 hx with rfl | hx
      · show b!"body" ∉ markdownNames; decide
      · exact hw x hx) hn hb h0 h1 a ht A B h

/-! ## The functions of the package and the command line tool -/

section engine
open Verif.Engine Verif.Stock
variable (S : GoSort) (H : CliConvert.Html)

/-- **C101** for the functions of the package. -/
theorem c101_package {L : Lib} {n : Bytes} (hn : n ∈ titleNames) (hb : L.tables.isBlock n = true) (h0 : L.isDigit 0 = false) (h1 : L.isDigit 10 = false)
    {ctx : Ctx Bool} (hctx : ctx.values b!"is_inside_link" ≠ some true)
    (ha : ∀ u, Utf8 u → Utf8 (L.assemble ctx.domain u)) {w : List (Bytes × List (Bytes × Bytes))} (hw : ∀ x ∈ w, x.1 ∉ markdownNames) (a : List (Bytes × Bytes))
    {t : Bytes} (ht : EndsVisible t) (before behind : List (List Node)) (hp : Page (treeAround w before behind (titled n a t))) :
    ∃ m u v k, ∀ fuel, k ≤ fuel →
      Engine.convertNode S L.tables (defaultConverter L) fuel ctx (treeAround w [] [] (titled n a t)) = some (.ok m, defaultConverter L) ∧
      Engine.convertNode S L.tables (defaultConverter L) fuel ctx (treeAround w before [] (titled n a t)) = some (.ok u, defaultConverter L) ∧
      Engine.convertNode S L.tables (defaultConverter L) fuel ctx (treeAround w [] behind (titled n a t)) = some (.ok (m ++ v), defaultConverter L) ∧
      Engine.convertNode S L.tables (defaultConverter L) fuel ctx (treeAround w before behind (titled n a t)) = some (.ok (u ++ v), defaultConverter L) := by
  obtain ⟨md, e, -⟩ := c30_conversion_no_panic_partial (E := defaultEnv L ctx.domain) hp
    (show Config.validate (Config.newPlugin []) = none by decide +kernel)
    (show PlainDelimiters (Config.newPlugin []) by unfold PlainDelimiters; decide) (by simp [PlainStrike, defaultEnv]) ha (.inl rfl)
  obtain ⟨m, u, v, e1, e2, e3, e4, -⟩ := c101_title_anywhere (E := defaultEnv L ctx.domain) hw hn hb h0 h1 a ht before behind e
  rw [← e] at e4
  obtain ⟨n1, f1⟩ := c83_default S L hctx e1
  obtain ⟨n2, f2⟩ := c83_default S L hctx e2
  obtain ⟨n3, f3⟩ := c83_default S L hctx e3
  obtain ⟨n4, f4⟩ := c83_default S L hctx e4
  exact ⟨m, u, v, n1 + n2 + n3 + n4, fun fuel hf => ⟨f1 fuel (by omega), f2 fuel (by omega), f3 fuel (by omega), f4 fuel (by omega)⟩⟩

/-- **C101** for the command line tool: four inputs, a title alone, with something before it, with something behind it, and with both (after the selectors were
applied). -/
theorem c101_tool {n : Bytes} (hn : n ∈ titleNames) (hb : H.lib.tables.isBlock n = true) (h0 : H.lib.isDigit 0 = false) (h1 : H.lib.isDigit 10 = false)
    {env1 env2 env3 env : Cli.Env} (he1 : UsesEngine S H env1) (he2 : UsesEngine S H env2) (he3 : UsesEngine S H env3) (he : UsesEngine S H env)
    {args : List Bytes} {cfg : Cli.Config}
    (hf1 : Cli.parseFlags env1.parseSelector args = .ok cfg) (hf2 : Cli.parseFlags env2.parseSelector args = .ok cfg)
    (hf3 : Cli.parseFlags env3.parseSelector args = .ok cfg) (hf : Cli.parseFlags env.parseSelector args = .ok cfg)
    (hargs : cfg.args = []) (hver : cfg.version = false) (hin : cfg.input = []) (hout : cfg.output = [])
    {input1 input2 input3 input : Bytes} (hstdin1 : env1.stdin = some input1) (hstdin2 : env2.stdin = some input2) (hstdin3 : env3.stdin = some input3)
    (hstdin : env.stdin = some input)
    (h : ToolAccepts cfg) (hd : ∀ b ∈ cfg.strongDelimiter, b < 128 ∧ b ≠ 35)
    (ha : ∀ u, Utf8 u → Utf8 (H.lib.assemble cfg.domain u)) (hp : Page (H.parse input))
    {w : List (Bytes × List (Bytes × Bytes))} (hw : ∀ x ∈ w, x.1 ∉ markdownNames) (a : List (Bytes × Bytes)) {t : Bytes} (ht : EndsVisible t) (before behind : List (List Node))
    (d1 : toolDoc H cfg input1 = treeAround w [] [] (titled n a t)) (d2 : toolDoc H cfg input2 = treeAround w before [] (titled n a t))
    (d3 : toolDoc H cfg input3 = treeAround w [] behind (titled n a t)) (d : toolDoc H cfg input = treeAround w before behind (titled n a t)) (fs : Cli.FS) :
    ∃ m u v, (Cli.run env1 args fs).stdout = m ++ [NL] ∧ (Cli.run env2 args fs).stdout = u ++ [NL] ∧ (Cli.run env3 args fs).stdout = m ++ v ++ [NL] ∧
      (Cli.run env args fs).stdout = u ++ v ++ [NL] ∧
      (Cli.run env1 args fs).err = none ∧ (Cli.run env2 args fs).err = none ∧ (Cli.run env3 args fs).err = none ∧ (Cli.run env args fs).err = none := by
  have hpd : Page (toolDoc H cfg input) := CliConvert.selectors_page hp
  rw [d] at hpd
  obtain ⟨md, e, -⟩ := c30_conversion_no_panic_partial (E := toolEnv H cfg) hpd (tool_validate.2 h.strong) (tool_delimiters H hd) (tool_strike H) ha (.inl rfl)
  obtain ⟨m, u, v, e1, e2, e3, e4, -⟩ := c101_title_anywhere (E := toolEnv H cfg) hw hn hb h0 h1 a ht before behind e
  rw [← e] at e4
  rw [← d1] at e1
  rw [← d2] at e2
  rw [← d3] at e3
  rw [← d] at e4
  obtain ⟨r1, s1, -⟩ := c85_run S H he1 hf1 hargs hver hin hout hstdin1 h e1 fs
  obtain ⟨r2, s2, -⟩ := c85_run S H he2 hf2 hargs hver hin hout hstdin2 h e2 fs
  obtain ⟨r3, s3, -⟩ := c85_run S H he3 hf3 hargs hver hin hout hstdin3 h e3 fs
  obtain ⟨r4, s4, -⟩ := c85_run S H he hf hargs hver hin hout hstdin h e4 fs
  exact ⟨m, u, v, s1, s2, s3, s4, r1, r2, r3, r4⟩

end engine

/-! ### Beside the theorems -/

/-- The usual options; headings and paragraphs are block names too. -/
def titleEnv : Env := { sectionEnv with tables := ⟨fun n => sectionEnv.tables.isBlock n || titleNames.contains n, sectionEnv.tables.isInline⟩ }

/-- `<ul><li>a</li></ul> *b` -/
def titleFront : List Node := [.elem b!"ul" [] [.elem b!"li" [] [.text b!"a"]], .text b!" *b"]

/-- `c* <ul><li>d</li></ul>` -/
def titleBack : List Node := [.text b!"c* ", .elem b!"ul" [] [.elem b!"li" [] [.text b!"d"]]]

/-- `<h2> New\n section </h2>` in the middle: neither list gets a comment, the asterisks do not belong together. -/
theorem titlePage_converted : convertNode titleEnv (documentOf ruleOuter (titleFront ++ titled b!"h2" [] b!" New\n section " :: titleBack)) =
    some b!"- a\n\n\\*b\n\n## New section\n\nc*\n\n- d" := by
  simp only [convertNode, preRender, strikePreRender, DomUtils.handlePreRender, mergeAdjacent_eq]
  decide +kernel

example : Continued (convertNode titleEnv (documentOf ruleOuter [titled b!"h2" [] b!" New\n section "]))
    (convertNode titleEnv (documentOf ruleOuter (titleFront ++ [titled b!"h2" [] b!" New\n section "])))
    (convertNode titleEnv (documentOf ruleOuter (titled b!"h2" [] b!" New\n section " :: titleBack))) (some b!"- a\n\n\\*b\n\n## New section\n\nc*\n\n- d") :=
  c101_title_separates (by decide) (by decide) (by decide) (by decide) (by decide) [] ⟨by decide, by unfold NoTrailingWhitespace; decide⟩ titleFront titleBack titlePage_converted

/-- `<p>1</p><div>*2 <h2>New section</h2> 3*</div>4`. -/
theorem blockTitle_converted : convertNode titleEnv (treeAround blockOuter blockBefore blockBehind (titled b!"h2" [] b!" New\n section ")) =
    some b!"1\n\n\\*2\n\n## New section\n\n3*\n\n4" := by
  simp only [convertNode, preRender, strikePreRender, DomUtils.handlePreRender, mergeAdjacent_eq]
  decide +kernel

example : Continued (convertNode titleEnv (treeAround blockOuter [] [] (titled b!"h2" [] b!" New\n section ")))
    (convertNode titleEnv (treeAround blockOuter blockBefore [] (titled b!"h2" [] b!" New\n section ")))
    (convertNode titleEnv (treeAround blockOuter [] blockBehind (titled b!"h2" [] b!" New\n section "))) (some b!"1\n\n\\*2\n\n## New section\n\n3*\n\n4") :=
  c101_title_anywhere (by decide) (by decide) (by decide) (by decide) (by decide) [] ⟨by decide, by unfold NoTrailingWhitespace; decide⟩ blockBefore blockBehind
    blockTitle_converted

example : Separated b!"## New section" (convertNode titleEnv (treeAround blockOuter blockBefore [] (titled b!"h2" [] b!" New\n section ")))
    (convertNode titleEnv (treeAround blockOuter [] blockBehind (titled b!"h2" [] b!" New\n section "))) (some b!"1\n\n\\*2\n\n## New section\n\n3*\n\n4") :=
  c101_words (by decide) (by decide) (by decide) (.inl (by decide)) (by decide) (by decide) [] ⟨by decide, by decide⟩ blockBefore blockBehind blockTitle_converted

/-- A title without text does not separate: the comment between two lists depends on what is behind the title. -/
theorem c101_empty_title :
    convertNode titleEnv (documentOf [] ([.elem b!"ul" [] [.elem b!"li" [] [.text b!"a"]]] ++ titled b!"p" [] [] :: [])) = some b!"- a" ∧
    convertNode titleEnv (documentOf [] ([.elem b!"ul" [] [.elem b!"li" [] [.text b!"a"]]] ++ titled b!"p" [] [] :: [.elem b!"ul" [] [.elem b!"li" [] [.text b!"b"]]])) =
      some b!"- a\n\n<!--THE END-->\n\n- b" ∧
    convertNode titleEnv (documentOf [] (titled b!"p" [] [] :: [.elem b!"ul" [] [.elem b!"li" [] [.text b!"b"]]])) = some b!"- b" := by
  refine ⟨?_, ?_, ?_⟩ <;> (simp only [convertNode, preRender, strikePreRender, DomUtils.handlePreRender, mergeAdjacent_eq]; decide +kernel)

/-- Neither does one that ends with a no-break space: it is cut off at the end of a document. -/
theorem c101_blank_title :
    convertNode titleEnv (documentOf [] [titled b!"p" [] b!"\u00a0"]) = some [] ∧
    convertNode titleEnv (documentOf [] ([.text b!"a"] ++ [titled b!"p" [] b!"\u00a0"])) = some b!"a" ∧
    convertNode titleEnv (documentOf [] (titled b!"p" [] b!"\u00a0" :: [.text b!"b"])) = some b!"b" ∧
    convertNode titleEnv (documentOf [] ([.text b!"a"] ++ titled b!"p" [] b!"\u00a0" :: [.text b!"b"])) = some b!"a\n\n\u00a0\n\nb" := by
  refine ⟨?_, ?_, ?_, ?_⟩ <;> (simp only [convertNode, preRender, strikePreRender, DomUtils.handlePreRender, mergeAdjacent_eq]; decide +kernel)

/-- A title in another language, between two parts that would otherwise be emphasis. -/
theorem titlePage_other : convertNode titleEnv (documentOf ruleOuter (titleFront ++ titled b!"h1" [] b!"Caf\u00e9" :: titleBack)) =
    some b!"- a\n\n\\*b\n\n# Caf\u00e9\n\nc*\n\n- d" := by
  simp only [convertNode, preRender, strikePreRender, DomUtils.handlePreRender, mergeAdjacent_eq]
  decide +kernel

example : Continued (convertNode titleEnv (documentOf ruleOuter [titled b!"h1" [] b!"Caf\u00e9"]))
    (convertNode titleEnv (documentOf ruleOuter (titleFront ++ [titled b!"h1" [] b!"Caf\u00e9"])))
    (convertNode titleEnv (documentOf ruleOuter (titled b!"h1" [] b!"Caf\u00e9" :: titleBack))) (some b!"- a\n\n\\*b\n\n# Caf\u00e9\n\nc*\n\n- d") :=
  c101_title_separates (by decide) (by decide) (by decide) (by decide) (by decide) [] ⟨by decide, by unfold NoTrailingWhitespace; decide⟩ titleFront titleBack titlePage_other

end Verif.Props
