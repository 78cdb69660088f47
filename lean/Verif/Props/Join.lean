import Verif.Spec.Join
import Verif.Proofs.CutPair
import Verif.Props.CodeSections
/-!
# C103: documents can be converted one by one
-/
set_option linter.unusedSimpArgs false

namespace Verif.Props
open Verif Verif.Render Verif.Spec Verif.DomUtils Verif.Commonmark Verif.Cut Verif.TextUtils

/-! ## The first character -/

/-- No white space character is at the beginning, whatever comes behind. -/
def Lead (s : Bytes) : Prop := ∃ c x, s = c ++ x ∧ NL ∉ c ∧ SP ∉ c ∧ ∀ w ∈ whitespace, ∀ y, ¬ w <+: c ++ y

def charLen (b : UInt8) : Nat := if b < 0x80 then 1 else if b < 0xE0 then 2 else if b < 0xF0 then 3 else 4

theorem isChar_len {b : UInt8} {t : Bytes} (h : isChar (b :: t) = true) : (b :: t).length = charLen b := by
  have k1 : ∀ b : UInt8, b < 0x80 → charLen b = 1 := forall_u8 (by decide +kernel)
  have k2 : ∀ b : UInt8, 0xC0 ≤ b → b < 0xE0 → charLen b = 2 := forall_u8 (by decide +kernel)
  have k3 : ∀ b : UInt8, 0xE0 ≤ b → b < 0xF0 → charLen b = 3 := forall_u8 (by decide +kernel)
  have k4 : ∀ b : UInt8, 0xF0 ≤ b → b < 0xF8 → charLen b = 4 := forall_u8 (by decide +kernel)
  match t, h with
  | [], h => simp only [isChar, decide_eq_true_eq] at h; rw [k1 b h]; rfl
  | [_], h => simp only [isChar, Bool.and_eq_true, decide_eq_true_eq] at h; rw [k2 b h.1.1 h.1.2]; rfl
  | [_, _], h => simp only [isChar, Bool.and_eq_true, decide_eq_true_eq] at h; rw [k3 b h.1.1.1 h.1.1.2]; rfl
  | [_, _, _], h => simp only [isChar, Bool.and_eq_true, decide_eq_true_eq] at h; rw [k4 b h.1.1.1.1 h.1.1.1.2]; rfl
  | _ :: _ :: _ :: _ :: _, h => simp [isChar] at h

theorem char_prefix {w c y : Bytes} (hw : isChar w = true) (hc : isChar c = true) (h : w <+: c ++ y) : w = c := by
  cases w with
  | nil => simp [isChar] at hw
  | cons b t =>
    cases c with
    | nil => simp [isChar] at hc
    | cons b' t' =>
      have hb : b = b' := by rw [List.cons_append, List.cons_prefix_cons] at h; exact h.1
      subst hb
      have hl := (isChar_len hw).trans (isChar_len hc).symm
      obtain ⟨z, hz⟩ := h
      exact List.append_inj_left hz hl

theorem opened_lead {d : Bytes} (h : Opened d) : Lead d := by
  obtain ⟨c, x, rfl, h1, h2⟩ := h
  have hp := char_plain h1 h2
  refine ⟨c, x, rfl, fun hh => absurd (hp _ hh) (by decide), fun hh => absurd (hp _ hh) (by decide), fun w hw y hy => ?_⟩
  rw [char_prefix (ws_char w hw) h1 hy] at hw
  exact h2 hw

theorem opened_entity {d : Bytes} (h : Opened d) : Opened (entityReplace d) := by
  obtain ⟨c, x, rfl, h1, h2⟩ := h
  rw [_root_.Verif.Page.entityReplace_append]
  have plain : ∀ c : Bytes, (∀ b ∈ c, b ≠ 60 ∧ b ≠ 62) → entityReplace c = c := by
    intro c
    induction c with
    | nil => intro _; rfl
    | cons b c ih => intro h; rw [_root_.Verif.Page.entityReplace_other (h b (by simp)).1 (h b (by simp)).2, ih fun x hx => h x (by simp [hx])]
  rcases Chars.isChar_cases h1 with ⟨b, rfl, hb⟩ | hh
  · by_cases e : b = 60
    · subst e; exact ⟨[38], b!"lt;" ++ entityReplace x, rfl, by decide, by decide⟩
    · by_cases e' : b = 62
      · subst e'; exact ⟨[38], b!"gt;" ++ entityReplace x, rfl, by decide, by decide⟩
      · exact ⟨[b], _, by rw [plain [b] (by simp [e, e'])], h1, h2⟩
  · have hc : ∀ b ∈ c, b ≠ 60 ∧ b ≠ 62 := by
      intro b hb
      have := hh b hb
      constructor
      · rintro rfl; exact absurd this (by decide)
      · rintro rfl; exact absurd this (by decide)
    exact ⟨c, _, by rw [plain c hc], h1, h2⟩

theorem escape_part (isMd : Nat → Bool) (x : Bytes) : ∀ c : Bytes, NL ∉ c → SP ∉ c → ∃ c', Escape.escapeLoop isMd (c ++ x) = c' ++ Escape.escapeLoop isMd x ∧ NL ∉ c' ∧ SP ∉ c' ∧
    ∀ w y, 239 ∉ w → MARK ∉ w → w <+: c' ++ y → ∃ y', w <+: c ++ y' := by
  intro c
  induction c with
  | nil => intro _ _; exact ⟨[], rfl, by simp, by simp, fun w y _ _ h => ⟨y, h⟩⟩
  | cons b c ih =>
    intro h1 h2
    simp only [List.mem_cons, not_or] at h1 h2
    obtain ⟨c', e, i1, i2, i3⟩ := ih h1.2 h2.2
    have other : ∀ (d : UInt8) (s w : Bytes), d ∉ w → w <+: d :: s → ∃ y', w <+: b :: c ++ y' := by
      intro d s w hd hw
      cases w with
      | nil => exact ⟨[], List.nil_prefix⟩
      | cons d' w => rw [List.cons_prefix_cons] at hw; rw [hw.1] at hd; simp at hd
    rw [List.cons_append, Escape.escapeLoop]
    split
    · exact ⟨b!"�" ++ c', by rw [e]; simp, by simp [i1], by simp [i2], fun w y w1 w2 h => other 239 _ w w1 h⟩
    · split
      · exact ⟨MARK :: b :: c', by rw [e]; simp, by simp [i1, h1.1], by simp [i2, h2.1], fun w y w1 w2 h => other MARK _ w w2 h⟩
      · refine ⟨b :: c', by rw [e]; simp, by simp [i1, h1.1], by simp [i2, h2.1], fun w y w1 w2 h => ?_⟩
        cases w with
        | nil => exact ⟨[], List.nil_prefix⟩
        | cons d w =>
          rw [List.cons_append, List.cons_prefix_cons] at h
          simp only [List.mem_cons, not_or] at w1 w2
          obtain ⟨y', hy⟩ := i3 w y w1.2 w2.2 h.2
          exact ⟨y', by rw [List.cons_append, List.cons_prefix_cons]; exact ⟨h.1, hy⟩⟩

theorem lead_escape (isMd : Nat → Bool) {s : Bytes} (h : Lead s) : Lead (Escape.escapeLoop isMd s) := by
  obtain ⟨c, x, rfl, h1, h2, h3⟩ := h
  obtain ⟨c', e, i1, i2, i3⟩ := escape_part isMd x c h1 h2
  have hws : ∀ w ∈ whitespace, 239 ∉ w ∧ MARK ∉ w := by decide
  refine ⟨c', _, e, i1, i2, fun w hw y hy => ?_⟩
  obtain ⟨y', hy'⟩ := i3 w y (hws w hw).1 (hws w hw).2 hy
  exact h3 w hw y' hy'

theorem opened_text (mode : Escape.Mode) {d : Bytes} (h : Opened d) : Lead (baseTextTransform mode Escape.isCommonmarkChar d) := by
  rw [baseTextTransform]
  have := opened_lead (opened_entity h)
  cases mode with
  | disabled => exact this
  | smart => exact lead_escape _ this

theorem Lead.append {s : Bytes} (h : Lead s) (x : Bytes) : Lead (s ++ x) := by
  obtain ⟨c, y, rfl, h1⟩ := h
  exact ⟨c, y ++ x, by simp, h1⟩

theorem Lead.trimLeft {s : Bytes} (h : Lead s) : Verif.trimLeft s = s := by
  obtain ⟨c, y, rfl, -, -, h⟩ := h
  exact trimLeft_eq fun w hw hp => h w hw y hp

theorem newlines_lead (x : Bytes) : ∀ (c : Bytes) (k : Nat), c ≠ [] → NL ∉ c → SP ∉ c → trimNewlinesGo k [] (c ++ x) = c ++ trimNewlinesGo 0 [] x := by
  intro c
  induction c with
  | nil => intro _ h; exact absurd rfl h
  | cons b c ih =>
    intro k _ h1 h2
    simp only [List.mem_cons, not_or] at h1 h2
    rw [List.cons_append, trimNewlinesGo, if_neg (fun e => h1.1 e.symm), if_neg (fun e => h2.1 e.symm)]
    cases c with
    | nil => rfl
    | cons b' c => rw [ih 0 (by simp) h1.2 h2.2]; rfl

theorem Lead.ne {c : Bytes} (h : ∀ w ∈ whitespace, ∀ y, ¬ w <+: c ++ y) : c ≠ [] := by
  rintro rfl
  exact h [NL] (by decide) [NL] (List.prefix_refl _)

theorem splitOn_part (x : Bytes) : ∀ c : Bytes, NL ∉ c → ∃ p ps, splitOn NL (c ++ x) = (c ++ p) :: ps := by
  intro c
  induction c with
  | nil =>
    intro _
    cases hx : splitOn NL x with
    | nil =>
      cases x with
      | nil => simp [splitOn] at hx
      | cons b x =>
        rw [splitOn] at hx
        split at hx
        · simp at hx
        · split at hx <;> simp at hx
    | cons p ps => exact ⟨p, ps, hx⟩
  | cons b c ih =>
    intro h
    simp only [List.mem_cons, not_or] at h
    obtain ⟨p, ps, e⟩ := ih h.2
    refine ⟨p, ps, ?_⟩
    rw [List.cons_append, splitOn, if_neg (fun e => h.1 e.symm), e]
    rfl

theorem heading_lead {setext : Bool} {level : Nat} (hl : 1 ≤ level) {s core : Bytes} (hs : Solid s) (h : Lead s)
    (e : heading setext level s = some (b!"\n\n" ++ core ++ b!"\n\n")) : Lead core := by
  have cancel : ∀ x, b!"\n\n" ++ x ++ b!"\n\n" = b!"\n\n" ++ core ++ b!"\n\n" → x = core := fun x h =>
    List.append_cancel_left (List.append_cancel_right h)
  rw [heading, if_neg (solid_ne (solid_trim hs))] at e
  split at e
  · simp only [Option.some.injEq] at e
    rw [← cancel (escapeMultiLine (trimConsecutiveNewlines s) ++ [NL] ++ setextUnderline level (underlineWidth (escapeMultiLine (trimConsecutiveNewlines s)) 3)) (by rw [← e]; simp)]
    refine Lead.append (Lead.append ?_ _) _
    obtain ⟨c, x, rfl, h1, h2, h3⟩ := h
    rw [trimConsecutiveNewlines, newlines_lead x c 0 (Lead.ne h3) h1 h2]
    generalize trimNewlinesGo 0 [] x = x
    rw [escapeMultiLine]
    split
    · exact ⟨c, x, rfl, h1, h2, h3⟩
    · obtain ⟨p, ps, e⟩ := splitOn_part x c h1
      have hp : Lead (c ++ p) := ⟨c, p, rfl, h1, h2, h3⟩
      rw [e, escapeMultiLineGo, hp.trimLeft]
      have hne : ¬ (c ++ p).length = 0 := by
        have := Lead.ne h3
        simp [this]
      simp only [hne, if_false]
      refine Lead.append ?_ _
      split
      · exact hp
      · split
        · exact hp.append _
        · exact hp.append _
  · obtain ⟨c, -, e⟩ := Option.map_eq_some_iff.1 e
    rw [← cancel (List.replicate level 35 ++ [SP] ++ c) (by rw [← e]; simp)]
    obtain ⟨k, rfl⟩ : ∃ k, level = k + 1 := ⟨level - 1, by omega⟩
    refine ⟨[35], List.replicate k 35 ++ [SP] ++ c, by simp [List.replicate_succ], by decide, by decide, fun w hw y hy => ?_⟩
    have hws : ∀ w ∈ whitespace, w ≠ [] ∧ 35 ∉ w := by decide
    cases w with
    | nil => exact (hws _ hw).1 rfl
    | cons b w =>
      rw [List.singleton_append, List.cons_prefix_cons] at hy
      exact (hws _ hw).2 (by simp [hy.1])

theorem ink_lead {c : UInt8} (h : Ink c) (s : Bytes) : Lead (c :: s) := by
  refine ⟨[c], s, rfl, fun e => h.ne.1 (List.mem_singleton.1 e).symm, fun e => h.ne.2.1 (List.mem_singleton.1 e).symm, fun w hw y hy => ?_⟩
  have hws : ∀ w ∈ whitespace, w ≠ [] := by decide
  cases w with
  | nil => exact hws _ hw rfl
  | cons b w =>
    rw [List.singleton_append, List.cons_prefix_cons] at hy
    exact h.ws _ hw (by simp [hy.1])

/-- A block that begins and ends with text is rendered so. -/
theorem render_text {E : Env} (stuck : Bool) {n : Bytes} (hn : BlockName n) (hb : E.tables.isBlock n = true) (a : List (Bytes × Bytes)) {cs : List Node}
    (hc : Frame ⟨Opened, Closed⟩ cs) {r : Bytes} (e : renderNode E false stuck (.elem n a cs) = some r) :
    ∃ core, Solid core ∧ Lead core ∧ r = b!"\n\n" ++ core ++ b!"\n\n" := by
  obtain ⟨core, hs, rfl⟩ := render_block E stuck hn hb a hc e
  obtain ⟨l, hl, e⟩ := render_inner E stuck hn hb a e
  have hlead : Lead l := by
    obtain ⟨⟨d, x, e', hd⟩, -⟩ := hc
    rw [e', renderL, renderNode] at hl
    cases hy : renderL E false (stuck || isProblematicParent n) x with
    | none => rw [hy] at hl; simp at hl
    | some X =>
      rw [hy] at hl
      simp only [linkTextTransform, Option.bind_some, Option.map_some, if_false, Bool.false_eq_true, Option.some.injEq] at hl
      rw [← hl]
      exact (opened_text E.mode hd).append X
  have htl : Tight l := by
    obtain ⟨-, y, d, e', hd⟩ := hc
    rw [e', _root_.Verif.Page.renderL_append] at hl
    cases hy : renderL E false (stuck || isProblematicParent n) y with
    | none => rw [hy] at hl; simp at hl
    | some X =>
      rw [hy] at hl
      simp only [renderL, renderNode, linkTextTransform, Option.bind_some, Option.map_some, List.append_nil, if_false, Bool.false_eq_true, Option.some.injEq] at hl
      rw [← hl]
      exact (closed_tight E.mode hd).behind X
  have hsl : Solid l := htl.solid
  refine ⟨core, hs, ?_, rfl⟩
  rcases e with ⟨_, _, hlv, e⟩ | e | e
  · exact heading_lead hlv hsl hlead e
  · obtain ⟨q, -, e'⟩ := quote_shape htl
    rw [List.append_cancel_left (List.append_cancel_right (e.trans e'))]
    exact ink_lead ⟨by decide, by decide⟩ q
  · rw [List.append_cancel_left (List.append_cancel_right e)]; exact hlead

/-! ## Seams -/

/-- A block that can be at the edge of a part. -/
def Seam (E : Env) (w : Outer) (s : Node) : Prop :=
  ∃ (n : Bytes) (a : List (Bytes × Bytes)) (cs : List Node) (C C' : List Node → Prop), s = .elem n a cs ∧ C cs ∧ Cuts E w n a C C' ∧
    ∀ cs', C' cs' → ∀ stuck r, renderNode E false stuck (.elem n a cs') = some r → ∃ core, Solid core ∧ Lead core ∧ r = b!"\n\n" ++ core ++ b!"\n\n"

theorem edge_seam {E : Env} {w : Outer} (hw : ∀ x ∈ w, x.1 ∉ markdownNames) (hcfg : EdgeConfig E.cfg.codeBlockFence E.cfg.horizontalRule) {s : Node}
    (h : EdgeBlock E.tables.isBlock s) : Seam E w s := by
  have hg : Good w := fun x hx => fine_of (hw x hx)
  rcases h with ⟨n, a, cs, rfl, hn, hb, h1, h2⟩ | ⟨hb, hx⟩ | ⟨hb, a, rfl⟩
  · exact ⟨n, a, cs, Frame charEnds, Frame ⟨Opened, Closed⟩, rfl, ⟨h1, h2⟩, frame_cuts opened_begins charEnds_robust hg (blockName_sep hn) hb,
      fun cs' hc stuck r e => render_text stuck hn hb a hc e⟩
  · obtain ⟨a, cs, rfl, hc⟩ := codeBlock_kind hx
    refine ⟨b!"pre", a, cs, CodeKind, CodeKind, rfl, hc, code_cuts hg hb.pre hb.span hb.text hb.br, fun cs' _ stuck r e => ?_⟩
    obtain ⟨c, x, core, hi, rfl, hs, e⟩ := render_code hcfg.fence stuck a cs' e
    exact ⟨_, hs, ink_lead hi x, e⟩
  · refine ⟨b!"hr", a, [], (· = []), (· = []), rfl, rfl, rule_cuts hg hb, ?_⟩
    rintro cs' rfl stuck r e
    have e' := render_rule E stuck a
    rw [rule] at e'
    rw [e', Option.some.injEq] at e
    obtain ⟨r0, d, hrd, hd⟩ := plainRule_split hcfg.rule
    refine ⟨E.cfg.horizontalRule, by rw [hrd]; exact hd.solid r0, ?_, by rw [← e, divider]⟩
    cases hr : E.cfg.horizontalRule with
    | nil => exact absurd hr hcfg.rule.ne
    | cons c x =>
      refine ink_lead ?_ x
      have hc := hcfg.rule.chars c (by rw [hr]; simp)
      have hf := hcfg.rule.first
      rw [hr, List.head?_cons, ne_eq, Option.some.injEq] at hf
      rcases hc with h | h | h | h
      · exact .of_rule (.inl h)
      · exact .of_rule (.inr (.inl h))
      · exact .of_rule (.inr (.inr h))
      · exact absurd h hf

theorem seam_separates {E : Env} {w : Outer} (hw : ∀ x ∈ w, x.1 ∉ markdownNames) (h0 : E.isDigit 0 = false) (h1 : E.isDigit 10 = false) {s : Node} (hs : Seam E w s)
    (L R : List (List Node)) {md : Bytes} (h : convertNode E (treeAround w L R s) = some md) :
    Continued (convertNode E (treeAround w [] [] s)) (convertNode E (treeAround w L [] s)) (convertNode E (treeAround w [] R s)) (some md) := by
  obtain ⟨n, a, cs, C, C', rfl, hc, hcuts, hr⟩ := hs
  obtain ⟨cs', hc', hcut⟩ := hcuts.preRender cs hc
  refine continued_cut hw hcut (fun stuck r e => ?_) h0 h1 L R h
  obtain ⟨core, k1, -, k2⟩ := hr cs' hc' stuck r e
  exact ⟨core, k1, k2⟩

theorem seam_panics {E : Env} {w : Outer} (hw : ∀ x ∈ w, x.1 ∉ markdownNames) {s : Node} (hs : Seam E w s) (L R : List (List Node)) :
    convertNode E (treeAround w L R s) = none ↔ convertNode E (treeAround w L [] s) = none ∨ convertNode E (treeAround w [] R s) = none := by
  obtain ⟨n, a, cs, C, C', rfl, hc, hcuts, -⟩ := hs
  obtain ⟨cs', -, hcut⟩ := hcuts.preRender cs hc
  obtain ⟨f, g, stuck, ⟨p, hf, -⟩, ⟨q, hg, -⟩, hall⟩ := rendered_cut E hw hcut
  rw [convertNode, convertNode, convertNode, hall, hall, hall, hf, hg]
  cases f L <;> cases renderNode E false stuck (.elem n a cs') <;> cases g R <;> simp

/-! ## Two blocks -/

/-- Containers add nothing but newlines. -/
theorem render_within (E : Env) {w : Outer} (hw : ∀ x ∈ w, x.1 ∉ markdownNames) :
    ∃ (p q : Bytes) (stuck : Bool), (∀ b ∈ p, b = NL) ∧ (∀ b ∈ q, b = NL) ∧
      ∀ content, renderNode E false false (documentOf w content) = (renderL E false stuck content).map fun x => p ++ x ++ q := by
  have key : ∀ stuck, ∃ (p q : Bytes) (stuck' : Bool), (∀ b ∈ p, b = NL) ∧ (∀ b ∈ q, b = NL) ∧
      ∀ content, renderL E false stuck (within w content) = (renderL E false stuck' content).map fun x => p ++ x ++ q := by
    induction w with
    | nil => intro stuck; exact ⟨[], [], stuck, by simp, by simp, fun c => by simp [within]⟩
    | cons x w ih =>
      obtain ⟨n, a⟩ := x
      intro stuck
      have hn : n ∉ markdownNames := hw (n, a) (by simp)
      obtain ⟨p, q, stuck', hp, hq, h⟩ := ih (fun y hy => hw y (by simp [hy])) (stuck || isProblematicParent n)
      have hfb : ∃ s : Bytes, (∀ b ∈ s, b = NL) ∧ ∀ x, fallback E n x = s ++ x ++ s := by
        by_cases hb : isBlock E n = true
        · exact ⟨b!"\n\n", by decide, fun x => by rw [fallback, if_pos hb]⟩
        · exact ⟨[], by simp, fun x => by rw [fallback, if_neg hb]; simp⟩
      obtain ⟨z, hz, hfb⟩ := hfb
      have n1 : isBoldOrItalic n = false := (fine_of hn).bold
      have n6 : DomUtils.isInlineCode n = false := (fine_of hn).code
      have n11 : isStrike n = false := (fine_of hn).strike
      simp only [markdownNames, List.mem_cons, List.not_mem_nil, or_false, not_or] at hn
      have n8 : isHeading n = false := by simp [isHeading, hn]
      refine ⟨z ++ p, q ++ z, stuck', ?_, ?_, fun content => ?_⟩
      · intro b hb
        rcases List.mem_append.1 hb with hb | hb
        · exact hz b hb
        · exact hp b hb
      · intro b hb
        rcases List.mem_append.1 hb with hb | hb
        · exact hq b hb
        · exact hz b hb
      · have e : renderNode E false stuck (.elem n a (within w content)) =
            (renderL E false (stuck || isProblematicParent n) (within w content)).map (fallback E n) := by
          rw [renderNode]
          simp only [n1, n6, n8, n11, hn, if_false, Bool.false_eq_true, false_and, or_self]
        rw [within, renderL, e, h]
        cases renderL E false stuck' content <;> simp [hfb, renderL]
  obtain ⟨p, q, stuck, hp, hq, h⟩ := key false
  have hdoc : ∃ s : Bytes, (∀ b ∈ s, b = NL) ∧ ∀ x, fallback E b!"#document" x = s ++ x ++ s := by
    by_cases hb : isBlock E b!"#document" = true
    · exact ⟨b!"\n\n", by decide, fun x => by rw [fallback, if_pos hb]⟩
    · exact ⟨[], by simp, fun x => by rw [fallback, if_neg hb]; simp⟩
  obtain ⟨z, hz, hdoc⟩ := hdoc
  refine ⟨z ++ p, q ++ z, stuck, ?_, ?_, fun content => ?_⟩
  · intro b hb
    rcases List.mem_append.1 hb with hb | hb
    · exact hz b hb
    · exact hp b hb
  · intro b hb
    rcases List.mem_append.1 hb with hb | hb
    · exact hq b hb
    · exact hz b hb
  · rw [documentOf, renderNode, h]
    cases renderL E false stuck content <;> simp [hdoc]

theorem finish_newlines {E : Env} (h0 : E.isDigit 0 = false) (h1 : E.isDigit 10 = false) {c : Bytes} (h : Lead c) :
    finish E.mode (handlers E) (NL :: NL :: NL :: NL :: c) = NL :: NL :: finish E.mode (handlers E) c := by
  have st : Escape.IsStock E.isDigit (handlers E) := _root_.Verif.Page.stock E
  obtain ⟨c, x, rfl, i1, i2, i3⟩ := h
  have hne := Lead.ne i3
  have e1 : trimConsecutiveNewlines (NL :: NL :: NL :: NL :: (c ++ x)) = NL :: NL :: trimConsecutiveNewlines (c ++ x) := by
    rw [trimConsecutiveNewlines, trimConsecutiveNewlines, newlines_lead x c 0 hne i1 i2]
    simp only [trimNewlinesGo, if_true]
    simp [newlines_lead x c _ hne i1 i2]
  have e2 : ∀ t, trimUnnecessaryHardLineBreaks (NL :: NL :: t) = NL :: NL :: trimUnnecessaryHardLineBreaks t := by
    intro t
    simp only [trimUnnecessaryHardLineBreaks]
    rw [replace_two rfl, replace_two rfl, replace_two rfl]
  have e3 : ∀ t, Escape.unEscapeContent E.mode (handlers E) (NL :: NL :: t) = NL :: NL :: Escape.unEscapeContent E.mode (handlers E) t := by
    intro t
    have := Escape.unEscape_split st h0 h1 E.mode [] t
    rw [List.nil_append, unEscape_nil] at this
    exact this
  have e4 : ∀ v, restoreCodeNewlines (NL :: v) = NL :: restoreCodeNewlines v := fun v => replaceAll_cut [NL] (by decide) (by decide) [] v
  rw [finish, finish, e1, e2, e3, e4, e4]

/-- The Markdown of two blocks. -/
theorem two_blocks {E : Env} {w : Outer} (hw : ∀ x ∈ w, x.1 ∉ markdownNames) (h0 : E.isDigit 0 = false) (h1 : E.isDigit 10 = false) {s t : Node}
    (hs : Seam E w s) (ht : Seam E w t) {x y z : Bytes} (ex : convertNode E (documentOf w [s]) = some x)
    (ey : convertNode E (documentOf w [t]) = some y) (ez : convertNode E (documentOf w [s, t]) = some z) : z = x ++ [NL, NL] ++ y := by
  obtain ⟨n, a, cs, C, C', rfl, hcs, c1, rs1⟩ := hs
  obtain ⟨m, b, ds, D, D', rfl, hds, c2, rs2⟩ := ht
  obtain ⟨cs', ds', hc, hd, e1, e2, e3⟩ := preRender_pair (fun x hx => fine_of (hw x hx)) c1 c2 cs ds hcs hds
  obtain ⟨p, q, stuck, hp, hq, hr⟩ := render_within E hw
  rw [convertNode, e1, hr] at ex
  rw [convertNode, e2, hr] at ey
  rw [convertNode, e3, hr] at ez
  simp only [renderL] at ex ey ez
  cases hrs : renderNode E false stuck (.elem n a cs') with
  | none => rw [hrs] at ex; simp at ex
  | some rs =>
  cases hrt : renderNode E false stuck (.elem m b ds') with
  | none => rw [hrt] at ey; simp at ey
  | some rt =>
  obtain ⟨c, c1, c2, rfl⟩ := rs1 cs' hc stuck rs hrs
  obtain ⟨d, d1, d2, rfl⟩ := rs2 ds' hd stuck rt hrt
  rw [hrs] at ex ez
  rw [hrt] at ey ez
  simp only [Option.bind_some, Option.map_some, Option.some.injEq, List.append_nil] at ex ey ez
  have st : Escape.IsStock E.isDigit (handlers E) := _root_.Verif.Page.stock E
  have ez' : postRender E.mode (handlers E) ((p ++ [NL] ++ NL :: c) ++ NL :: NL :: (NL :: NL :: d ++ NL :: NL :: q)) = z := by rw [← ez]; simp
  have ex' : postRender E.mode (handlers E) ((p ++ [NL] ++ NL :: c) ++ NL :: NL :: q) = x := by rw [← ex]; simp
  have ey' : postRender E.mode (handlers E) ((p ++ [NL] ++ NL :: d) ++ NL :: NL :: q) = y := by rw [← ey]; simp
  have k1 := (post_cut st h0 h1 E.mode (c1.behind (p ++ [NL])) (NL :: NL :: d ++ NL :: NL :: q)).1
  have k2 := (post_cut st h0 h1 E.mode (c1.behind (p ++ [NL])) q).1
  have k3 := (post_cut st h0 h1 E.mode (d1.behind (p ++ [NL])) q).1
  rw [newlines_end hq, finish_nil] at k2 k3
  rw [k1] at ez'
  rw [k2, List.append_nil] at ex'
  rw [k3, List.append_nil] at ey'
  have k4 : trimRight (NL :: NL :: (NL :: NL :: d ++ NL :: NL :: q)) = NL :: NL :: NL :: NL :: d := by
    have hsol : Solid (NL :: NL :: NL :: NL :: d) := d1.behind [NL, NL, NL]
    have := hsol.trimRight_append (z := NL :: NL :: q) (.inr ⟨_, rfl⟩)
    rw [newlines_end hq, List.append_nil] at this
    exact this
  have k5 : trimSpace (p ++ [NL] ++ NL :: d) = d := by
    have hws : Spec.AllWhitespace (p ++ [NL] ++ [NL]) := newlines_ws (by
      intro b hb
      simp only [List.mem_append, List.mem_singleton] at hb
      rcases hb with (hb | hb) | hb
      · exact hp b hb
      · exact hb
      · exact hb)
    have e : p ++ [NL] ++ NL :: d = (p ++ [NL] ++ [NL]) ++ d := by simp
    rw [trimSpace, e, trimLeft_ws hws, d2.trimLeft, trimRight_eq d1.2]
  rw [k4, finish_newlines h0 h1 d2, ex'] at ez'
  have ey2 : finish E.mode (handlers E) d = y := by
    rw [← ey']
    show _ = finish E.mode (handlers E) (trimSpace _)
    rw [k5]
  rw [← ez', ey2]
  simp

theorem two_panics {E : Env} {w : Outer} (hw : ∀ x ∈ w, x.1 ∉ markdownNames) {s t : Node}
    (hs : Seam E w s) (ht : Seam E w t) (h : convertNode E (documentOf w [s, t]) = none) :
    convertNode E (documentOf w [s]) = none ∨ convertNode E (documentOf w [t]) = none := by
  obtain ⟨n, a, cs, C, C', rfl, hcs, c1, rs1⟩ := hs
  obtain ⟨m, b, ds, D, D', rfl, hds, c2, rs2⟩ := ht
  obtain ⟨cs', ds', hc, hd, e1, e2, e3⟩ := preRender_pair (fun x hx => fine_of (hw x hx)) c1 c2 cs ds hcs hds
  obtain ⟨p, q, stuck, hp, hq, hr⟩ := render_within E hw
  rw [convertNode, e3, hr] at h
  rw [convertNode, convertNode, e1, e2, hr, hr]
  simp only [renderL] at h ⊢
  cases hrs : renderNode E false stuck (.elem n a cs') with
  | none => simp
  | some rs =>
  cases hrt : renderNode E false stuck (.elem m b ds') with
  | none => simp
  | some rt => rw [hrs, hrt] at h; simp at h

/-! ## Documents one behind the other -/

/-- **C103** Two documents that begin and end with blocks with text, code blocks or rules can be converted one by one: the Markdown of the document with the content of both is their
Markdown with a blank line between. -/
theorem c103_join {E : Env} {w : Outer} (hw : ∀ x ∈ w, x.1 ∉ markdownNames) (hcfg : EdgeConfig E.cfg.codeBlockFence E.cfg.horizontalRule) (h0 : E.isDigit 0 = false) (h1 : E.isDigit 10 = false) {A B : List Node}
    (hA : Chapter E.tables.isBlock A) (hB : Chapter E.tables.isBlock B) :
    convertNode E (documentOf w (A ++ B)) =
      (convertNode E (documentOf w A)).bind fun x => (convertNode E (documentOf w B)).map fun y => x ++ [NL, NL] ++ y := by
  obtain ⟨-, A, s, rfl, hs⟩ := hA
  obtain ⟨⟨t, B, rfl, ht⟩, -⟩ := hB
  obtain ⟨a1, a2, a3, a4⟩ := documentOf_around w s A (t :: B)
  obtain ⟨b1, b2, b3, b4⟩ := documentOf_around w t [s] B
  have whole : A ++ [s] ++ t :: B = A ++ s :: t :: B := by simp
  rw [List.singleton_append] at b1 b2
  have ss := edge_seam hw hcfg hs
  have st := edge_seam hw hcfg ht
  rw [whole]
  cases h : convertNode E (documentOf w (A ++ s :: t :: B)) with
  | some md =>
    rw [a1] at h
    obtain ⟨m1, u1, v1, e1, e2, e3, e4, -⟩ := seam_separates hw h0 h1 ss _ _ h
    rw [← a4] at e1
    rw [← a2] at e2
    rw [← a3, b1] at e3
    obtain ⟨m2, u2, v2, f1, f2, f3, f4, -⟩ := seam_separates hw h0 h1 st _ _ e3
    rw [← b4] at f1
    rw [← b2] at f2
    rw [← b3] at f3
    have h2 := two_blocks hw h0 h1 ss st e1 f1 f2
    rw [e2, f3]
    simp only [Option.some.injEq] at e4 f4
    rw [h2, List.append_assoc, List.append_assoc] at f4
    rw [e4, List.append_cancel_left f4]
    simp
  | none =>
    have bad : ∀ {o : Option Bytes}, (convertNode E (documentOf w (A ++ [s])) = none ∨ convertNode E (documentOf w (t :: B)) = none) →
        none = (convertNode E (documentOf w (A ++ [s]))).bind fun x => (convertNode E (documentOf w (t :: B))).map fun y => x ++ [NL, NL] ++ y := by
      rintro - (e | e)
      · rw [e]; rfl
      · rw [e]; simp
    refine bad (o := none) ?_
    have first : convertNode E (documentOf w [s]) = none → convertNode E (documentOf w (A ++ [s])) = none := by
      intro e
      rw [a2, seam_panics hw ss]
      exact .inr (by rw [← a4]; exact e)
    have last : convertNode E (documentOf w [t]) = none → convertNode E (documentOf w (t :: B)) = none := by
      intro e
      rw [b3, seam_panics hw st]
      exact .inl (by rw [← b4]; exact e)
    rw [a1, seam_panics hw ss, ← a2, ← a3] at h
    rcases h with h | h
    · exact .inl h
    · rw [b1, seam_panics hw st, ← b2, ← b3] at h
      rcases h with h | h
      · rcases two_panics hw ss st h with h | h
        · exact .inl (first h)
        · exact .inr (last h)
      · exact .inr h

theorem chapter_append {isBlock : Bytes → Bool} {A B : List Node} (hA : Chapter isBlock A) (hB : Chapter isBlock B) : Chapter isBlock (A ++ B) := by
  obtain ⟨⟨x, rest, e, hx⟩, -⟩ := hA
  obtain ⟨-, front, y, e', hy⟩ := hB
  exact ⟨⟨x, rest ++ B, by rw [e]; rfl, hx⟩, ⟨A ++ front, y, by rw [e']; simp, hy⟩⟩

theorem chapter_flatten {isBlock : Bytes → Bool} : ∀ {chapters : List (List Node)}, chapters ≠ [] → (∀ c ∈ chapters, Chapter isBlock c) → Chapter isBlock chapters.flatten
  | [], h, _ => absurd rfl h
  | [c], _, h => by rw [List.flatten_cons, List.flatten_nil, List.append_nil]; exact h c (by simp)
  | c :: d :: cs, _, h => by
    rw [List.flatten_cons]
    exact chapter_append (h c (by simp)) (chapter_flatten (by simp) fun x hx => h x (by simp only [List.mem_cons] at hx ⊢; exact .inr hx))

/-- **C103** Any number of chapters: if each can be converted, the whole document can be, and its Markdown is theirs with blank lines between. -/
theorem c103_chapters {E : Env} {w : Outer} (hw : ∀ x ∈ w, x.1 ∉ markdownNames) (hcfg : EdgeConfig E.cfg.codeBlockFence E.cfg.horizontalRule) (h0 : E.isDigit 0 = false) (h1 : E.isDigit 10 = false) :
    ∀ {chapters : List (List Node × Bytes)}, chapters ≠ [] → (∀ c ∈ chapters, Chapter E.tables.isBlock c.1 ∧ convertNode E (documentOf w c.1) = some c.2) →
      convertNode E (documentOf w (chapters.map (·.1)).flatten) = some (blankLines (chapters.map (·.2)))
  | [], h, _ => absurd rfl h
  | [c], _, h => by simpa [blankLines] using (h c (by simp)).2
  | c :: d :: cs, _, h => by
    have hc := h c (by simp)
    have ih := c103_chapters hw hcfg h0 h1 (chapters := d :: cs) (by simp) fun x hx => h x (by simp [hx])
    have hf : Chapter E.tables.isBlock ((d :: cs).map (·.1)).flatten := chapter_flatten (by simp) fun x hx => by
      obtain ⟨y, hy, rfl⟩ := List.mem_map.1 hx
      exact (h y (by simp only [List.mem_cons] at hy ⊢; exact .inr hy)).1
    rw [List.map_cons, List.flatten_cons, c103_join hw hcfg h0 h1 hc.1 hf, hc.2, ih]
    rfl

/-- **C103** A document of chapters cannot be converted only if one of them cannot be. -/
theorem c103_chapters_panic {E : Env} {w : Outer} (hw : ∀ x ∈ w, x.1 ∉ markdownNames) (hcfg : EdgeConfig E.cfg.codeBlockFence E.cfg.horizontalRule) (h0 : E.isDigit 0 = false) (h1 : E.isDigit 10 = false) :
    ∀ {chapters : List (List Node)}, chapters ≠ [] → (∀ c ∈ chapters, Chapter E.tables.isBlock c) →
      (convertNode E (documentOf w chapters.flatten) = none ↔ ∃ c ∈ chapters, convertNode E (documentOf w c) = none)
  | [], h, _ => absurd rfl h
  | [c], _, h => by simp
  | c :: d :: cs, _, h => by
    have ih := c103_chapters_panic hw hcfg h0 h1 (chapters := d :: cs) (by simp) fun x hx => h x (by simp [hx])
    have hf : Chapter E.tables.isBlock (d :: cs).flatten := chapter_flatten (by simp) fun x hx => h x (by simp only [List.mem_cons] at hx ⊢; exact .inr hx)
    rw [List.flatten_cons, c103_join hw hcfg h0 h1 (h c (by simp)) hf, show (∃ x, x ∈ c :: d :: cs ∧ convertNode E (documentOf w x) = none) ↔
      convertNode E (documentOf w c) = none ∨ ∃ x, x ∈ d :: cs ∧ convertNode E (documentOf w x) = none by simp, ← ih]
    cases convertNode E (documentOf w c) <;> cases convertNode E (documentOf w (d :: cs).flatten) <;> simp

/-- **C103** for pages as they come from a parser: the content of the body, maybe inside of other containers; doctype and head can be different. -/
theorem c103_page {E : Env} {w : Outer} (hw : ∀ x ∈ w, x.1 ∉ markdownNames) (hcfg : EdgeConfig E.cfg.codeBlockFence E.cfg.horizontalRule) (h0 : E.isDigit 0 = false) (h1 : E.isDigit 10 = false)
    (d d1 d2 : Bytes) (ha he he1 he2 ba : List (Bytes × Bytes)) (hs hs1 hs2 : List Node) {A B : List Node} (hA : Chapter E.tables.isBlock A) (hB : Chapter E.tables.isBlock B) :
    convertNode E (wholePage d ha he hs ba (within w (A ++ B))) =
      (convertNode E (wholePage d1 ha he1 hs1 ba (within w A))).bind fun x => (convertNode E (wholePage d2 ha he2 hs2 ba (within w B))).map fun y => x ++ [NL, NL] ++ y := by
  rw [wholePage_convert, wholePage_convert, wholePage_convert]
  exact c103_join (w := (b!"html", ha) :: (b!"body", ba) :: w) (by
    intro x hx
    rcases List.mem_cons.1 hx with rfl | hx
    · show b!"html" ∉ markdownNames; decide
    · rcases List.mem_cons.1 hx with rfl | hx
      · show b!"body" ∉ markdownNames; decide
      · exact hw x hx) hcfg h0 h1 hA hB

/-! ## The functions of the package and the command line tool -/

section engine
open Verif.Engine Verif.Stock
variable (S : GoSort) (H : CliConvert.Html)

/-- The Markdown of all the chapters. -/
theorem chapters_convert {E : Env} {w : Outer} (hw : ∀ x ∈ w, x.1 ∉ markdownNames) (hcfg : EdgeConfig E.cfg.codeBlockFence E.cfg.horizontalRule) (h0 : E.isDigit 0 = false) (h1 : E.isDigit 10 = false)
    {chapters : List (List Node)} (hne : chapters ≠ []) (hc : ∀ c ∈ chapters, Chapter E.tables.isBlock c) {out : Bytes} (h : convertNode E (documentOf w chapters.flatten) = some out) :
    ∃ md : List Node → Bytes, (∀ c ∈ chapters, convertNode E (documentOf w c) = some (md c)) ∧ out = blankLines (chapters.map md) := by
  have hsome : ∀ c ∈ chapters, convertNode E (documentOf w c) = some ((convertNode E (documentOf w c)).getD []) := by
    intro c hx
    cases e : convertNode E (documentOf w c) with
    | some x => rfl
    | none =>
      rw [(c103_chapters_panic hw hcfg h0 h1 hne hc).2 ⟨c, hx, e⟩] at h
      cases h
  refine ⟨fun c => (convertNode E (documentOf w c)).getD [], hsome, ?_⟩
  have := c103_chapters hw hcfg h0 h1 (chapters := chapters.map fun c => (c, (convertNode E (documentOf w c)).getD [])) (by simpa using hne) (by
    intro x hx
    obtain ⟨c, hm, rfl⟩ := List.mem_map.1 hx
    exact ⟨hc c hm, hsome c hm⟩)
  rw [List.map_map, List.map_map] at this
  have e : (fun x : List Node × Bytes => x.1) ∘ (fun c => (c, (convertNode E (documentOf w c)).getD [])) = id := rfl
  rw [e, List.map_id, h] at this
  exact Option.some.inj this

/-- **C103** for the functions of the package. -/
theorem c103_package {L : Lib} (h0 : L.isDigit 0 = false) (h1 : L.isDigit 10 = false) {ctx : Ctx Bool} (hctx : ctx.values b!"is_inside_link" ≠ some true)
    (ha : ∀ u, Utf8 u → Utf8 (L.assemble ctx.domain u)) {w : List (Bytes × List (Bytes × Bytes))} (hw : ∀ x ∈ w, x.1 ∉ markdownNames)
    {chapters : List (List Node)} (hne : chapters ≠ []) (hc : ∀ c ∈ chapters, Chapter L.tables.isBlock c) (hp : Page (documentOf w chapters.flatten)) :
    ∃ (md : List Node → Bytes) (k : Nat), ∀ fuel, k ≤ fuel →
      (∀ c ∈ chapters, Engine.convertNode S L.tables (defaultConverter L) fuel ctx (documentOf w c) = some (.ok (md c), defaultConverter L)) ∧
      Engine.convertNode S L.tables (defaultConverter L) fuel ctx (documentOf w chapters.flatten) = some (.ok (blankLines (chapters.map md)), defaultConverter L) := by
  obtain ⟨out, e, -⟩ := c30_conversion_no_panic_partial (E := defaultEnv L ctx.domain) hp
    (show Config.validate (Config.newPlugin []) = none by decide +kernel)
    (show PlainDelimiters (Config.newPlugin []) by unfold PlainDelimiters; decide) (by simp [PlainStrike, defaultEnv]) ha (.inl rfl)
  obtain ⟨md, hmd, rfl⟩ := chapters_convert (E := defaultEnv L ctx.domain) hw ⟨.inl rfl, plain_rule_default⟩ h0 h1 hne hc e
  obtain ⟨n, hn⟩ := c83_default S L hctx e
  have all : ∀ cs : List (List Node), (∀ c ∈ cs, convertNode (defaultEnv L ctx.domain) (documentOf w c) = some (md c)) → ∃ k : Nat, ∀ fuel, k ≤ fuel →
      ∀ c ∈ cs, Engine.convertNode S L.tables (defaultConverter L) fuel ctx (documentOf w c) = some (.ok (md c), defaultConverter L) := by
    intro cs
    induction cs with
    | nil => intro _; exact ⟨0, by simp⟩
    | cons c cs ih =>
      intro h
      obtain ⟨k, hk⟩ := ih fun x hx => h x (by simp [hx])
      obtain ⟨k', hk'⟩ := c83_default S L hctx (h c (by simp))
      refine ⟨k + k', fun fuel hf x hx => ?_⟩
      rcases List.mem_cons.1 hx with rfl | hx
      · exact hk' fuel (by omega)
      · exact hk fuel (by omega) x hx
  obtain ⟨k, hk⟩ := all chapters hmd
  exact ⟨md, n + k, fun fuel hf => ⟨hk fuel (by omega), hn fuel (by omega)⟩⟩

/-- **C103** for the command line tool: several inputs (each with the state of the world it is read in), and one input with the content of all of them (after the
selectors were applied). -/
theorem c103_tool (h0 : H.lib.isDigit 0 = false) (h1 : H.lib.isDigit 10 = false) {env : Cli.Env} (he : UsesEngine S H env) {args : List Bytes} {cfg : Cli.Config}
    (hf : Cli.parseFlags env.parseSelector args = .ok cfg) (hargs : cfg.args = []) (hver : cfg.version = false) (hin : cfg.input = []) (hout : cfg.output = [])
    {input : Bytes} (hstdin : env.stdin = some input) (h : ToolAccepts cfg) (hd : ∀ b ∈ cfg.strongDelimiter, b < 128 ∧ b ≠ 35)
    (ha : ∀ u, Utf8 u → Utf8 (H.lib.assemble cfg.domain u)) (hp : Page (H.parse input))
    {w : List (Bytes × List (Bytes × Bytes))} (hw : ∀ x ∈ w, x.1 ∉ markdownNames) {parts : List (Cli.Env × Bytes × List Node)} (hne : parts ≠ [])
    (hparts : ∀ p ∈ parts, UsesEngine S H p.1 ∧ Cli.parseFlags p.1.parseSelector args = .ok cfg ∧ p.1.stdin = some p.2.1 ∧ toolDoc H cfg p.2.1 = documentOf w p.2.2 ∧
      Chapter H.lib.tables.isBlock p.2.2)
    (d : toolDoc H cfg input = documentOf w (parts.map (·.2.2)).flatten) (fs : Cli.FS) :
    ∃ md : List Node → Bytes, (∀ p ∈ parts, (Cli.run p.1 args fs).stdout = md p.2.2 ++ [NL] ∧ (Cli.run p.1 args fs).err = none) ∧
      (Cli.run env args fs).stdout = blankLines (parts.map fun p => md p.2.2) ++ [NL] ∧ (Cli.run env args fs).err = none := by
  have hpd : Page (toolDoc H cfg input) := CliConvert.selectors_page hp
  obtain ⟨out, e, -⟩ := c30_conversion_no_panic_partial (E := toolEnv H cfg) hpd (tool_validate.2 h.strong) (tool_delimiters H hd) (tool_strike H) ha (.inl rfl)
  have e' := e
  rw [d] at e'
  have hch : ∀ c ∈ parts.map (·.2.2), Chapter (toolEnv H cfg).tables.isBlock c := by
    intro c hc
    obtain ⟨p, hp, rfl⟩ := List.mem_map.1 hc
    exact (hparts p hp).2.2.2.2
  have hne' : parts.map (·.2.2) ≠ [] := fun e => hne (List.map_eq_nil_iff.1 e)
  obtain ⟨md, hmd, ho⟩ := chapters_convert (E := toolEnv H cfg) hw ⟨.inl rfl, plain_rule_default⟩ h0 h1 hne' hch e'
  obtain ⟨r, s, -⟩ := c85_run S H he hf hargs hver hin hout hstdin h e fs
  refine ⟨md, fun p hp => ?_, ?_, r⟩
  · obtain ⟨p1, p2, p3, p4, -⟩ := hparts p hp
    have ep := hmd p.2.2 (List.mem_map.2 ⟨p, hp, rfl⟩)
    rw [← p4] at ep
    obtain ⟨r1, s1, -⟩ := c85_run S H p1 p2 hargs hver hin hout p3 h ep fs
    exact ⟨s1, r1⟩
  · rw [s, ho, List.map_map, Function.comp_def]

end engine

/-! ### Beside the theorems -/

/-- `<h1>One *two</h1><ul><li>a</li></ul><p>One <b>two</b> <i>three</i>\n four. </p>` -/
def firstChapter : List Node := [.elem b!"h1" [] [.text b!" One *two"], .elem b!"ul" [] [.elem b!"li" [] [.text b!"a"]], .elem b!"p" [] mixedContent]

/-- `<p>1. \u00e9</p>` -/
def secondChapter : List Node := [.elem b!"p" [] [.text b!"\n1. \u00e9 "]]

theorem mixed_begins : BeginsWithText mixedContent := ⟨_, _, rfl, [], [79], b!"ne ", rfl, by decide, by decide, by decide⟩

theorem first_chapter : Chapter titleEnv.tables.isBlock firstChapter :=
  ⟨⟨_, _, rfl, .inl ⟨_, _, _, rfl, .inl (by decide), by decide, ⟨_, _, rfl, [32], [79], b!"ne *two", rfl, by decide, by decide, by decide⟩,
    [], _, rfl, b!" One *tw", [111], [], rfl, by decide, by decide, by decide⟩⟩,
   ⟨[.elem b!"h1" [] [.text b!" One *two"], .elem b!"ul" [] [.elem b!"li" [] [.text b!"a"]]], _, rfl, .inl ⟨_, _, _, rfl, .inr (.inr (by decide)), by decide, mixed_begins, mixed_ends⟩⟩⟩

theorem second_block : TextBlock titleEnv.tables.isBlock (.elem b!"p" [] [.text b!"\n1. \u00e9 "]) :=
  ⟨_, _, _, rfl, .inr (.inr (by decide)), by decide, ⟨_, _, rfl, [10], [49], b!". \u00e9 ", rfl, by decide, by decide, by decide⟩,
    [], _, rfl, b!"\n1. ", b!"\u00e9", [32], rfl, by decide, by decide, by decide⟩

theorem second_chapter : Chapter titleEnv.tables.isBlock secondChapter := ⟨⟨_, _, rfl, .inl second_block⟩, [], _, rfl, .inl second_block⟩

theorem first_converted : convertNode titleEnv (documentOf ruleOuter firstChapter) = some b!"# One \\*two\n\n- a\n\nOne **two** *three* four." := by
  simp only [convertNode, preRender, strikePreRender, DomUtils.handlePreRender, mergeAdjacent_eq]
  decide +kernel

theorem second_converted : convertNode titleEnv (documentOf ruleOuter secondChapter) = some b!"1\\. \u00e9" := by
  simp only [convertNode, preRender, strikePreRender, DomUtils.handlePreRender, mergeAdjacent_eq]
  decide +kernel

theorem title_edge : EdgeConfig titleEnv.cfg.codeBlockFence titleEnv.cfg.horizontalRule := ⟨.inl (by decide), plain_rule_default⟩

/-- A code block and a rule: `<pre><code class="language-go">…</code></pre>a<hr>` -/
def thirdChapter : List Node := [goCode, .text b!" a ", rule []]

theorem third_chapter : Chapter titleEnv.tables.isBlock thirdChapter :=
  ⟨⟨_, _, rfl, .inr (.inl ⟨⟨by decide, by decide, by decide, by decide⟩, goCode_code⟩)⟩, [goCode, .text b!" a "], _, rfl, .inr (.inr ⟨by decide, _, rfl⟩)⟩

theorem third_converted : convertNode titleEnv (documentOf ruleOuter thirdChapter) = some b!"```go\nif a* < b {\n\n}\n```\n\na\n\n* * *" := by
  simp only [convertNode, preRender, strikePreRender, DomUtils.handlePreRender, mergeAdjacent_eq]
  decide +kernel

example : convertNode titleEnv (documentOf ruleOuter (thirdChapter ++ thirdChapter)) =
    some b!"```go\nif a* < b {\n\n}\n```\n\na\n\n* * *\n\n```go\nif a* < b {\n\n}\n```\n\na\n\n* * *" := by
  rw [c103_join (by decide) title_edge (by decide) (by decide) third_chapter third_chapter, third_converted]
  rfl

example : convertNode titleEnv (documentOf ruleOuter (firstChapter ++ secondChapter)) = some b!"# One \\*two\n\n- a\n\nOne **two** *three* four.\n\n1\\. \u00e9" := by
  rw [c103_join (by decide) title_edge (by decide) (by decide) first_chapter second_chapter, first_converted, second_converted]
  rfl

example : convertNode titleEnv (documentOf ruleOuter (secondChapter ++ (firstChapter ++ (secondChapter ++ [])))) =
    some b!"1\\. \u00e9\n\n# One \\*two\n\n- a\n\nOne **two** *three* four.\n\n1\\. \u00e9" :=
  c103_chapters (by decide) title_edge (by decide) (by decide) (chapters := [(secondChapter, b!"1\\. \u00e9"), (firstChapter, b!"# One \\*two\n\n- a\n\nOne **two** *three* four."),
    (secondChapter, b!"1\\. \u00e9")]) (by simp) (by
      intro c hc
      simp only [List.mem_cons, List.not_mem_nil, or_false] at hc
      rcases hc with rfl | rfl | rfl
      · exact ⟨second_chapter, second_converted⟩
      · exact ⟨first_chapter, first_converted⟩
      · exact ⟨second_chapter, second_converted⟩)

/-- A quote: `<blockquote>One <b>two</b> <i>three</i>\n four.</blockquote>` -/
def quoteChapter : List Node := [.elem b!"blockquote" [] mixedContent]

theorem quote_chapter : Chapter titleEnv.tables.isBlock quoteChapter :=
  have h : EdgeBlock titleEnv.tables.isBlock (.elem b!"blockquote" [] mixedContent) := .inl ⟨_, _, _, rfl, .inr (.inl rfl), by decide, mixed_begins, mixed_ends⟩
  ⟨⟨_, _, rfl, h⟩, [], _, rfl, h⟩

theorem quote_converted : convertNode titleEnv (documentOf ruleOuter quoteChapter) = some b!"> One **two** *three* four." := by
  simp only [convertNode, preRender, strikePreRender, DomUtils.handlePreRender, mergeAdjacent_eq]
  decide +kernel

/-- Two quotes one behind the other stay two quotes. -/
example : convertNode titleEnv (documentOf ruleOuter (quoteChapter ++ quoteChapter)) = some b!"> One **two** *three* four.\n\n> One **two** *three* four." := by
  rw [c103_join (by decide) title_edge (by decide) (by decide) quote_chapter quote_chapter, quote_converted]
  rfl

/-- A list at the end and a list at the beginning: a comment is put between them. -/
theorem c103_lists :
    convertNode titleEnv (documentOf [] [.elem b!"ul" [] [.elem b!"li" [] [.text b!"a"]]]) = some b!"- a" ∧
    convertNode titleEnv (documentOf [] ([.elem b!"ul" [] [.elem b!"li" [] [.text b!"a"]]] ++ [.elem b!"ul" [] [.elem b!"li" [] [.text b!"a"]]])) =
      some b!"- a\n\n<!--THE END-->\n\n- a" := by
  refine ⟨?_, ?_⟩ <;> (simp only [convertNode, preRender, strikePreRender, DomUtils.handlePreRender, mergeAdjacent_eq]; decide +kernel)

/-- A no-break space at the beginning is removed when the document begins with it. -/
theorem c103_no_break_space :
    convertNode titleEnv (documentOf [] [.elem b!"p" [] [.text b!"a"]]) = some b!"a" ∧
    convertNode titleEnv (documentOf [] [.elem b!"p" [] [.text b!"\u00a0b"]]) = some b!"b" ∧
    convertNode titleEnv (documentOf [] ([.elem b!"p" [] [.text b!"a"]] ++ [.elem b!"p" [] [.text b!"\u00a0b"]])) = some b!"a\n\n\u00a0b" := by
  refine ⟨?_, ?_, ?_⟩ <;> (simp only [convertNode, preRender, strikePreRender, DomUtils.handlePreRender, mergeAdjacent_eq]; decide +kernel)

end Verif.Props
