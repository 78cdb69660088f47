import Verif.Proofs.Inner
import Verif.Proofs.Marks
import Verif.Props.TableMarkdown
/-!
# Rendered content neither begins nor ends with a newline of code

`Tidy` is what holds of the output for every node: the escape markers are in front of visible characters, and the newlines of code are
surrounded by other visible characters.
-/
set_option linter.unusedSimpArgs false

namespace Verif.Edge
open Verif Verif.Spec Verif.TextUtils Verif.Escape Verif.Commonmark Verif.Table Verif.Props Verif.Inner
open Verif.Chars (chars_append utf8_starts chars_char utf8_ws utf8_nil utf8_append utf8_char utf8_ascii utf8_prefix utf8_suffix utf8_induct
  utf8_byte utf8_of_ascii isChar_cases not_low)

/-- The first and the last visible character are not newlines of code. -/
def Edge (s : Bytes) : Prop := (inner s).head? ≠ some codeNewline ∧ (inner s).getLast? ≠ some codeNewline

/-- What holds of the output for every node; with `np` there are no newlines of code at all. -/
structure Tidy (np : Bool) (s : Bytes) : Prop where
  utf8 : Utf8 s
  edge : Edge s
  marks : MarkersPlaced s
  code : np = true → codeNewline ∉ inner s

variable {np : Bool}

theorem edge_nil {s : Bytes} (h : inner s = []) : Edge s := by rw [Edge, h]; simp

theorem edge_plain {s : Bytes} (h : Plain s) : Edge s := by
  constructor
  · intro e; exact h.2 (List.mem_of_mem_head? (by rw [e]; rfl))
  · intro e; exact h.2 (List.mem_of_getLast? e)

theorem edge_append {a b : Bytes} (hb : Utf8 b) (h1 : Edge a) (h2 : Edge b) : Edge (a ++ b) := by
  rw [Edge, Inner.vis_append hb]
  constructor
  · cases e : inner a with
    | nil => rw [List.nil_append]; exact h2.1
    | cons x l => have := h1.1; rw [e] at this; simpa using this
  · rcases List.eq_nil_or_concat (inner b) with e | ⟨l, x, e⟩
    · rw [e, List.append_nil]; exact h1.2
    · have := h2.2
      rw [e, List.concat_eq_append] at this ⊢
      rw [← List.append_assoc, List.getLast?_append]
      simpa using this

theorem edge_keeps {s t : Bytes} (h : Inner.Keeps s t) (hs : Edge s) : Edge t := ⟨h.2.head hs.1, h.2.last hs.2⟩

/-- Anything between two plain ends. -/
theorem edge_between {a b c : Bytes} (hb : Utf8 b) (hc : Plain c) (ha : Plain a) (h1 : inner a ≠ []) (h2 : inner c ≠ []) : Edge (a ++ b ++ c) := by
  have e1 := edge_plain ha
  have e2 := edge_plain hc
  rw [Edge, Inner.vis_append hc.1, Inner.vis_append hb]
  constructor
  · cases e : inner a with
    | nil => exact absurd e h1
    | cons x l => have := e1.1; rw [e] at this; simpa using this
  · rcases List.eq_nil_or_concat (inner c) with e | ⟨l, x, e⟩
    · exact absurd e h2
    · have := e2.2
      rw [e, List.concat_eq_append] at this ⊢
      rw [← List.append_assoc, List.getLast?_append]
      simpa using this

theorem Tidy.append {a b : Bytes} (h1 : Tidy np a) (h2 : Tidy np b) : Tidy np (a ++ b) :=
  ⟨utf8_append h1.1 h2.1, edge_append h2.1 h1.2 h2.2, Marks.append h1.3 h2.3, fun hn => by
    rw [Inner.vis_append h2.1, List.mem_append]
    exact fun h => h.elim (h1.4 hn) (h2.4 hn)⟩

theorem not_mem {a b : List Bytes} (h : Ins a b) (ha : codeNewline ∉ a) : codeNewline ∉ b := by
  induction h with
  | nil => exact ha
  | keep c _ ih =>
    rw [List.mem_cons, not_or] at ha ⊢
    exact ⟨ha.1, ih ha.2⟩
  | add c hc _ ih =>
    rw [List.mem_cons, not_or]
    exact ⟨Ne.symm hc, ih ha⟩

theorem Tidy.keeps {s t : Bytes} (h : Tidy np s) (k : Inner.Keeps s t) (m : MarkersPlaced t) : Tidy np t := ⟨k.1, edge_keeps k h.2, m, fun hn => not_mem k.2 (h.4 hn)⟩

theorem tidy_plain {s : Bytes} (h : Plain s) (h7 : 7 ∉ s) : Tidy np s := ⟨h.1, edge_plain h, Marks.none h7, fun _ => h.2⟩
theorem tidy_ascii {s : Bytes} (h : ∀ b ∈ s, b < 128) (h7 : 7 ∉ s) : Tidy np s := tidy_plain (plain_ascii h) h7
theorem tidy_ws {s : Bytes} (h : AllWhitespace s) : Tidy np s := tidy_plain (plain_ws h) (Marks.ws_none h)
theorem tidy_nil : Tidy np [] := tidy_ascii (by simp) (by simp)
theorem tidy_nn : Tidy np b!"\n\n" := tidy_ascii (by decide) (by decide)
theorem tidy_nl : Tidy np [NL] := tidy_ascii (by decide) (by decide)
theorem tidy_rep {b : UInt8} (h : b < 128) (h7 : b ≠ 7) (n : Nat) : Tidy np (List.replicate n b) :=
  tidy_ascii (fun x hx => by rw [(List.mem_replicate.1 hx).2]; exact h) (fun hx => h7 (List.mem_replicate.1 hx).2.symm)

theorem Tidy.trimSpace {s : Bytes} (h : Tidy np s) : Tidy np (trimSpace s) := h.keeps (keeps_trimSpace h.1) (Marks.trimSpace h.3)
theorem Tidy.newlines {s : Bytes} (h : Tidy np s) : Tidy np (trimConsecutiveNewlines s) := h.keeps (keeps_newlines h.1) (Marks.newlines h.3)
theorem Tidy.hardBreaks {s : Bytes} (h : Tidy np s) : Tidy np (trimUnnecessaryHardLineBreaks s) := h.keeps (keeps_hardBreaks h.1) (Marks.hardBreaks h.3)
theorem Tidy.multi {s : Bytes} (h : Tidy np s) : Tidy np (escapeMultiLine s) := h.keeps (keeps_escapeMultiLine h.1) (Marks.escapeMultiLine h.3)

/-! ## Texts -/

/-- UTF-8 without bell characters and newlines of code. -/
structure Clean (d : Bytes) : Prop where
  plain : Plain d
  bell : 7 ∉ d

theorem Clean.tidy {d : Bytes} (h : Clean d) : Tidy np d := tidy_plain h.1 h.2

theorem Clean.keeps {s t : Bytes} (h : Clean s) (k : Inner.Keeps s t) (h7 : 7 ∉ t) : Clean t := ⟨⟨k.1, not_mem k.2 h.1.2⟩, h7⟩

theorem Clean.append {a b : Bytes} (h1 : Clean a) (h2 : Clean b) : Clean (a ++ b) := ⟨plain_append h1.1 h2.1, by simp [h1.2, h2.2]⟩

theorem clean_ascii {s : Bytes} (h : ∀ b ∈ s, b < 128) (h7 : 7 ∉ s) : Clean s := ⟨plain_ascii h, h7⟩

theorem chars_clean {d : Bytes} (h : codeNewline ∉ inner d) : codeNewline ∉ chars d :=
  fun hm => h (List.mem_filter.2 ⟨hm, by decide⟩)

theorem tidy_text (mode : Mode) (l : Bool) {d : Bytes} (h : Clean d) : Tidy np (linkTextTransform l (baseTextTransform mode isCommonmarkChar d)) := by
  have h1 : Tidy np (baseTextTransform mode isCommonmarkChar d) := by
    have hm := Marks.text mode h.bell
    have hp : Plain (baseTextTransform mode isCommonmarkChar d) := by
      rw [Chars.textTransform_eq]
      have : ∀ d, Utf8 d → codeNewline ∉ chars d → Plain (d.flatMap (Chars.textByte mode)) := by
        apply utf8_induct
        · intro _; exact plain_ascii (by simp)
        · intro c s hc hs ih hcn
          rw [chars_char hc (utf8_starts hs)] at hcn
          have ih := ih fun hm => hcn (by simp [hm])
          rw [List.flatMap_append]
          refine plain_append ?_ ih
          rcases isChar_cases hc with ⟨b, rfl, hb⟩ | hh
          · rw [List.flatMap_cons, List.flatMap_nil, List.append_nil]
            rw [Chars.textByte.eq_def]
            split
            · exact plain_ascii (by decide)
            split
            · exact plain_ascii (by decide)
            cases mode with
            | disabled => exact plain_ascii (by simpa using hb)
            | smart =>
              simp only
              split
              · exact ⟨by intro c hc; revert c; decide, by decide⟩
              split
              · refine plain_ascii ?_
                intro x hx; simp at hx; rcases hx with rfl | rfl
                · decide
                · exact hb
              · exact plain_ascii (by simpa using hb)
          · have hhi : ∀ b, 128 ≤ b → Chars.textByte mode b = [b] := by
              intro b hb
              rw [Chars.textByte.eq_def, if_neg (not_low hb (by decide)), if_neg (not_low hb (by decide))]
              cases mode with
              | disabled => rfl
              | smart =>
                simp only
                rw [if_neg (not_low hb (by decide)), if_neg]
                intro hm
                exact not_low hb (commonmarkChars_lt b hm).1 rfl
            have e : c.flatMap (Chars.textByte mode) = c := by
              have : ∀ c : Bytes, (∀ y ∈ c, 128 ≤ y) → c.flatMap (Chars.textByte mode) = c := by
                intro c
                induction c with
                | nil => intro _; rfl
                | cons y c ihc =>
                  intro hy
                  rw [List.flatMap_cons, ihc fun z hz => hy z (by simp [hz]), hhi y (hy y (by simp))]
                  rfl
              exact this c hh
            rw [e]
            refine ⟨by simpa using utf8_char hc utf8_nil, ?_⟩
            intro hm
            have := (List.mem_filter.1 hm).1
            rw [← List.append_nil c, chars_char hc (utf8_starts utf8_nil)] at this
            have e0 : chars ([] : Bytes) = [] := rfl
            rw [e0, List.mem_singleton] at this
            exact hcn (by simp [this])
      exact this d h.plain.1 (chars_clean h.plain.2)
    exact ⟨hp.1, edge_plain hp, hm, fun _ => hp.2⟩
  refine h1.keeps ?_ (Marks.link_text l h1.3)
  rw [linkTextTransform]
  split
  · have k : Inner.Keeps [MARK, 93] [BS, 93] := ⟨utf8_of_ascii (by decide), show Ins [[93]] [[BS], [93]] from Ins.add [BS] (by decide) (Ins.refl [[93]])⟩
    exact Inner.keeps_replaceAll (by decide) (utf8_of_ascii (by decide)) k _ h1.1
  · exact Inner.Keeps.refl h1.1

/-! ## The renderers -/

theorem tidy_delimited {d s : Bytes} (hd : Plain d) (h7 : 7 ∉ d) (hs : Tidy np s) : Tidy np (delimited d s) :=
  hs.keeps (keeps_delimited hd hs.1) (Marks.delimited (Marks.none h7) hs.3)

theorem tidy_blockquote {s : Bytes} (h : Tidy np s) : Tidy np (blockquote s) := by
  rw [Commonmark.blockquote]
  dsimp only
  split
  · exact tidy_nil
  · have h3 := h.trimSpace.newlines.hardBreaks
    exact (tidy_nn.append (h3.keeps (Inner.keeps_prefixLines (plain_ascii (by decide)) h3.1) (Marks.prefixLines (Marks.none (by decide)) h3.3))).append tidy_nn

theorem keeps_pound {s t : Bytes} (hs : Utf8 s) (hne : s ≠ []) (h : Chars.EndsOk s) (ht : escapePoundSignAtEnd s = some t) : Inner.Keeps s t := by
  rw [escapePoundSignAtEnd] at ht
  rcases List.eq_nil_or_concat s with rfl | ⟨s', c, rfl⟩
  · exact absurd rfl hne
  rw [List.concat_eq_append] at *
  rw [List.reverse_append] at ht
  simp only [List.reverse_cons, List.reverse_nil, List.nil_append, List.singleton_append] at ht
  by_cases hc : c = 35
  · subst hc
    rw [if_neg (by simp)] at ht
    have hl : Chars.LastVis (s' ++ [35]) s' [35] [] :=
      ⟨by simp, utf8_prefix hs (utf8_byte (by decide)), by decide, by decide, utf8_nil, rfl⟩
    obtain ⟨p, m, rfl, hm⟩ := h _ _ hl
    have hp : Utf8 p := utf8_prefix hl.before (utf8_byte (by rcases hm with rfl | rfl <;> decide))
    rw [List.reverse_append] at ht
    simp only [List.reverse_cons, List.reverse_nil, List.nil_append, List.singleton_append] at ht
    have k : Inner.Keeps (p ++ [m] ++ [35]) (p ++ [BS] ++ [35]) := by
      rw [List.append_assoc, List.append_assoc]
      refine Inner.Keeps.append (Inner.Keeps.refl hp) (utf8_of_ascii (by rcases hm with rfl | rfl <;> decide)) ⟨utf8_of_ascii (by decide), ?_⟩
      rcases hm with rfl | rfl
      · exact show Ins [[35]] [[BS], [35]] from Ins.add [BS] (by decide) (Ins.refl [[35]])
      · exact Ins.refl [[BS], [35]]
    rcases List.eq_nil_or_concat p with rfl | ⟨z, b, rfl⟩
    · cases ht; exact k
    · rw [List.concat_eq_append] at *
      rw [List.reverse_append] at ht
      simp only [List.reverse_cons, List.reverse_nil, List.nil_append, List.singleton_append] at ht
      by_cases hb : b = BS
      · rw [if_pos hb] at ht; cases ht; exact Inner.Keeps.refl hs
      · rw [if_neg hb] at ht; cases ht; simpa using k
  · rw [if_pos hc] at ht; cases ht; exact Inner.Keeps.refl hs

theorem tidy_atx {s : Bytes} (h : Tidy np s) : Tidy np (atxContent s) := by
  rw [atxContent]
  have k1 := Inner.keeps_replace_one (a := NL) (new := [SP]) (by decide) (by decide) (plain_ascii (by decide)) h.1
  have h1 := h.keeps k1 (Marks.replace_one (by decide) (by decide) (Marks.none (by decide)) h.3)
  have k2 := Inner.keeps_replace_one (a := 13) (new := [SP]) (by decide) (by decide) (plain_ascii (by decide)) h1.1
  have h2 := h1.keeps k2 (Marks.replace_one (by decide) (by decide) (Marks.none (by decide)) h1.3)
  exact (h2.keeps (Inner.keeps_doubleSpaces _ h2.1 0) (Marks.doubleSpaces _ _ h2.3)).trimSpace

theorem tidy_heading {setext : Bool} {level : Nat} {s t : Bytes} (h : Tidy np s) (hE : Chars.EndsOk s) (e : heading setext level s = some t) : Tidy np t := by
  rw [Commonmark.heading] at e
  by_cases h0 : (trimSpace s).length = 0
  · rw [if_pos h0] at e; cases e; exact tidy_nil
  rw [if_neg h0] at e
  split at e
  · cases e
    have hul : Tidy np (setextUnderline level (underlineWidth (escapeMultiLine (trimConsecutiveNewlines s)) 3)) := by
      rw [setextUnderline]
      split <;> exact tidy_rep (by decide) (by decide) _
    exact (((tidy_nn.append h.newlines.multi).append tidy_nl).append hul).append tidy_nn
  · rw [Option.map_eq_some_iff] at e
    obtain ⟨c, e, rfl⟩ := e
    have ha := tidy_atx h
    have hne : atxContent s ≠ [] := Props.atx_nonempty fun hw => h0 (by rw [(trimSpace_nil_iff s).2 hw]; rfl)
    have hao := Chars.atx_ends h.1 hE
    have hct : Tidy np c := ha.keeps (keeps_pound ha.1 hne hao.1 e) (Marks.pound ha.3 e)
    exact (((tidy_nn.append (tidy_rep (by decide) (by decide) _)).append (tidy_ascii (s := [SP]) (by decide) (by decide))).append hct).append tidy_nn

/-! ### Lists -/

theorem tidy_multiLine {s : Bytes} (h : Tidy np s) (n : Nat) : Tidy np (multiLineListItem s n) := by
  refine h.keeps ?_ (Marks.multiLine h.3 n)
  rw [multiLineListItem]
  have hl := Inner.utf8_lines s h.1
  have hi : Plain (List.replicate n SP) := plain_ascii fun b hb => by rw [(List.mem_replicate.1 hb).2]; decide
  have hi0 : inner (List.replicate n SP) = [] := (Inner.utf8_spaces (by simp)).2
  generalize List.replicate n SP = indent at hi hi0
  have : ∀ (ls : List Bytes), (∀ l ∈ ls, Utf8 l) → ∀ first, Utf8 (multiLineListItemGo indent first ls) ∧
      Ins (ls.flatMap inner) (inner (multiLineListItemGo indent first ls)) := by
    intro ls
    induction ls with
    | nil => intro _ first; exact ⟨utf8_nil, Ins.nil⟩
    | cons l ls ih =>
      intro hu first
      obtain ⟨i1, i2⟩ := ih (fun x hx => hu x (by simp [hx])) false
      rw [multiLineListItemGo]
      have k1 : Inner.Keeps l (Verif.replaceAll codeNewline (codeNewline ++ indent) l) := by
        refine Inner.keeps_replaceAll (by decide) Chars.utf8_codeNewline.1 ⟨utf8_append Chars.utf8_codeNewline.1 hi.1, ?_⟩ l (hu l (by simp))
        rw [Inner.vis_append hi.1, hi0, List.append_nil]
        exact Ins.refl _
      have hp : Plain (if first = true then [] else indent) := by
        split
        · exact plain_ascii (by simp)
        · exact hi
      have hs : Plain (if ls = [] then [] else [NL]) := by
        split <;> exact plain_ascii (by decide)
      have k2 := (k1.after _ hp).before _ hs
      refine ⟨utf8_append k2.1 i1, ?_⟩
      rw [Inner.vis_append i1, List.flatMap_cons]
      exact k2.2.append i2
  have := this _ hl.1 true
  exact ⟨this.1, by rw [hl.2]; exact this.2⟩

theorem tidy_list {un : Bytes → Bytes} (hun : ∀ s, Tidy np s → Tidy np (un s)) {ordered : Bool} {bullet : Bytes} (hb : Tidy np bullet) (start : Int) {xs : List Bytes}
    (h : ∀ x ∈ xs, Tidy np x) : Tidy np (list un ordered bullet start xs) := by
  rw [Commonmark.list]
  dsimp only
  split
  · exact tidy_nil
  · have hi : ∀ x ∈ (xs.map Verif.trimSpace).filter (· ≠ []), Tidy np x := by
      intro x hx
      obtain ⟨y, hy, rfl⟩ := List.mem_map.1 (List.mem_filter.1 hx).1
      exact (h y hy).trimSpace
    generalize (xs.map Verif.trimSpace).filter (· ≠ []) = items at hi
    have hp : ∀ i, Tidy np (listPrefix ordered bullet start items.length i) := by
      intro i
      rw [listPrefix]
      split
      · exact hb.append (tidy_ascii (by decide) (by decide))
      · refine Tidy.append ?_ (tidy_ascii (by decide) (by decide))
        have hn : ∀ n, Tidy np (natBytes n) := fun n =>
          tidy_ascii (Chars.ascii_natBytes n) fun hm => absurd (natBytes_mem n 7 hm).1 (by decide)
        rw [padInt]
        split
        · exact (tidy_ascii (s := [45]) (by decide) (by decide)).append ((tidy_rep (by decide) (by decide) _).append (hn _))
        · exact (tidy_rep (by decide) (by decide) _).append (hn _)
    generalize listPrefix ordered bullet start items.length = pfx at hp
    have : ∀ (items : List Bytes), (∀ x ∈ items, Tidy np x) → ∀ n i, Tidy np (listItemsGo un pfx n i items) := by
      intro items
      induction items with
      | nil => intro _ n i; exact tidy_nil
      | cons x items ih =>
        intro hx n i
        rw [listItemsGo]
        refine (((hp i).append (tidy_multiLine (hun _ (hx x (by simp)).newlines.hardBreaks) n)).append ?_).append (ih (fun y hy => hx y (by simp [hy])) n (i + 1))
        split
        · exact tidy_nil
        · exact tidy_nl
    exact (tidy_nn.append (this items hi _ 0)).append tidy_nn

theorem tidy_un (mode : Mode) (hs : List Handler) {s : Bytes} (h : Tidy np s) : Tidy np (unEscapeContent mode hs s) := by
  refine h.keeps (keeps_unEscape mode hs h.1) ?_
  cases mode with
  | smart => exact Marks.none (c02_no_marker hs s)
  | disabled => exact h.3

/-! ### Code, images, links -/

theorem mem_trimSpace {s : Bytes} {b : UInt8} (h : b ∈ Verif.trimSpace s) : b ∈ s := by
  obtain ⟨l, r, -, -, e, -⟩ := trimSpace_spec s
  rw [e]; simp [h]

theorem mem_doubleSpaces {b : UInt8} : ∀ (s : Bytes) (n : Nat), b ∈ dropDoubleSpaces n s → b ∈ s
  | [], _, h => h
  | x :: s, n, h => by
    rw [dropDoubleSpaces] at h
    split at h
    · split at h
      · exact List.mem_cons_of_mem _ (mem_doubleSpaces s _ h)
      · rcases List.mem_cons.1 h with h | h
        · simp [h]
        · exact List.mem_cons_of_mem _ (mem_doubleSpaces s _ h)
    · rcases List.mem_cons.1 h with h | h
      · simp [h]
      · exact List.mem_cons_of_mem _ (mem_doubleSpaces s _ h)

theorem replaced {old new s : Bytes} (hne : old ≠ []) (hn : 7 ∉ new) (h : 7 ∉ s) : 7 ∉ Verif.replaceAll old new s :=
  fun hm => (mem_replaceAll hne new 7 s hm).elim h hn

theorem tidy_inlineCode {s : Bytes} (h : Clean s) : Tidy np (inlineCode s) := by
  rw [inlineCode]
  by_cases h0 : Verif.trimSpace s = []
  · rw [if_pos h0]
    exact (((clean_ascii (by decide) (by decide)).append h).append (clean_ascii (by decide) (by decide))).tidy
  · rw [if_neg h0]
    have hc : Clean (collapseInlineCodeContent s) := by
      rw [collapseInlineCodeContent]
      have h1 := h.keeps (Inner.keeps_replace_one (a := NL) (new := [SP]) (by decide) (by decide) (plain_ascii (by decide)) h.1.1) (replaced (by decide) (by decide) h.2)
      have h2 := h1.keeps (Inner.keeps_replace_one (a := 9) (new := [SP]) (by decide) (by decide) (plain_ascii (by decide)) h1.1.1) (replaced (by decide) (by decide) h1.2)
      have h3 := h2.keeps (Inner.keeps_trimSpace h2.1.1) fun hm => h2.2 (mem_trimSpace hm)
      exact h3.keeps (Inner.keeps_doubleSpaces _ h3.1.1 0) fun hm => h3.2 (mem_doubleSpaces _ _ hm)
    generalize collapseInlineCodeContent s = code at hc ⊢
    dsimp only
    have hsp : Clean [SP] := clean_ascii (by decide) (by decide)
    have k2 : Clean (if [96].isPrefixOf code = true then [SP] ++ code else code) := by
      split
      · exact hsp.append hc
      · exact hc
    generalize (if [96].isPrefixOf code = true then [SP] ++ code else code) = code2 at k2 ⊢
    have k3 : Clean (if [96].isSuffixOf code2 = true then code2 ++ [SP] else code2) := by
      split
      · exact k2.append hsp
      · exact k2
    generalize (if [96].isSuffixOf code2 = true then code2 ++ [SP] else code2) = code3 at k3 ⊢
    exact ((tidy_rep (by decide) (by decide) _).append k3.tidy).append (tidy_rep (by decide) (by decide) _)

theorem tidy_blockCode {c : UInt8} (hc : c < 128 ∧ Inner.vis [c] = true) {info s : Bytes} (hi : Utf8 info) (hi7 : 7 ∉ info) (hs' : Clean s) :
    Tidy false (blockCode c info s) := by
  obtain ⟨⟨hs, -⟩, h7⟩ := hs'
  have hu := (Chars.keeps_blockCode hc.1 hi hs).1
  have hk := Chars.keeps_dropNewline hs
  have ht7 : 7 ∉ dropTrailingNewline s := by
    rw [dropTrailingNewline]
    split
    · exact fun hm => h7 (List.dropLast_subset _ hm)
    · exact h7
  rw [blockCode] at hu ⊢
  generalize dropTrailingNewline s = t at hk ht7 hu ⊢
  have k2 := Chars.keeps_replace_one (a := NL) (new := codeNewline) (by decide) (by decide) Chars.utf8_codeNewline.1 hk.1
  have hr7 : 7 ∉ Verif.replaceAll [NL] codeNewline t := replaced (by decide) (by decide) ht7
  generalize Verif.replaceAll [NL] codeNewline t = code at k2 hr7 hu ⊢
  have hf : ∃ k, calculateCodeFence c t = c :: List.replicate k c := by
    rw [calculateCodeFence]
    split
    · exact ⟨2, rfl⟩
    · exact ⟨_, rfl⟩
  obtain ⟨k, ef⟩ := hf
  rw [ef] at hu ⊢
  have hp : Plain (c :: List.replicate k c) := plain_ascii fun b hb => by
    rcases List.mem_cons.1 hb with rfl | hb
    · exact hc.1
    · rw [(List.mem_replicate.1 hb).2]; exact hc.1
  have hne : inner (c :: List.replicate k c) ≠ [] := by
    rw [Inner.vis_ascii hc.1 (Chars.utf8_rep hc.1 k), if_pos hc.2]; simp
  have h7c : 7 ∉ c :: List.replicate k c := by
    have : c ≠ 7 := by rintro rfl; exact absurd hc.2 (by decide)
    intro hm
    rcases List.mem_cons.1 hm with hm | hm
    · exact this hm.symm
    · exact this (List.mem_replicate.1 hm).2.symm
  generalize c :: List.replicate k c = fence at hp hne h7c hu ⊢
  have hnn : Plain b!"\n\n" := plain_ascii (by decide)
  refine ⟨hu, ?_, Marks.none ?_, by simp⟩
  · have e : b!"\n\n" ++ fence ++ info ++ [NL] ++ code ++ [NL] ++ fence ++ b!"\n\n" = (b!"\n\n" ++ fence) ++ (info ++ [NL] ++ code ++ [NL]) ++ (fence ++ b!"\n\n") := by
      simp
    rw [e]
    refine edge_between ?_ (plain_append hp hnn) (plain_append hnn hp) ?_ ?_
    · exact utf8_append (utf8_append (utf8_append hi (utf8_byte (by decide))) k2.1) (utf8_byte (by decide))
    · rw [Inner.vis_append hp.1]; simp [hne]
    · rw [Inner.vis_append hnn.1]; simp [hne]
  · simp [h7c, hi7, hr7]

theorem free_alt : ∀ (s : Bytes) (p : Option UInt8), 7 ∉ s → 7 ∉ escapeAltGo p s
  | [], _, h => h
  | b :: s, p, h => by
    have ih := free_alt s (some b) fun hm => h (by simp [hm])
    have hb : (7 : UInt8) ≠ b := fun e => h (by simp [e])
    rw [escapeAltGo]
    split
    · simp [ih, hb]
    · simp [ih, hb]

theorem keeps_escapeAlt : ∀ s, Utf8 s → ∀ prev, Inner.Keeps s (escapeAltGo prev s) := by
  apply utf8_induct
  · intro prev; exact Inner.Keeps.refl utf8_nil
  · intro c s hc hs ih prev
    rcases isChar_cases hc with ⟨b, rfl, hb⟩ | h
    · rw [List.singleton_append, escapeAltGo]
      have h1 : Inner.Keeps [b] [b] := Inner.Keeps.refl (utf8_byte hb)
      split
      · exact Inner.Keeps.append (a' := [BS, b]) (h1.after [BS] (plain_ascii (by decide))) hs (ih _)
      · exact Inner.Keeps.append h1 hs (ih _)
    · have key : ∀ x : Bytes, (∀ y ∈ x, 128 ≤ y) → ∀ prev, ∃ prev', escapeAltGo prev (x ++ s) = x ++ escapeAltGo prev' s := by
        intro x
        induction x with
        | nil => intro _ prev; exact ⟨prev, rfl⟩
        | cons y x ihx =>
          intro hy prev
          have hn : ¬ ((y = 91 ∨ y = 93) ∧ prev ≠ some BS) := by
            rintro ⟨h | h, _⟩
            · exact not_low (hy y (by simp)) (by decide) h
            · exact not_low (hy y (by simp)) (by decide) h
          obtain ⟨p', e⟩ := ihx (fun z hz => hy z (by simp [hz])) (some y)
          exact ⟨p', by rw [List.cons_append, escapeAltGo, if_neg hn, e]; rfl⟩
      obtain ⟨p', e⟩ := key c h prev
      rw [e]
      exact Inner.Keeps.append (Inner.Keeps.refl (by simpa using utf8_char hc utf8_nil)) hs (ih _)

theorem clean_newlines {t : Bytes} (h : Clean t) : Clean (Verif.replaceAll [NL] [SP] t) :=
  h.keeps (Inner.keeps_replace_one (by decide) (by decide) (plain_ascii (by decide)) h.1.1) (replaced (by decide) (by decide) h.2)

theorem clean_title {t : Bytes} (h : Clean t) : Clean (titlePart t) := by
  have hq : Clean [34] := clean_ascii (by decide) (by decide)
  have hq2 : Clean [39] := clean_ascii (by decide) (by decide)
  have hn : Clean [] := clean_ascii (by simp) (by simp)
  rw [titlePart]
  split
  · refine Clean.append (a := [SP]) (clean_ascii (by decide) (by decide)) ?_
    split
    · exact hn
    · dsimp only
      split
      · rw [surroundBy]
        have k : Inner.Keeps [34] [BS, 34] := (Inner.Keeps.refl hq.1.1).after [BS] (plain_ascii (by decide))
        exact (hq.append (h.keeps (Inner.keeps_replaceAll (by decide) (utf8_byte (by decide)) k t h.1.1) (replaced (by decide) (by decide) h.2))).append hq
      · split
        · exact (hq2.append h).append hq2
        · exact (hq.append h).append hq
  · exact hn

theorem tidy_image {assemble : Bytes → Bytes} (ha : ∀ u, Clean u → Clean (assemble u)) {src title alt t : Bytes}
    (h1 : Clean src) (h2 : Clean title) (h3 : Clean alt) (h : image assemble src title alt = some t) : Tidy np t := by
  rw [image] at h
  dsimp only at h
  split at h
  · exact absurd h (by simp)
  · injection h with h
    subst h
    have u1 := ha _ (h1.keeps (Inner.keeps_trimSpace h1.1.1) fun hm => h1.2 (mem_trimSpace hm))
    have u2 := clean_title (clean_newlines h2)
    have h4 := clean_newlines h3
    have u3 : Clean (escapeAlt (Verif.replaceAll [NL] [SP] alt)) := h4.keeps (keeps_escapeAlt _ h4.1.1 _) (free_alt _ _ h4.2)
    have a : ∀ s : Bytes, s = b!"![" ∨ s = b!"](" ∨ s = b!")" → Clean s := by
      rintro s (rfl | rfl | rfl) <;> exact clean_ascii (by decide) (by decide)
    exact ((((((a _ (by simp)).append u3).append (a _ (by simp))).append u1).append u2).append (a _ (by simp))).tidy

theorem tidy_link {sh sc : Bool} {href title content t : Bytes} (h1 : Clean href) (h2 : Clean title) (h3 : Tidy np content)
    (h : link sh sc href title content = some t) : Tidy np t := by
  rw [link] at h
  split at h
  · exact absurd h (by simp)
  split at h
  · exact absurd h (by simp)
  obtain ⟨e1, e2, e3, -⟩ := Props.c23_surrounding_spaces content
  rw [linkContent] at h
  generalize surroundingSpaces content = p at e1 e2 e3 h
  obtain ⟨l, m, r⟩ := p
  simp only [Option.some.injEq] at e1 e2 e3 h
  obtain ⟨hm, hv⟩ := Inner.utf8_trimmed h3.1 e2 e3 e1.symm
  have hT : Clean (titlePart (if href = [] then [] else Verif.replaceAll [NL] [SP] title)) := by
    split
    · exact clean_title (clean_ascii (by simp) (by simp))
    · exact clean_title (clean_newlines h2)
  generalize titlePart (if href = [] then [] else Verif.replaceAll [NL] [SP] title) = T at hT h
  have hmt : Tidy np m := h3.keeps (Inner.Keeps.eq hm hv) (Marks.suffix (a := l) (Marks.before_ws (r := r) (by rw [← e1] at h3; exact h3.3) e3))
  have hM := hmt.newlines.multi
  generalize escapeMultiLine (trimConsecutiveNewlines m) = M at hM h
  subst h
  have a : ∀ s : Bytes, s = [91] ∨ s = b!"](" ∨ s = b!")" → Tidy np s := by
    rintro s (rfl | rfl | rfl) <;> exact tidy_ascii (by decide) (by decide)
  exact ((((((((tidy_ws e2).append (a _ (by simp))).append hM).append (a _ (by simp))).append h1.tidy).append hT.tidy).append (a _ (by simp)))).append (tidy_ws e3)

end Verif.Edge
