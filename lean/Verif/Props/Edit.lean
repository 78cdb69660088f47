import Verif.Props.Join
/-!
# C105: an edit of a part changes only its Markdown
-/
set_option linter.unusedSimpArgs false

namespace Verif.Props
open Verif Verif.Render Verif.Spec Verif.DomUtils Verif.Commonmark Verif.Cut Verif.TextUtils

/-- What is in the Markdown before a part, if this content is before it. -/
def mdBefore (E : Env) (w : Outer) (before : List Node) : Bytes :=
  if before.isEmpty then [] else (convertNode E (documentOf w before)).getD [] ++ [NL, NL]

/-- What is in the Markdown behind a part, if this content is behind it. -/
def mdBehind (E : Env) (w : Outer) (behind : List Node) : Bytes :=
  if behind.isEmpty then [] else [NL, NL] ++ (convertNode E (documentOf w behind)).getD []

section
variable {E : Env} {w : Outer} (hw : ∀ x ∈ w, x.1 ∉ markdownNames) (hcfg : EdgeConfig E.cfg.codeBlockFence E.cfg.horizontalRule)
  (h0 : E.isDigit 0 = false) (h1 : E.isDigit 10 = false)

include hw hcfg h0 h1

theorem join_before {before c : List Node} (hb : before = [] ∨ Chapter E.tables.isBlock before) (hc : Chapter E.tables.isBlock c) {md : Bytes}
    (h : convertNode E (documentOf w (before ++ c)) = some md) : ∃ m, convertNode E (documentOf w c) = some m ∧ md = mdBefore E w before ++ m := by
  rcases hb with rfl | hb
  · exact ⟨md, h, rfl⟩
  · have hne : before.isEmpty = false := by
      obtain ⟨⟨x, rest, rfl, -⟩, -⟩ := hb
      rfl
    rw [c103_join hw hcfg h0 h1 hb hc] at h
    obtain ⟨x, hx, h⟩ := Option.bind_eq_some_iff.1 h
    obtain ⟨m, hm, rfl⟩ := Option.map_eq_some_iff.1 h
    exact ⟨m, hm, by rw [mdBefore, hne, hx]; rfl⟩

theorem join_behind {c behind : List Node} (hc : Chapter E.tables.isBlock c) (hb : behind = [] ∨ Chapter E.tables.isBlock behind) {md : Bytes}
    (h : convertNode E (documentOf w (c ++ behind)) = some md) : ∃ m, convertNode E (documentOf w c) = some m ∧ md = m ++ mdBehind E w behind := by
  rcases hb with rfl | hb
  · rw [List.append_nil] at h
    exact ⟨md, h, by simp [mdBehind]⟩
  · have hne : behind.isEmpty = false := by
      obtain ⟨⟨x, rest, rfl, -⟩, -⟩ := hb
      rfl
    rw [c103_join hw hcfg h0 h1 hc hb] at h
    obtain ⟨x, hx, h⟩ := Option.bind_eq_some_iff.1 h
    obtain ⟨m, hm, rfl⟩ := Option.map_eq_some_iff.1 h
    exact ⟨x, hx, by rw [mdBehind, hne, hm]; simp⟩

/-- **C105** An edit of a part changes only the Markdown of this part: what is before and behind it in the Markdown is the same for every content of the part. -/
theorem c105_edit {before behind : List Node} (hb : before = [] ∨ Chapter E.tables.isBlock before) (ha : behind = [] ∨ Chapter E.tables.isBlock behind) :
    ∃ u v, ∀ part, Chapter E.tables.isBlock part → ∀ md, convertNode E (documentOf w (before ++ part ++ behind)) = some md →
      ∃ m, convertNode E (documentOf w part) = some m ∧ md = u ++ m ++ v := by
  refine ⟨mdBefore E w before, mdBehind E w behind, fun part hp md h => ?_⟩
  have hbp : Chapter E.tables.isBlock (before ++ part) := by
    rcases hb with rfl | hb
    · exact hp
    · exact chapter_append hb hp
  obtain ⟨x, hx, rfl⟩ := join_behind hw hcfg h0 h1 hbp ha h
  obtain ⟨m, hm, rfl⟩ := join_before hw hcfg h0 h1 hb hp hx
  exact ⟨m, hm, rfl⟩

/-- **C105** A part that is removed (with a blank line) or inserted changes nothing else: the Markdown with it and without it. -/
theorem c105_remove {before part behind : List Node} (hb : Chapter E.tables.isBlock before) (hp : Chapter E.tables.isBlock part) (ha : Chapter E.tables.isBlock behind)
    {md : Bytes} (h : convertNode E (documentOf w (before ++ part ++ behind)) = some md) :
    ∃ u m v, convertNode E (documentOf w part) = some m ∧ md = u ++ [NL, NL] ++ m ++ [NL, NL] ++ v ∧
      convertNode E (documentOf w (before ++ behind)) = some (u ++ [NL, NL] ++ v) := by
  rw [c103_join hw hcfg h0 h1 (chapter_append hb hp) ha, c103_join hw hcfg h0 h1 hb hp] at h
  obtain ⟨x, hx, h⟩ := Option.bind_eq_some_iff.1 h
  obtain ⟨v, hv, rfl⟩ := Option.map_eq_some_iff.1 h
  obtain ⟨u, hu, hx⟩ := Option.bind_eq_some_iff.1 hx
  obtain ⟨m, hm, rfl⟩ := Option.map_eq_some_iff.1 hx
  exact ⟨u, m, v, hm, rfl, by rw [c103_join hw hcfg h0 h1 hb ha, hu, hv]; rfl⟩

/-- **C105** Parts in another order (any permutation) can be converted too, and give the same pieces of Markdown in this order. -/
theorem c105_reorder {parts parts' : List (List Node)} (hperm : parts.Perm parts') (hne : parts ≠ []) (hp : ∀ c ∈ parts, Chapter E.tables.isBlock c) {md : Bytes}
    (h : convertNode E (documentOf w parts.flatten) = some md) :
    ∃ piece : List Node → Bytes, (∀ c ∈ parts, convertNode E (documentOf w c) = some (piece c)) ∧ md = blankLines (parts.map piece) ∧
      convertNode E (documentOf w parts'.flatten) = some (blankLines (parts'.map piece)) := by
  obtain ⟨piece, hpiece, rfl⟩ := chapters_convert hw hcfg h0 h1 hne hp h
  refine ⟨piece, hpiece, rfl, ?_⟩
  have hne' : parts' ≠ [] := fun e => hne (by rw [e] at hperm; exact hperm.eq_nil)
  have := c103_chapters hw hcfg h0 h1 (chapters := parts'.map fun c => (c, piece c)) (by simpa using hne') (by
    intro x hx
    obtain ⟨c, hm, rfl⟩ := List.mem_map.1 hx
    have hm' := hperm.mem_iff.2 hm
    exact ⟨hp c hm', hpiece c hm'⟩)
  rw [List.map_map, List.map_map] at this
  have e : (fun x : List Node × Bytes => x.1) ∘ (fun c => (c, piece c)) = id := rfl
  rw [e, List.map_id] at this
  exact this

end

/-! ## The functions of the package -/

section engine
open Verif.Engine Verif.Stock
variable (S : GoSort)

/-- **C105** for the functions of the package. -/
theorem c105_package {L : Lib} (h0 : L.isDigit 0 = false) (h1 : L.isDigit 10 = false) {ctx : Ctx Bool} (hctx : ctx.values b!"is_inside_link" ≠ some true)
    (ha : ∀ u, Utf8 u → Utf8 (L.assemble ctx.domain u)) {w : List (Bytes × List (Bytes × Bytes))} (hw : ∀ x ∈ w, x.1 ∉ markdownNames)
    {before behind : List Node} (hbe : before = [] ∨ Chapter L.tables.isBlock before) (hbh : behind = [] ∨ Chapter L.tables.isBlock behind) :
    ∃ u v, ∀ part, Chapter L.tables.isBlock part → Page (documentOf w (before ++ part ++ behind)) → ∃ m k, ∀ fuel, k ≤ fuel →
      Engine.convertNode S L.tables (defaultConverter L) fuel ctx (documentOf w part) = some (.ok m, defaultConverter L) ∧
      Engine.convertNode S L.tables (defaultConverter L) fuel ctx (documentOf w (before ++ part ++ behind)) = some (.ok (u ++ m ++ v), defaultConverter L) := by
  obtain ⟨u, v, huv⟩ := c105_edit (E := defaultEnv L ctx.domain) hw ⟨.inl rfl, plain_rule_default⟩ h0 h1 hbe hbh
  refine ⟨u, v, fun part hp hpage => ?_⟩
  obtain ⟨md, e, -⟩ := c30_conversion_no_panic_partial (E := defaultEnv L ctx.domain) hpage
    (show Config.validate (Config.newPlugin []) = none by decide +kernel)
    (show PlainDelimiters (Config.newPlugin []) by unfold PlainDelimiters; decide) (by simp [PlainStrike, defaultEnv]) ha (.inl rfl)
  obtain ⟨m, hm, rfl⟩ := huv part hp md e
  obtain ⟨n1, f1⟩ := c83_default S L hctx hm
  obtain ⟨n2, f2⟩ := c83_default S L hctx e
  exact ⟨m, n1 + n2, fun fuel hf => ⟨f1 fuel (by omega), f2 fuel (by omega)⟩⟩

/-- **C105** for the command line tool: two inputs, a part alone and the part with other content before and behind it (after the selectors were applied). -/
theorem c105_tool (H : CliConvert.Html) (h0 : H.lib.isDigit 0 = false) (h1 : H.lib.isDigit 10 = false) {args : List Bytes} {cfg : Cli.Config}
    (hargs : cfg.args = []) (hver : cfg.version = false) (hin : cfg.input = []) (hout : cfg.output = []) (h : ToolAccepts cfg) (hd : ∀ b ∈ cfg.strongDelimiter, b < 128 ∧ b ≠ 35)
    (ha : ∀ u, Utf8 u → Utf8 (H.lib.assemble cfg.domain u)) {w : List (Bytes × List (Bytes × Bytes))} (hw : ∀ x ∈ w, x.1 ∉ markdownNames)
    {before behind : List Node} (hbe : before = [] ∨ Chapter H.lib.tables.isBlock before) (hbh : behind = [] ∨ Chapter H.lib.tables.isBlock behind) :
    ∃ u v, ∀ part, Chapter H.lib.tables.isBlock part → ∀ {env1 env : Cli.Env} {input1 input : Bytes}, UsesEngine S H env1 → UsesEngine S H env →
      Cli.parseFlags env1.parseSelector args = .ok cfg → Cli.parseFlags env.parseSelector args = .ok cfg → env1.stdin = some input1 → env.stdin = some input →
      Page (H.parse input) → toolDoc H cfg input1 = documentOf w part → toolDoc H cfg input = documentOf w (before ++ part ++ behind) → ∀ fs : Cli.FS,
      ∃ m, (Cli.run env1 args fs).stdout = m ++ [NL] ∧ (Cli.run env args fs).stdout = u ++ m ++ v ++ [NL] ∧
        (Cli.run env1 args fs).err = none ∧ (Cli.run env args fs).err = none := by
  obtain ⟨u, v, huv⟩ := c105_edit (E := toolEnv H cfg) hw ⟨.inl rfl, plain_rule_default⟩ h0 h1 hbe hbh
  refine ⟨u, v, fun part hp {env1 env input1 input} he1 he hf1 hf hs1 hs hpage d1 d fs => ?_⟩
  have hpd : Page (toolDoc H cfg input) := CliConvert.selectors_page hpage
  obtain ⟨md, e, -⟩ := c30_conversion_no_panic_partial (E := toolEnv H cfg) hpd (tool_validate.2 h.strong) (tool_delimiters H hd) (tool_strike H) ha (.inl rfl)
  have e' := e
  rw [d] at e'
  obtain ⟨m, hm, rfl⟩ := huv part hp md e'
  rw [← d1] at hm
  obtain ⟨r1, s1, -⟩ := c85_run S H he1 hf1 hargs hver hin hout hs1 h hm fs
  obtain ⟨r2, s2, -⟩ := c85_run S H he hf hargs hver hin hout hs h e fs
  exact ⟨m, s1, s2, r1, r2⟩

end engine

/-! ### Beside the theorems -/

/-- Three parts, and the same parts in another order. -/
theorem three_converted : convertNode titleEnv (documentOf ruleOuter [secondChapter, firstChapter, quoteChapter].flatten) =
    some b!"1\\. \u00e9\n\n# One \\*two\n\n- a\n\nOne **two** *three* four.\n\n> One **two** *three* four." := by
  simp only [convertNode, preRender, strikePreRender, DomUtils.handlePreRender, mergeAdjacent_eq]
  decide +kernel

theorem three_chapters : ∀ c ∈ [secondChapter, firstChapter, quoteChapter], Chapter titleEnv.tables.isBlock c := by
  intro c hc
  simp only [List.mem_cons, List.not_mem_nil, or_false] at hc
  rcases hc with rfl | rfl | rfl
  · exact second_chapter
  · exact first_chapter
  · exact quote_chapter

example : convertNode titleEnv (documentOf ruleOuter [quoteChapter, secondChapter, firstChapter].flatten) =
    some b!"> One **two** *three* four.\n\n1\\. \u00e9\n\n# One \\*two\n\n- a\n\nOne **two** *three* four." := by
  obtain ⟨piece, hpiece, -, h⟩ := c105_reorder (w := ruleOuter) (E := titleEnv) (by decide) title_edge (by decide) (by decide)
    (parts := [secondChapter, firstChapter, quoteChapter]) (parts' := [quoteChapter, secondChapter, firstChapter])
    ((List.perm_append_comm (l₁ := [secondChapter, firstChapter]) (l₂ := [quoteChapter]))) (by simp) three_chapters three_converted
  have e1 := hpiece secondChapter (by simp)
  have e2 := hpiece firstChapter (by simp)
  have e3 := hpiece quoteChapter (by simp)
  rw [second_converted, Option.some.injEq] at e1
  rw [first_converted, Option.some.injEq] at e2
  rw [quote_converted, Option.some.injEq] at e3
  rw [h, List.map_cons, List.map_cons, List.map_cons, List.map_nil, ← e1, ← e2, ← e3]
  rfl

/-- The part in the middle is edited. -/
example : ∃ u v, convertNode titleEnv (documentOf ruleOuter (secondChapter ++ firstChapter ++ quoteChapter)) = some (u ++ b!"# One \\*two\n\n- a\n\nOne **two** *three* four." ++ v) := by
  obtain ⟨u, v, h⟩ := c105_edit (w := ruleOuter) (E := titleEnv) (by decide) title_edge (by decide) (by decide) (.inr second_chapter) (.inr quote_chapter)
  have e : convertNode titleEnv (documentOf ruleOuter (secondChapter ++ firstChapter ++ quoteChapter)) = _ := three_converted
  obtain ⟨m, hm, hmd⟩ := h firstChapter first_chapter _ e
  rw [first_converted, Option.some.injEq] at hm
  exact ⟨u, v, by rw [e, hmd, ← hm]⟩

example : ∃ u v, convertNode titleEnv (documentOf ruleOuter (secondChapter ++ quoteChapter)) = some (u ++ [NL, NL] ++ v) := by
  have e : convertNode titleEnv (documentOf ruleOuter (secondChapter ++ firstChapter ++ quoteChapter)) = _ := three_converted
  obtain ⟨u, m, v, -, -, h⟩ := c105_remove (w := ruleOuter) (E := titleEnv) (by decide) title_edge (by decide) (by decide) second_chapter first_chapter quote_chapter e
  exact ⟨u, v, h⟩

/-- An edit of a part that is not such a part: a list that is put between two lists changes what is before and behind it, as comments are put between the lists. -/
theorem c105_list_edit :
    convertNode titleEnv (documentOf [] ([.elem b!"ul" [] [.elem b!"li" [] [.text b!"a"]]] ++ [.elem b!"p" [] [.text b!"x"]] ++ [.elem b!"ul" [] [.elem b!"li" [] [.text b!"b"]]])) =
      some b!"- a\n\nx\n\n- b" ∧
    convertNode titleEnv (documentOf [] ([.elem b!"ul" [] [.elem b!"li" [] [.text b!"a"]]] ++ [.elem b!"ul" [] [.elem b!"li" [] [.text b!"x"]]] ++ [.elem b!"ul" [] [.elem b!"li" [] [.text b!"b"]]])) =
      some b!"- a\n\n<!--THE END-->\n\n- x\n\n<!--THE END-->\n\n- b" := by
  refine ⟨?_, ?_⟩ <;> (simp only [convertNode, preRender, strikePreRender, DomUtils.handlePreRender, mergeAdjacent_eq]; decide +kernel)

end Verif.Props
