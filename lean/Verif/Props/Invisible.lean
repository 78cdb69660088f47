import Verif.Spec.Invisible
import Verif.Props.Alike
import Verif.Proofs.Doctype
/-!
# C99: documents that look the same have the same Markdown
-/

namespace Verif.Props
open Verif Verif.Render Verif.Spec Verif.DomUtils

theorem hidden_removed {x : Node} (h : Hidden x) : isRemoved x.name = true := by
  cases h with
  | comment d => exact show isRemoved b!"#comment" = true by decide
  | @elem n a cs hn =>
    have : ∀ n ∈ hiddenNames, isRemoved n = true := by decide
    exact this n hn

theorem looksSame_removed {cs cs' : List Node} (h : LooksSame cs cs') :
    ∀ prev, mergeTextGo prev (removeInL isRemoved cs) = mergeTextGo prev (removeInL isRemoved cs') := by
  have htext : ∀ d, isRemoved (Node.name (.text d)) = false := fun _ => show isRemoved b!"#text" = false by decide
  induction h with
  | hidden cs hx => intro prev; rw [removeInL, if_pos (hidden_removed hx)]
  | split d e cs =>
    intro prev
    simp only [removeInL, htext, Bool.false_eq_true, if_false, removeIn]
    cases prev <;> simp [mergeTextGo]
  | @inside n a ks ks' cs _ ih =>
    intro prev
    simp only [removeInL, Node.name]
    by_cases hn : isRemoved n = true
    · simp only [hn, if_true]
    · simp only [hn, if_false, removeIn, mergeTextGo, mergeText, ih none, Bool.false_eq_true]
  | @behind cs cs' x _ ih =>
    intro prev
    simp only [removeInL]
    split
    · exact ih prev
    · cases hx : removeIn isRemoved x with
      | text d => cases prev <;> simp only [mergeTextGo, ih]
      | comment d => simp only [mergeTextGo, ih]
      | doctype d => simp only [mergeTextGo, ih]
      | document ks => simp only [mergeTextGo, ih]
      | elem n a ks => simp only [mergeTextGo, ih]
  | same cs => intro prev; rfl
  | symm _ ih => intro prev; exact (ih prev).symm
  | trans _ _ ih1 ih2 => intro prev; exact (ih1 prev).trans (ih2 prev)

/-- **C99** Comments, scripts, styles, and so on, anywhere in a document, make no difference, and neither does it how the texts are split. -/
theorem c99_looks_same {E : Env} {cs cs' : List Node} (h : LooksSame cs cs') : convertNode E (.document cs) = convertNode E (.document cs') := by
  have : preRenderRemove isRemoved (.document cs) = preRenderRemove isRemoved (.document cs') := by
    rw [preRenderRemove, preRenderRemove, Node.name, Node.name, if_neg (by decide), if_neg (by decide)]
    rw [removeIn, removeIn, mergeText, mergeText, looksSame_removed h]
  rw [convertNode, convertNode, preRender, preRender, this]

/-- **C99** The doctype makes no difference. -/
theorem c99_doctype (E : Env) (d : Bytes) (cs : List Node) : convertNode E (.document (.doctype d :: cs)) = convertNode E (.document cs) := by
  rw [convertNode, convertNode, Cut.preRender_lead]

/-- **C99** for a node that is not a whole document. -/
theorem c99_looks_same_node {E : Env} {n : Bytes} (hn : n ≠ b!"#comment" ∧ n ∉ hiddenNames) (a : List (Bytes × Bytes)) {cs cs' : List Node}
    (h : LooksSame cs cs') : convertNode E (.elem n a cs) = convertNode E (.elem n a cs') := by
  have hr : ¬isRemoved n = true := by
    have : ∀ m ∈ baseRemoves, m = b!"#comment" ∨ m ∈ hiddenNames := by decide
    intro h
    rw [isRemoved, List.contains_iff_mem] at h
    rcases this n h with e | e
    · exact hn.1 e
    · exact hn.2 e
  have : preRenderRemove isRemoved (.elem n a cs) = preRenderRemove isRemoved (.elem n a cs') := by
    rw [preRenderRemove, preRenderRemove, Node.name, Node.name, if_neg hr, if_neg hr]
    rw [removeIn, removeIn, mergeText, mergeText, looksSame_removed h]
  rw [convertNode, convertNode, preRender, preRender, this]

section engine
open Verif.Engine Verif.Stock
variable (S : GoSort) (H : CliConvert.Html)

/-- **C99** for the functions of the package. -/
theorem c99_package {L : Lib} {ctx : Ctx Bool} (hctx : ctx.values b!"is_inside_link" ≠ some true)
    (ha : ∀ u, Utf8 u → Utf8 (L.assemble ctx.domain u)) {cs cs' : List Node} (hp : Page (.document cs)) (h : LooksSame cs cs') :
    ∃ md, ∃ n, ∀ fuel, n ≤ fuel → Engine.convertNode S L.tables (defaultConverter L) fuel ctx (.document cs) = some (.ok md, defaultConverter L) ∧
      Engine.convertNode S L.tables (defaultConverter L) fuel ctx (.document cs') = some (.ok md, defaultConverter L) := by
  obtain ⟨md, e, -⟩ := c30_conversion_no_panic_partial (E := defaultEnv L ctx.domain) hp (show Config.validate (Config.newPlugin []) = none by decide +kernel)
    (show PlainDelimiters (Config.newPlugin []) by unfold PlainDelimiters; decide) (by simp [PlainStrike, defaultEnv]) ha (.inl rfl)
  have e' := e
  rw [c99_looks_same (E := defaultEnv L ctx.domain) h] at e'
  obtain ⟨n, hn⟩ := c83_default S L hctx e
  obtain ⟨n', hn'⟩ := c83_default S L hctx e'
  exact ⟨md, n + n', fun fuel hf => ⟨hn fuel (by omega), hn' fuel (by omega)⟩⟩

/-- **C99** for the command line tool: the documents that are left after the selectors were applied look the same. -/
theorem c99_tool {env env' : Cli.Env} (he : UsesEngine S H env) (he' : UsesEngine S H env') {args args' : List Bytes} {cfg : Cli.Config}
    (hf : Cli.parseFlags env.parseSelector args = .ok cfg) (hf' : Cli.parseFlags env'.parseSelector args' = .ok cfg)
    (hargs : cfg.args = []) (hver : cfg.version = false) (hin : cfg.input = []) (hout : cfg.output = [])
    {input input' : Bytes} (hstdin : env.stdin = some input) (hstdin' : env'.stdin = some input') (h : ToolAccepts cfg)
    (hd : ∀ b ∈ cfg.strongDelimiter, b < 128 ∧ b ≠ 35) (ha : ∀ u, Utf8 u → Utf8 (H.lib.assemble cfg.domain u))
    (hp : Page (H.parse input)) {cs cs' : List Node} (hcs : toolDoc H cfg input = .document cs) (hcs' : toolDoc H cfg input' = .document cs')
    (hs : LooksSame cs cs') (fs fs' : Cli.FS) :
    (Cli.run env args fs).err = none ∧ (Cli.run env' args' fs').err = none ∧ (Cli.run env args fs).stdout = (Cli.run env' args' fs').stdout := by
  obtain ⟨md, e, -⟩ := c30_conversion_no_panic_partial (E := toolEnv H cfg) (doc := toolDoc H cfg input) (CliConvert.selectors_page hp) (tool_validate.2 h.strong)
    (tool_delimiters H hd) (tool_strike H) ha (.inl rfl)
  have e' := e
  rw [hcs, c99_looks_same (E := toolEnv H cfg) hs, ← hcs'] at e'
  obtain ⟨h1, h2, -⟩ := c85_run S H he hf hargs hver hin hout hstdin h e fs
  obtain ⟨h1', h2', -⟩ := c85_run S H he' hf' hargs hver hin hout hstdin' h e' fs'
  exact ⟨h1, h1', by rw [h2, h2']⟩

end engine

/-! ### Beside the theorems -/

/-- `<p>a<!-- x -->b <script>c</script><em>d</em></p>` and `<p>ab <em>d</em></p>` -/
example : LooksSame
    [.elem b!"p" [] [.text b!"a", .comment b!" x ", .text b!"b ", .elem b!"script" [] [.text b!"c"], .elem b!"em" [] [.text b!"d"]]]
    [.elem b!"p" [] [.text b!"ab ", .elem b!"em" [] [.text b!"d"]]] :=
  .inside _ (.trans (.behind _ (.hidden _ (.comment _))) (.trans (.behind _ (.behind _ (.hidden _ (.elem _ _ (by decide))))) (.split _ _ _)))

theorem hiddenPage_converted : convertNode alikeEnv (.document [.elem b!"p" [] [.text b!"a", .comment b!" x ", .text b!"b ",
    .elem b!"script" [] [.text b!"c"], .elem b!"em" [] [.text b!"d"]]]) = some b!"ab *d*" := by
  simp only [convertNode, preRender, strikePreRender, DomUtils.handlePreRender, mergeAdjacent_eq]
  decide +kernel

/-- A node that is converted by itself is not left out. -/
theorem c99_hidden_root : convertNode alikeEnv (.elem b!"script" [] [.text b!"c"]) = some b!"c" := by
  simp only [convertNode, preRender, strikePreRender, DomUtils.handlePreRender, mergeAdjacent_eq]
  decide +kernel

end Verif.Props
