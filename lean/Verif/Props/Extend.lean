import Verif.Props.Stock
import Verif.Proofs.Extend
/-!
# C87: registrations for some tags leave other documents as they are
-/

namespace Verif.Props
open Verif Verif.Engine Verif.Stock Verif.Spec

variable (S : GoSort) (L : Lib)

/-- **C87**: a converter with the stock plugins and any number of further registrations (tag types, `RendererFor`, renderers, plugins
that do this; with any handlers and priorities) that are about elements with certain names converts every document without such elements
as without these registrations. -/
theorem c87_other_tags {o : Options} {kinds : List Kind} {t : Table.Config} (hk : Usual kinds) (hv : o.Valid kinds t) {names : List Bytes}
    {extra : List (Op Bool)} (hx : ∀ op ∈ extra, Concerns names op) {doc : Node} (hdoc : Without names doc) {ctx : Ctx Bool}
    (hctx : ctx.values b!"is_inside_link" ≠ some true) {md : Bytes} (h : Render.convertNode (o.env L kinds t ctx.domain) doc = some md) :
    ∃ n, ∀ fuel, n ≤ fuel →
      Engine.convertNode S L.tables (o.converter L kinds) fuel ctx doc = some (.ok md, o.converter L kinds) ∧
      Engine.convertNode S L.tables (applyAll (o.converter L kinds) extra) fuel ctx doc = some (.ok md, applyAll (o.converter L kinds) extra) := by
  obtain ⟨n, hn⟩ := c83_engine S L hk hv hctx h
  have hn' := without_ok hdoc
  obtain ⟨hm, hm'⟩ := without_marks hdoc
  have hx' := applyAll_extends hx (o.converter L kinds)
  generalize applyAll (o.converter L kinds) extra = c at hx' ⊢
  rw [plugins_eq L hv ctx.domain] at hx'
  have hc := ext_ok S ⟨L, Config.newPlugin o.commonmark, o.mode, none, none, ctx.domain⟩ (Config.orDefault o.delimiter b!"~~") t hk hx' hm
  have hnames := only_preRender hm' (setup ⟨L, Config.newPlugin o.commonmark, o.mode, none, none, ctx.domain⟩ (Config.orDefault o.delimiter b!"~~") t kinds).env hn'
  exact ⟨n + (depth (Render.preRender (o.env L kinds t ctx.domain) doc) + 1), fun fuel hf => ⟨hn fuel (by omega),
    convert_right hc hnames.1 hnames.2.1 hnames.2.2 rfl hctx h fuel (Nat.lt_of_lt_of_le (Nat.lt_succ_self _) (Nat.le_trans (Nat.le_add_left _ n) hf))⟩⟩

/-- **C87**: any number of conversions with one such converter, for any documents without these elements. -/
theorem c87_history {o : Options} {kinds : List Kind} {t : Table.Config} (hk : Usual kinds) (hv : o.Valid kinds t) {names : List Bytes}
    {extra : List (Op Bool)} (hx : ∀ op ∈ extra, Concerns names op) :
    ∀ (jobs : List (Ctx Bool × Node × Bytes)), (∀ j ∈ jobs, Without names j.2.1 ∧ j.1.values b!"is_inside_link" ≠ some true ∧
      Render.convertNode (o.env L kinds t j.1.domain) j.2.1 = some j.2.2) →
    ∃ n, ∀ fuel, n ≤ fuel → Engine.convertAll S L.tables (applyAll (o.converter L kinds) extra) fuel (jobs.map fun j => (j.1, j.2.1)) =
      some (jobs.map fun j => .ok j.2.2)
  | [], _ => ⟨0, fun _ _ => rfl⟩
  | j :: jobs, h => by
    have hj := h j (by simp)
    obtain ⟨n, hn⟩ := c87_other_tags S L hk hv hx hj.1 hj.2.1 hj.2.2
    obtain ⟨m, hm⟩ := c87_history hk hv hx jobs fun j hj => h j (by simp [hj])
    refine ⟨max n m, fun fuel hf => ?_⟩
    rw [List.map_cons, convertAll, (hn fuel (by omega)).2, Option.bind_some, hm fuel (by omega)]
    rfl

/-! ### Beside the theorems -/

/-- `conv.Register.RendererFor("video", TagTypeBlock, base.RenderAsHTML, PriorityEarly)`, a tag type, and a plugin with a renderer that
looks at the name of the node. -/
def videoOps : List (Op Bool) :=
  [.rendererFor b!"video" .block (renderAsHTML demoLib) 100, .tagType b!"nav" .remove 900,
   .plugin b!"mine" [.renderer (fun _ l => if l.name = b!"x-y" then success b!"!" else tryNext) 2] none]

example : ∀ op ∈ videoOps, Concerns [b!"video", b!"nav", b!"x-y"] op := by
  intro op hop
  simp only [videoOps, List.mem_cons, List.not_mem_nil, or_false] at hop
  rcases hop with rfl | rfl | rfl
  · exact .rendererFor _ _ _ (by simp)
  · exact .tagType _ _ (by simp)
  · refine .plugin (by decide) ?_
    intro op hop
    rw [List.mem_singleton.1 hop]
    refine .renderer _ fun ctx l hl => ?_
    simp only [List.mem_cons, List.not_mem_nil, or_false, not_or] at hl
    rw [if_neg hl.2.2]
    rfl

example : Without [b!"video", b!"nav", b!"x-y"] stockDoc := ⟨rfl, by decide +kernel, by decide +kernel⟩

/-- `<h1><h2>a</h2></h1>` -/
def nestedHeading : Node := .document [.elem b!"h1" [] [.elem b!"h2" [] [.text b!"a"]]]

/-- Why the names that the normalisation makes are excluded: there is no `<strong>` in this document, but a renderer for it changes the result. -/
theorem c87_counterexample_made :
    b!"strong" ∉ elementNames nestedHeading ∧
    (Engine.convertNode stableSort demoLib.tables (({} : Options).converter demoLib [.base, .commonmark]) 9 {} nestedHeading).map (fun r => r.1.toOption) =
      some (some b!"# **a**") ∧
    (Engine.convertNode stableSort demoLib.tables (applyAll (({} : Options).converter demoLib [.base, .commonmark])
      [.rendererFor b!"strong" .inline (fun _ _ => success b!"!") 100]) 9 {} nestedHeading).map (fun r => r.1.toOption) = some (some b!"# !") := by
  refine ⟨by decide, ?_, ?_⟩
  · simp only [Options.converter, Options.plugin, List.map, commonmarkPlugin, commonmarkInit]
    unfold commonmarkPre
    simp only [DomUtils.handlePreRender, Render.mergeAdjacent_eq]
    decide +kernel
  · simp only [Options.converter, Options.plugin, List.map, commonmarkPlugin, commonmarkInit]
    unfold commonmarkPre
    simp only [DomUtils.handlePreRender, Render.mergeAdjacent_eq]
    decide +kernel

end Verif.Props
