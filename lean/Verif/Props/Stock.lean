import Verif.Proofs.StockConv
import Verif.Props.Render
/-!
# Properties C83, C84: the stock plugins in the engine

`Spec.Options.converter` is a converter built with `NewConverter`, `WithEscapeMode` and `WithPlugins`.  `Engine.convertNode` is
`ConvertNode` with whatever handlers are registered, `Render.convertNode` the conversion with the stock plugins built in, which the
properties of the Markdown are about.

`S` is any `sort.Slice` as described by `GoSort`, `L` whatever the plugins use from outside.
-/

namespace Verif.Props
open Verif Verif.Engine Verif.Stock Verif.Spec

variable (S : GoSort) (L : Lib)

theorem plugins_eq {o : Options} {kinds : List Kind} {t : Table.Config} (hv : o.Valid kinds t) (domain : Bytes) :
    o.converter L kinds = Stock.conv ⟨L, Config.newPlugin o.commonmark, o.mode, none, none, domain⟩ (Config.orDefault o.delimiter b!"~~") t kinds := by
  have : kinds.map (o.plugin L) = kinds.map (plug ⟨L, Config.newPlugin o.commonmark, o.mode, none, none, domain⟩ (Config.orDefault o.delimiter b!"~~") t) := by
    refine List.map_congr_left fun k hk => ?_
    cases k with
    | base => rfl
    | commonmark => simp only [Options.plugin, commonmarkPlugin, hv.commonmark, if_true, plug]
    | strikethrough => rfl
    | table => simp only [Options.plugin, tablePlugin, hv.table hk, plug]
  rw [Options.converter, this]
  rfl

/-- **C83**: the engine, with the stock plugins registered in any usual order, computes the conversion that the other properties are
about, and leaves the converter as it was. -/
theorem c83_engine {o : Options} {kinds : List Kind} {t : Table.Config} (hk : Usual kinds) (hv : o.Valid kinds t) {ctx : Ctx Bool}
    (hctx : ctx.values b!"is_inside_link" ≠ some true) {doc : Node} {md : Bytes} (h : Render.convertNode (o.env L kinds t ctx.domain) doc = some md) :
    ∃ n, ∀ fuel, n ≤ fuel → Engine.convertNode S L.tables (o.converter L kinds) fuel ctx doc = some (.ok md, o.converter L kinds) := by
  rw [plugins_eq L hv ctx.domain]
  exact ⟨_, fun fuel hf => convert_right (conv_ok S ⟨L, Config.newPlugin o.commonmark, o.mode, none, none, ctx.domain⟩
    (Config.orDefault o.delimiter b!"~~") t hk) (names_all.1 _) (names_all.1 _) (names_all.1 _) rfl hctx h fuel hf⟩

/-- `ConvertNode` of the package (and so `ConvertString` and `ConvertReader` after parsing) uses a converter with the base and the CommonMark
plugin and default options. -/
theorem c83_default_converter : defaultConverter L = ({} : Options).converter L [.base, .commonmark] := rfl

/-- The base and the CommonMark plugin, default options. -/
def defaultEnv (domain : Bytes) : Render.Env where
  cfg := Config.newPlugin []
  mode := .smart
  assemble := L.assemble domain
  tables := L.tables
  isDigit := L.isDigit
  strike := none
  table := none

/-- **C83**: the functions of the package compute the conversion with the base and the CommonMark plugin and default options. -/
theorem c83_default {ctx : Ctx Bool} (hctx : ctx.values b!"is_inside_link" ≠ some true) {doc : Node} {md : Bytes}
    (h : Render.convertNode (defaultEnv L ctx.domain) doc = some md) :
    ∃ n, ∀ fuel, n ≤ fuel → Engine.convertNode S L.tables (defaultConverter L) fuel ctx doc = some (.ok md, defaultConverter L) :=
  c83_engine S L (o := {}) (kinds := [.base, .commonmark]) (t := {}) ⟨by decide, by decide, by decide, by decide⟩ ⟨by decide +kernel, by simp⟩ hctx h

/-- **C83**: any number of conversions with one converter, for any documents and domains, each give what they give alone. -/
theorem c83_history {o : Options} {kinds : List Kind} {t : Table.Config} (hk : Usual kinds) (hv : o.Valid kinds t) :
    ∀ (jobs : List (Ctx Bool × Node × Bytes)), (∀ j ∈ jobs, j.1.values b!"is_inside_link" ≠ some true ∧
      Render.convertNode (o.env L kinds t j.1.domain) j.2.1 = some j.2.2) →
    ∃ n, ∀ fuel, n ≤ fuel → Engine.convertAll S L.tables (o.converter L kinds) fuel (jobs.map fun j => (j.1, j.2.1)) =
      some (jobs.map fun j => .ok j.2.2)
  | [], _ => ⟨0, fun _ _ => rfl⟩
  | j :: jobs, h => by
    obtain ⟨n, hn⟩ := c83_engine S L hk hv (h j (by simp)).1 (h j (by simp)).2
    obtain ⟨m, hm⟩ := c83_history hk hv jobs fun j hj => h j (by simp [hj])
    refine ⟨max n m, fun fuel hf => ?_⟩
    rw [List.map_cons, convertAll, hn fuel (by omega), Option.bind_some, hm fuel (by omega)]
    rfl

/-- **C83**: with the default escape mode every page is converted, in every usual order of the plugins, and in any of them to the same
UTF-8. -/
theorem c83_any_order {o : Options} {kinds : List Kind} {t : Table.Config} (hv : o.Valid kinds t) {doc : Node} (hp : Page doc)
    (hm : o.mode = .smart) (hd : PlainDelimiters (Config.newPlugin o.commonmark)) {ctx : Ctx Bool} (hs : PlainStrike (o.env L kinds t ctx.domain))
    (ha : ∀ u, Utf8 u → Utf8 (L.assemble ctx.domain u)) (hctx : ctx.values b!"is_inside_link" ≠ some true) :
    ∃ md, Utf8 md ∧ ∀ order, order.Perm kinds → Usual order →
      ∃ n, ∀ fuel, n ≤ fuel → Engine.convertNode S L.tables (o.converter L order) fuel ctx doc = some (.ok md, o.converter L order) := by
  obtain ⟨md, e, hu⟩ := c30_conversion_no_panic_partial (E := o.env L kinds t ctx.domain) hp hv.commonmark hd hs ha (.inl hm)
  refine ⟨md, hu, fun order hperm hk => ?_⟩
  have hv' : o.Valid order t := ⟨hv.commonmark, fun h => hv.table (hperm.mem_iff.1 h)⟩
  have e' : o.env L order t ctx.domain = o.env L kinds t ctx.domain := by simp only [Options.env, hperm.mem_iff]
  exact c83_engine S L hk hv' hctx (by rw [e', e])

/-! ### Beside the theorems -/

/-- Some tables, digits and addresses. -/
def demoLib : Lib where
  tables := (demoEnv .smart).tables
  isDigit := (demoEnv .smart).isDigit
  assemble := fun domain url => domain ++ url
  renderHTML := fun n => b!"<" ++ n.name ++ b!">"

/-- All plugins, in an order that is not the usual one in examples. -/
example : Usual [.table, .commonmark, .base, .strikethrough] := ⟨by decide, by decide, by decide, by decide⟩
example : ({ table := [.padding b!"minimal"] } : Options).Valid [.table, .commonmark, .base, .strikethrough] { padding := .minimal } :=
  ⟨by decide +kernel, fun _ => rfl⟩

/-- A case of `c83_engine`: `<p><del>~~~</del></p><table><tr><th>a</th></tr></table><a href="/b">c</a>` -/
def stockDoc : Node := .document [.elem b!"p" [] [.elem b!"del" [] [.text b!"~~~"]],
  .elem b!"table" [] [.elem b!"tr" [] [.elem b!"th" [] [.text b!"a"]]], .elem b!"a" [(b!"href", b!"/b")] [.text b!"c"]]
example : Render.convertNode (({ table := [.padding b!"minimal"] } : Options).env demoLib [.table, .commonmark, .base, .strikethrough]
    { padding := .minimal } b!"http://x.de") stockDoc = some b!"~~\\~\\~\\~~~\n\n| a |\n|---|\n\n[c](http://x.de/b)" := by
  simp only [Render.convertNode, Render.preRender, Render.strikePreRender, DomUtils.handlePreRender, Render.mergeAdjacent_eq]; decide +kernel

/-- What is excluded: with the strikethrough plugin before the CommonMark plugin the escaping is another one, `<p>~~~</p>`. -/
theorem c83_counterexample_order :
    (Engine.convertNode stableSort demoLib.tables (({} : Options).converter demoLib [.base, .strikethrough, .commonmark]) 9 {}
      (.document [.elem b!"p" [] [.text b!"~~~"]])).map (fun r => r.1.toOption) = some (some b!"\\~\\~~") ∧
    (Engine.convertNode stableSort demoLib.tables (({} : Options).converter demoLib [.base, .commonmark, .strikethrough]) 9 {}
      (.document [.elem b!"p" [] [.text b!"~~~"]])).map (fun r => r.1.toOption) = some (some b!"\\~~~") := by
  constructor
  · simp only [Options.converter, Options.plugin, List.map, commonmarkPlugin, commonmarkInit, strikePlugin, strikeInit]
    unfold commonmarkPre strikePre
    simp only [DomUtils.handlePreRender, Render.mergeAdjacent_eq]
    decide +kernel
  · simp only [Options.converter, Options.plugin, List.map, commonmarkPlugin, commonmarkInit, strikePlugin, strikeInit]
    unfold commonmarkPre strikePre
    simp only [DomUtils.handlePreRender, Render.mergeAdjacent_eq]
    decide +kernel

/-! ## C84 -/

theorem lastSaid_cons {α} (default : α) (says : TableOption → Option α) (o : TableOption) (opts : List TableOption) :
    lastSaid default says (o :: opts) = lastSaid ((says o).getD default) says opts := by
  simp only [lastSaid, List.filterMap_cons]
  cases says o with
  | none => rfl
  | some a => cases opts.filterMap says <;> simp [List.getLast?_cons]

theorem apply_known {cfg : Table.Config} {o : TableOption} (h : Known o) : applyTableOption cfg o = .ok {
    span := (spanOf o).getD cfg.span, newline := (newlineOf o).getD cfg.newline, padding := (paddingOf o).getD cfg.padding,
    skipEmptyRows := (skipEmptyRowsOf o).getD cfg.skipEmptyRows, promoteFirstRow := (headerPromotionOf o).getD cfg.promoteFirstRow,
    presentation := (presentationOf o).getD cfg.presentation } := by
  cases o with
  | spanCells b => simp only [Known, List.mem_cons, List.not_mem_nil, or_false] at h; rcases h with rfl | rfl | rfl <;> rfl
  | newlines b => simp only [Known, List.mem_cons, List.not_mem_nil, or_false] at h; rcases h with rfl | rfl | rfl <;> rfl
  | padding b => simp only [Known, List.mem_cons, List.not_mem_nil, or_false] at h; rcases h with rfl | rfl | rfl | rfl <;> rfl
  | skipEmptyRows b => rfl
  | headerPromotion b => rfl
  | presentationTables b => rfl

theorem apply_unknown {cfg : Table.Config} {o : TableOption} (h : ¬Known o) : ∃ e, applyTableOption cfg o = .error e := by
  cases o with
  | spanCells b => simp only [Known, List.mem_cons, List.not_mem_nil, or_false, not_or] at h; exact ⟨_, by simp [applyTableOption, h]; rfl⟩
  | newlines b => simp only [Known, List.mem_cons, List.not_mem_nil, or_false, not_or] at h; exact ⟨_, by simp [applyTableOption, h]; rfl⟩
  | padding b => simp only [Known, List.mem_cons, List.not_mem_nil, or_false, not_or] at h; exact ⟨_, by simp [applyTableOption, h]; rfl⟩
  | skipEmptyRows b => simp [Known] at h
  | headerPromotion b => simp [Known] at h
  | presentationTables b => simp [Known] at h

/-- **C84**: if the table plugin knows the values of all its options, the last option for a setting decides it, and a setting without option
has its default. -/
theorem c84_settings {opts : List TableOption} (h : ∀ o ∈ opts, Known o) : tableConfig opts = .ok {
    span := lastSaid .empty spanOf opts, newline := lastSaid .skip newlineOf opts, padding := lastSaid .aligned paddingOf opts,
    skipEmptyRows := lastSaid false skipEmptyRowsOf opts, promoteFirstRow := lastSaid false headerPromotionOf opts,
    presentation := lastSaid false presentationOf opts } := by
  have gen : ∀ (opts : List TableOption) (cfg : Table.Config), (∀ o ∈ opts, Known o) → tableConfigGo cfg opts = .ok {
      span := lastSaid cfg.span spanOf opts, newline := lastSaid cfg.newline newlineOf opts, padding := lastSaid cfg.padding paddingOf opts,
      skipEmptyRows := lastSaid cfg.skipEmptyRows skipEmptyRowsOf opts, promoteFirstRow := lastSaid cfg.promoteFirstRow headerPromotionOf opts,
      presentation := lastSaid cfg.presentation presentationOf opts } := by
    intro opts
    induction opts with
    | nil => intro cfg _; rfl
    | cons o opts ih =>
      intro cfg h
      rw [tableConfigGo, apply_known (h o (by simp))]
      simp only
      rw [ih _ fun o ho => h o (by simp [ho])]
      simp only [lastSaid_cons]
  exact gen opts {} h

/-- **C84**: an option with an unknown value is an error. -/
theorem c84_unknown {opts : List TableOption} (h : ¬∀ o ∈ opts, Known o) : ∃ e, tableConfig opts = .error e := by
  have gen : ∀ (opts : List TableOption) (cfg : Table.Config), (¬∀ o ∈ opts, Known o) → ∃ e, tableConfigGo cfg opts = .error e := by
    intro opts
    induction opts with
    | nil => intro cfg h; simp at h
    | cons o opts ih =>
      intro cfg h
      by_cases ho : Known o
      · rw [tableConfigGo, apply_known ho]
        exact ih _ (by simpa [ho] using h)
      · obtain ⟨e, he⟩ := apply_unknown (cfg := cfg) ho
        exact ⟨e, by rw [tableConfigGo, he]⟩
  exact gen opts {} h

/-- **C84**: if an option of the table plugin has an unknown value, or the CommonMark plugin does not accept its settings, every conversion
with the converter returns an error, whatever other plugins there are and in whatever order. -/
theorem c84_rejected {o : Options} {kinds : List Kind}
    (h : (.table ∈ kinds ∧ ¬∀ x ∈ o.table, Known x) ∨ (.commonmark ∈ kinds ∧ Config.validate (Config.newPlugin o.commonmark) ≠ none))
    (fuel : Nat) (ctx : Ctx Bool) (doc : Node) :
    ∃ e, Engine.convertNode S L.tables (o.converter L kinds) fuel ctx doc = some (.error e, o.converter L kinds) := by
  have hany : ∀ (ks : List Kind) (k : Kind), k ∈ ks → Spec.fails (o.plugin L k) = true → Spec.anyFails (ks.map (o.plugin L)) = true := by
    intro ks
    induction ks with
    | nil => intro k hk; simp at hk
    | cons k' ks ih =>
      intro k hk hf
      rw [List.map_cons, Spec.anyFails]
      rcases List.mem_cons.1 hk with rfl | hk
      · rw [hf]; rfl
      · rw [ih k hk hf, Bool.or_true]
  have hf : Spec.anyFails (kinds.map (o.plugin L)) = true := by
    rcases h with ⟨hk, hu⟩ | ⟨hk, hu⟩
    · obtain ⟨e, he⟩ := c84_unknown hu
      exact hany kinds .table hk (by simp [Options.plugin, tablePlugin, he, Spec.fails])
    · obtain ⟨e, he⟩ := Option.ne_none_iff_exists'.1 hu
      exact hany kinds .commonmark hk (by simp [Options.plugin, commonmarkPlugin, he, Spec.fails])
  have herr : (o.converter L kinds).err.isSome = true := by
    show (applyAll (applyAll {} [.escapeMode o.mode]) (kinds.map (o.plugin L))).err.isSome = true
    rw [applyAll_err, hf, Bool.or_true]
  obtain ⟨e, he⟩ := Option.isSome_iff_exists.1 herr
  exact ⟨e, by rw [Engine.convertNode, he]⟩

/-- Options that are accepted, and what they set. -/
example : tableConfig [.padding b!"none", .spanCells b!"mirror", .spanCells b!"", .padding b!""] = .ok { span := .mirror, padding := .aligned } :=
  (c84_settings (by intro o ho; simp at ho; rcases ho with rfl | rfl | rfl | rfl <;> simp [Known])).trans rfl
/-- Options that are not. -/
example : ¬∀ x ∈ [TableOption.skipEmptyRows true, .newlines b!"keep"], Known x := by simp [Known]

end Verif.Props
