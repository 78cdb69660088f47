import Verif.Proofs.CliConvert
import Verif.Props.Stock
import Verif.Props.Cli
/-!
# Property C85: the command line tool converts with the options of its flags

`Spec.toolEnv` and `Spec.toolDoc` say what the flags mean, `CliConvert.convert` is the `convert` of the tool: it builds a converter from the
plugins and runs it.
-/

namespace Verif.Props
open Verif Verif.Engine Verif.Stock Verif.Spec

variable (S : GoSort) (H : CliConvert.Html)

/-- The plugins of the tool. -/
def toolKinds (cfg : Cli.Config) : List Kind :=
  [.base, .commonmark] ++ (if cfg.strikethrough then [.strikethrough] else []) ++ (if cfg.table then [.table] else [])
/-- Their options. -/
def toolOptions (cfg : Cli.Config) : Options where
  commonmark := [fun c => { c with strongDelimiter := cfg.strongDelimiter }]
  table := CliConvert.tableOptions cfg

theorem tool_converter (L : Lib) (cfg : Cli.Config) : CliConvert.converter L cfg = (toolOptions cfg).converter L (toolKinds cfg) := by
  unfold CliConvert.converter toolKinds
  cases cfg.strikethrough <;> cases cfg.table <;> rfl

theorem tool_usual (cfg : Cli.Config) : Usual (toolKinds cfg) := by
  unfold toolKinds
  cases cfg.strikethrough <;> cases cfg.table <;> exact ⟨by decide, by decide, by decide, by decide⟩

theorem tool_validate_iff {cfg : Cli.Config} : Config.validate (Config.newPlugin (toolOptions cfg).commonmark) =
    if cfg.strongDelimiter = [] ∨ cfg.strongDelimiter.count 42 = 2 ∨ cfg.strongDelimiter.count 95 = 2 then none else some b!"StrongDelimiter" := by
  have e : Config.newPlugin (toolOptions cfg).commonmark = { Config.newPlugin [] with strongDelimiter := Config.orDefault cfg.strongDelimiter b!"**" } := rfl
  rw [e]
  have hem : ¬((Config.newPlugin []).emDelimiter.count 95 ≠ 1 ∧ (Config.newPlugin []).emDelimiter.count 42 ≠ 1) := by decide
  have key : ∀ d : Bytes, Config.validate { Config.newPlugin [] with strongDelimiter := d } = if d.count 95 ≠ 2 ∧ d.count 42 ≠ 2 then some b!"StrongDelimiter" else none := by
    intro d
    rw [Config.validate, if_neg hem]
    congr 1
  rw [key]
  by_cases h : cfg.strongDelimiter = []
  · rw [h]; decide
  · simp only [h, false_or, Config.orDefault, if_false]
    by_cases h1 : cfg.strongDelimiter.count 42 = 2 <;> by_cases h2 : cfg.strongDelimiter.count 95 = 2 <;> simp [h1, h2]

theorem tool_validate {cfg : Cli.Config} : Config.validate (Config.newPlugin (toolOptions cfg).commonmark) = none ↔
    cfg.strongDelimiter = [] ∨ cfg.strongDelimiter.count 42 = 2 ∨ cfg.strongDelimiter.count 95 = 2 := by
  rw [tool_validate_iff]; split <;> simp_all

theorem tool_known {cfg : Cli.Config} : (∀ o ∈ CliConvert.tableOptions cfg, Known o) ↔
    cfg.spanCellBehavior ∈ [b!"", b!"empty", b!"mirror"] ∧ cfg.newlineBehavior ∈ [b!"", b!"skip", b!"preserve"] ∧
    cfg.cellPaddingBehavior ∈ [b!"", b!"aligned", b!"minimal", b!"none"] := by
  simp only [CliConvert.tableOptions, List.forall_mem_cons, Known]
  simp

theorem tool_table {cfg : Cli.Config} (h : ∀ o ∈ CliConvert.tableOptions cfg, Known o) :
    tableConfig (CliConvert.tableOptions cfg) = .ok (toolTable cfg) := by
  rw [c84_settings h]
  obtain ⟨h1, h2, h3⟩ := tool_known.1 h
  simp only [List.mem_cons, List.not_mem_nil, or_false] at h1 h2 h3
  simp only [CliConvert.tableOptions, lastSaid, toolTable, List.filterMap_cons, List.filterMap_nil, spanOf, newlineOf, paddingOf, skipEmptyRowsOf,
    headerPromotionOf, presentationOf]
  rcases h1 with h1 | h1 | h1 <;> rcases h2 with h2 | h2 | h2 <;> rcases h3 with h3 | h3 | h3 | h3 <;> rw [h1, h2, h3] <;> rfl

theorem tool_env {cfg : Cli.Config} : (toolOptions cfg).env H.lib (toolKinds cfg) (toolTable cfg) cfg.domain = toolEnv H cfg := by
  have h1 : (Kind.strikethrough ∈ toolKinds cfg) = (cfg.strikethrough = true) := by
    unfold toolKinds; cases cfg.strikethrough <;> cases cfg.table <;> decide
  have h2 : (Kind.table ∈ toolKinds cfg) = (cfg.table = true) := by
    unfold toolKinds; cases cfg.strikethrough <;> cases cfg.table <;> decide
  simp only [Options.env, toolEnv, h1, h2]
  rfl

theorem mem_toolKinds {cfg : Cli.Config} : Kind.table ∈ toolKinds cfg ↔ cfg.table = true := by
  unfold toolKinds
  cases cfg.strikethrough <;> cases cfg.table <;> decide

/-- **C85**: with accepted flags the tool converts the selected parts of the page with the settings that the flags name. -/
theorem c85_conversion {cfg : Cli.Config} (h : ToolAccepts cfg) {input md : Bytes}
    (hmd : Render.convertNode (toolEnv H cfg) (toolDoc H cfg input) = some md) : ToolConverts S H cfg input (.ok md) := by
  have hv : (toolOptions cfg).Valid (toolKinds cfg) (toolTable cfg) :=
    ⟨tool_validate.2 h.strong, fun hk => by
      have ht := mem_toolKinds.1 hk
      exact tool_table (tool_known.2 ⟨h.span ht, h.newline ht, h.padding ht⟩)⟩
  obtain ⟨n, hn⟩ := c83_engine S H.lib (tool_usual cfg) hv (ctx := { domain := cfg.domain }) (by simp) (doc := toolDoc H cfg input)
    (by rw [tool_env]; exact hmd)
  refine ⟨n, fun fuel hf => ?_⟩
  rw [CliConvert.convert, tool_converter]
  show ((Engine.convertNode S H.lib.tables ((toolOptions cfg).converter H.lib (toolKinds cfg)) fuel { domain := cfg.domain } (toolDoc H cfg input)).map (·.1)) = _
  rw [hn fuel hf]
  rfl

theorem tool_delimiters {cfg : Cli.Config} (hd : ∀ b ∈ cfg.strongDelimiter, b < 128 ∧ b ≠ 35) : PlainDelimiters (toolEnv H cfg).cfg := by
  intro d hdm b hb
  simp only [toolEnv, List.mem_cons, List.not_mem_nil, or_false] at hdm
  have key : ∀ l : Bytes, (∀ b ∈ l, b < 128 ∧ b ≠ 35) → b ∈ l → b < 128 ∧ b ≠ 35 := fun l hl hb => hl b hb
  rcases hdm with rfl | rfl | rfl
  · exact key b!"*" (by decide) hb
  · split at hb
    · exact key b!"**" (by decide) hb
    · exact hd b hb
  · exact key b!"* * *" (by decide) hb

theorem tool_strike {cfg : Cli.Config} : PlainStrike (toolEnv H cfg) := by
  intro d hs
  simp only [toolEnv] at hs
  split at hs <;> cases hs
  exact ⟨by decide +kernel, by decide⟩

/-- **C85**: with accepted flags, and a delimiter for bold text of one-byte characters other than `#`, every page is converted, whatever is
selected, and the Markdown is UTF-8. -/
theorem c85_total {cfg : Cli.Config} (h : ToolAccepts cfg) (hd : ∀ b ∈ cfg.strongDelimiter, b < 128 ∧ b ≠ 35)
    (ha : ∀ u, Utf8 u → Utf8 (H.lib.assemble cfg.domain u)) {input : Bytes} (hp : Page (H.parse input)) :
    ∃ md, Utf8 md ∧ Render.convertNode (toolEnv H cfg) (toolDoc H cfg input) = some md ∧ ToolConverts S H cfg input (.ok md) := by
  have hpage : Page (toolDoc H cfg input) := CliConvert.selectors_page hp
  obtain ⟨md, e, hu⟩ := c30_conversion_no_panic_partial (E := toolEnv H cfg) hpage (tool_validate.2 h.strong) (tool_delimiters H hd) (tool_strike H) ha (.inl rfl)
  exact ⟨md, hu, e, c85_conversion S H h e⟩

theorem toolAccepts_iff {cfg : Cli.Config} : ToolAccepts cfg ↔
    (cfg.strongDelimiter = [] ∨ cfg.strongDelimiter.count 42 = 2 ∨ cfg.strongDelimiter.count 95 = 2) ∧
    (cfg.table = true → ∀ o ∈ CliConvert.tableOptions cfg, Known o) := by
  constructor
  · intro h; exact ⟨h.strong, fun t => tool_known.2 ⟨h.span t, h.newline t, h.padding t⟩⟩
  · rintro ⟨h1, h2⟩
    exact ⟨h1, fun t => (tool_known.1 (h2 t)).1, fun t => (tool_known.1 (h2 t)).2.1, fun t => (tool_known.1 (h2 t)).2.2⟩

/-- The error of the base and the CommonMark plugin. -/
theorem base_err {L : Lib} {opts : List (Config.Config → Config.Config)} :
    (newConverter [withPlugins [basePlugin L, commonmarkPlugin L opts]]).err = (Config.validate (Config.newPlugin opts)).map (Err.init b!"commonmark") := by
  simp only [newConverter, newConverterGo, withPlugins, applyAll, commonmarkPlugin]
  cases h : Config.validate (Config.newPlugin opts) with
  | none => rw [if_pos rfl]; rfl
  | some e => rw [if_neg (by simp)]; rfl

theorem table_err {c : Conv Bool} {opts : List TableOption} : (apply c (tablePlugin opts)).err =
    match tableConfig opts with
    | .ok _ => c.err
    | .error e => some (.init b!"table" e) := by
  rw [tablePlugin]
  cases tableConfig opts <;> rfl

theorem strike_err {c : Conv Bool} : (apply c (strikePlugin [])).err = c.err := rfl

/-- The error that the converter of the tool carries. -/
theorem tool_err (L : Lib) (cfg : Cli.Config) : (CliConvert.converter L cfg).err =
    match if cfg.table then tableConfig (CliConvert.tableOptions cfg) else .ok {} with
    | .ok _ => if cfg.strongDelimiter = [] ∨ cfg.strongDelimiter.count 42 = 2 ∨ cfg.strongDelimiter.count 95 = 2 then none
        else some (.init b!"commonmark" b!"StrongDelimiter")
    | .error e => some (.init b!"table" e) := by
  have hb : (newConverter [withPlugins [basePlugin L, commonmarkPlugin L (toolOptions cfg).commonmark]]).err =
      if cfg.strongDelimiter = [] ∨ cfg.strongDelimiter.count 42 = 2 ∨ cfg.strongDelimiter.count 95 = 2 then none
        else some (Err.init b!"commonmark" b!"StrongDelimiter") := by
    rw [base_err, tool_validate_iff]; split <;> rfl
  rw [← hb]
  unfold CliConvert.converter
  cases cfg.strikethrough <;> cases cfg.table
  · rfl
  · simp only [if_true, table_err]; rfl
  · rfl
  · simp only [if_true, table_err]; rfl

/-- **C85**: with flags that are not accepted every conversion is an error.  It is the error of the table plugin, if that is used and does not know
the value of one of its options, otherwise the one of the CommonMark plugin about the delimiter for bold text. -/
theorem c85_rejected {cfg : Cli.Config} (h : ¬ToolAccepts cfg) : ∃ plugin message,
    (∀ fuel input, CliConvert.convert S H fuel cfg input = some (.error (.init plugin message))) ∧
    if cfg.table = true ∧ (cfg.spanCellBehavior ∉ [b!"", b!"empty", b!"mirror"] ∨ cfg.newlineBehavior ∉ [b!"", b!"skip", b!"preserve"] ∨
        cfg.cellPaddingBehavior ∉ [b!"", b!"aligned", b!"minimal", b!"none"])
      then plugin = b!"table" else plugin = b!"commonmark" ∧ message = b!"StrongDelimiter" := by
  have conv : ∀ {e}, (CliConvert.converter H.lib cfg).err = some e → ∀ fuel input, CliConvert.convert S H fuel cfg input = some (.error e) := by
    intro e he fuel input
    rw [CliConvert.convert, Engine.convertNode, he]
    rfl
  have he := tool_err H.lib cfg
  by_cases hk : cfg.table = true → ∀ o ∈ CliConvert.tableOptions cfg, Known o
  · have hs : ¬(cfg.strongDelimiter = [] ∨ cfg.strongDelimiter.count 42 = 2 ∨ cfg.strongDelimiter.count 95 = 2) :=
      fun hs => h (toolAccepts_iff.2 ⟨hs, hk⟩)
    have hok : ∃ t, (if cfg.table then tableConfig (CliConvert.tableOptions cfg) else .ok {}) = .ok t := by
      cases ht : cfg.table with
      | false => exact ⟨_, rfl⟩
      | true => exact ⟨_, tool_table (hk ht)⟩
    obtain ⟨t, ht⟩ := hok
    rw [ht] at he
    dsimp only at he
    rw [if_neg hs] at he
    refine ⟨_, _, conv he, ?_⟩
    rw [if_neg]
    · exact ⟨rfl, rfl⟩
    · rintro ⟨t, hb⟩
      obtain ⟨h1, h2, h3⟩ := tool_known.1 (hk t)
      rcases hb with hb | hb | hb
      · exact hb h1
      · exact hb h2
      · exact hb h3
  · have ht : cfg.table = true := Decidable.byContradiction fun ht => hk fun t => absurd t ht
    have hu : ¬∀ o ∈ CliConvert.tableOptions cfg, Known o := fun hu => hk fun _ => hu
    obtain ⟨m, hm⟩ := c84_unknown hu
    rw [ht, if_pos rfl, hm] at he
    refine ⟨_, _, conv he, ?_⟩
    rw [if_pos]
    refine ⟨ht, ?_⟩
    have := fun a b c => hu (tool_known.2 ⟨a, b, c⟩)
    by_cases h1 : cfg.spanCellBehavior ∈ [b!"", b!"empty", b!"mirror"]
    · by_cases h2 : cfg.newlineBehavior ∈ [b!"", b!"skip", b!"preserve"]
      · exact .inr (.inr (this h1 h2))
      · exact .inr (.inl h2)
    · exact .inl h1

/-! ## The whole tool -/

/-- The conversion in the surroundings of the tool is the one of the engine. -/
def UsesEngine (env : Cli.Env) : Prop := ∀ cfg input r, ToolConverts S H cfg input r → env.markdown cfg input = r.toOption

theorem tool_checks {cfg : Cli.Config} (h : ToolAccepts cfg) {env : Cli.Env} {input md : Bytes} (hmd : env.markdown cfg input = some md) :
    Cli.convert env cfg input = .ok md := by
  rw [Cli.convert, if_neg, if_neg, hmd]
  · have := tool_validate.2 h.strong
    rw [show Config.newPlugin [fun c => { c with strongDelimiter := cfg.strongDelimiter }] = Config.newPlugin (toolOptions cfg).commonmark from rfl, this]
    simp
  · rintro ⟨t, hb⟩
    rcases hb with hb | hb | hb
    · exact hb (h.span t)
    · exact hb (h.newline t)
    · exact hb (h.padding t)

/-- **C85**: a run with accepted flags that reads a page from stdin and writes to stdout prints its Markdown and a newline, has no error and
does not change the file system. -/
theorem c85_run {env : Cli.Env} (he : UsesEngine S H env) {args : List Bytes} {cfg : Cli.Config} (hf : Cli.parseFlags env.parseSelector args = .ok cfg)
    (hargs : cfg.args = []) (hver : cfg.version = false) (hin : cfg.input = []) (hout : cfg.output = []) {input : Bytes} (hstdin : env.stdin = some input)
    (h : ToolAccepts cfg) {md : Bytes} (hmd : Render.convertNode (toolEnv H cfg) (toolDoc H cfg input) = some md) (fs : Cli.FS) :
    (Cli.run env args fs).err = none ∧ (Cli.run env args fs).stdout = md ++ [NL] ∧ ∀ s ∈ (Cli.run env args fs).states, s = fs := by
  have hm : env.markdown cfg input = some md := he cfg input (.ok md) (c85_conversion S H h hmd)
  have hn : Cli.outputNames env [] [b!"output"] = some [b!"output.md"] := rfl
  simp [Cli.run, hf, Cli.runConfig, hargs, hver, Cli.listInputs, hin, hstdin, Cli.determineOutputType, hout, hn, Cli.processGo, Cli.readInput,
    tool_checks h hm]

/-- **C85**: a run with accepted flags for one file prints the Markdown of that file. -/
theorem c85_run_file {env : Cli.Env} (he : UsesEngine S H env) {args : List Bytes} {cfg : Cli.Config} (hf : Cli.parseFlags env.parseSelector args = .ok cfg)
    (hargs : cfg.args = []) (hver : cfg.version = false) (hin : cfg.input ≠ []) (hout : cfg.output = []) {path input : Bytes} {fs : Cli.FS}
    (hglob : env.glob cfg.input = some [path]) (hfile : fs path = some (.file input))
    (h : ToolAccepts cfg) {md : Bytes} (hmd : Render.convertNode (toolEnv H cfg) (toolDoc H cfg input) = some md) :
    (Cli.run env args fs).err = none ∧ (Cli.run env args fs).stdout = md ++ [NL] ∧ ∀ s ∈ (Cli.run env args fs).states, s = fs := by
  have hm : env.markdown cfg input = some md := he cfg input (.ok md) (c85_conversion S H h hmd)
  have hn : ∃ n, Cli.outputNames env cfg.input [path] = some [n] := ⟨_, rfl⟩
  obtain ⟨n, hn⟩ := hn
  simp [Cli.run, hf, Cli.runConfig, hargs, hver, Cli.listInputs, hin, hglob, Cli.determineOutputType, hout, hn, Cli.processGo, Cli.readInput,
    hfile, tool_checks h hm]

/-! ### Beside the theorems -/

/-- Every input is the page `<p>a <b>b</b> ~~c~~</p><nav>d</nav>`; the selectors match names of elements. -/
def toolHtml : CliConvert.Html where
  lib := demoLib
  parse _ := .document [.elem b!"p" [] [.text b!"a ", .elem b!"b" [] [.text b!"b"], .text b!" ~~c~~"], .elem b!"nav" [] [.text b!"d"]]
  group sels _ n := n.name ∈ sels
/-- `--opt-strong-delimiter=__ --plugin-strikethrough --exclude-selector nav --plugin-table --opt-table-cell-padding-behavior=none` -/
def toolArgs : List Bytes := [b!"--opt-strong-delimiter=__", b!"--plugin-strikethrough", b!"--exclude-selector", b!"nav", b!"--plugin-table",
  b!"--opt-table-cell-padding-behavior=none"]
/-- The settings of these flags. -/
def toolCfg : Cli.Config := { strongDelimiter := b!"__", strikethrough := true, excludeSel := [b!"nav"], table := true, cellPaddingBehavior := b!"none" }

example : (Cli.parseFlags exEnv.parseSelector toolArgs).toOption = some toolCfg := by decide +kernel
theorem toolCfg_accepted : ToolAccepts toolCfg := ⟨by decide, by decide, by decide, by decide⟩
example : Render.convertNode (toolEnv toolHtml toolCfg) (toolDoc toolHtml toolCfg b!"") = some b!"a __b__ \\~\\~c\\~~" := by
  simp only [Render.convertNode, Render.preRender, Render.strikePreRender, DomUtils.handlePreRender, Render.mergeAdjacent_eq]; decide +kernel
/-- Surroundings in which the conversion is the one of the engine. -/
noncomputable def toolWorld : Cli.Env := { exEnv with
  stdin := some b!"<p>"
  markdown := fun cfg input => open Classical in if h : ∃ r, ToolConverts stableSort toolHtml cfg input r then h.choose.toOption else none }
example : UsesEngine stableSort toolHtml toolWorld := by
  intro cfg input r h
  have hx : ∃ r, ToolConverts stableSort toolHtml cfg input r := ⟨r, h⟩
  show (open Classical in if h : ∃ r, ToolConverts stableSort toolHtml cfg input r then h.choose.toOption else none) = _
  rw [dif_pos hx]
  obtain ⟨n, hn⟩ := hx.choose_spec
  obtain ⟨m, hm⟩ := h
  have := (hn (max n m) (by omega)).symm.trans (hm (max n m) (by omega))
  cases this
  rfl
/-- Flags that are not accepted. -/
example : ¬ToolAccepts { toolCfg with newlineBehavior := b!"keep" } := fun h => absurd (h.newline rfl) (by decide)
example : ¬ToolAccepts { strongDelimiter := b!"*" } := fun h => absurd h.strong (by decide)

end Verif.Props
