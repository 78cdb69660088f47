import Verif.Props.Engine
import Verif.Props.Stock
import Verif.Proofs.EngineFrame
import Verif.Proofs.Extend
/-!
# C91, C92: renderers of one's own

C91: the renderers of the base plugin for `RendererFor`.  C92: values that are attached to the context.
-/

namespace Verif.Props
open Verif Verif.Engine Verif.Stock Verif.Spec

/-! ## C91 -/

/-- `conv.Register.RendererFor(name, t, h, priority)`, with a priority before that of all other renderers and tag types. -/
structure RegisteredFirst {V} (c : Conv V) (name : Bytes) (priority : Int) : Prop where
  renderers : ∀ r ∈ c.renderers, priority < r.priority
  tagTypes : ∀ t ∈ c.tagTypes name, priority < t.priority

/-- What comes before and after an element of this type. -/
def around : TagType → Bytes
  | .block => b!"\n\n"
  | _ => []

theorem sort_first {α} (S : GoSort) {l : List (Prio α)} {x : Prio α} (h : ∀ y ∈ l, x.priority < y.priority) : ∃ rest, S.sort (l ++ [x]) = x :: rest := by
  have hp := S.perm (l ++ [x])
  have ha := S.ascending (l ++ [x])
  cases hs : S.sort (l ++ [x]) with
  | nil => rw [hs] at hp; simp at hp
  | cons y rest =>
    rw [hs] at hp ha
    have hx : x ∈ y :: rest := hp.mem_iff.mpr (by simp)
    have hy : y ∈ l ++ [x] := hp.mem_iff.mp (by simp)
    rcases List.mem_append.1 hy with hy | hy
    · rcases List.mem_cons.1 hx with rfl | hx
      · exact ⟨rest, rfl⟩
      · have h1 := (List.pairwise_cons.1 ha).1 x hx
        have h2 := h y hy
        omega
    · rw [List.mem_singleton] at hy
      exact ⟨rest, by rw [hy]⟩

section
variable {V : Type} (S : GoSort) (T : NameTables)

theorem registered_type {c : Conv V} {name : Bytes} {priority : Int} (hf : RegisteredFirst c name priority) (t : TagType) (h : Engine.Render V) :
    (getTagType S T (apply c (.rendererFor name t h priority)).tagTypes name).1 = some t := by
  obtain ⟨rest, hr⟩ := sort_first S (x := ⟨t, priority⟩) hf.tagTypes
  have : (apply c (.rendererFor name t h priority)).tagTypes name = c.tagTypes name ++ [⟨t, priority⟩] := by simp [apply, addTagType]
  rw [getTagType, this, hr]

theorem registered_runs {c : Conv V} {name : Bytes} {priority : Int} (hf : RegisteredFirst c name priority) (t : TagType) (h : Engine.Render V)
    (fuel : Nat) (ctx : Ctx V) {node : Loc} (hn : node.name = name) (hnt : ∀ d, node.node ≠ .text d) {st st' : St V}
    (hr : runProg S ⟨T, c.escaping⟩ (renderNodes S T (apply c (.rendererFor name t h priority)) fuel) (h ctx node) st = some (.success, st')) :
    renderNodes S T (apply c (.rendererFor name t h priority)) (fuel + 1) ctx [node] st = some st' := by
  obtain ⟨rest, hs⟩ := sort_first S (x := ⟨onlyFor name h, priority⟩) hf.renderers
  refine c47_first_success S T _ fuel ctx node hnt [] rest ⟨onlyFor name h, priority⟩ (by simpa [apply] using hs) st st st' (.nil st) ?_
  show runProg _ _ _ (if node.name = name then h ctx node else .ret .tryNext) st = _
  rw [if_pos hn]
  exact hr
end

section
variable (S : GoSort) (L : Lib) {c : Conv Bool} {name : Bytes} {priority : Int}

/-- **C91**: an element with the renderer `RenderAsHTML` is written as HTML, a block with a blank line before and after it, and nothing else. -/
theorem c91_html (hf : RegisteredFirst c name priority) (t : TagType) (fuel : Nat) (ctx : Ctx Bool) {node : Loc} (hn : node.name = name)
    (hnt : ∀ d, node.node ≠ .text d) {st : St Bool}
    (hst : ∀ n, (getTagType S L.tables st.tagTypes n).1 = (getTagType S L.tables (apply c (.rendererFor name t (renderAsHTML L) priority)).tagTypes n).1) :
    ∃ st', renderNodes S L.tables (apply c (.rendererFor name t (renderAsHTML L) priority)) (fuel + 1) ctx [node] st = some st' ∧
      st'.out = st.out ++ around t ++ L.renderHTML node.node ++ around t ∧ st'.state = st.state := by
  have ht := (hst name).trans (registered_type S L.tables hf t _)
  have ha : (if some t = some TagType.block then b!"\n\n" else []) = around t := by cases t <;> rfl
  refine ⟨{ st with out := st.out ++ (around t ++ L.renderHTML node.node ++ around t), tagTypes := (getTagType S L.tables st.tagTypes name).2 },
    registered_runs S L.tables hf t (renderAsHTML L) fuel ctx hn hnt ?_, by simp, rfl⟩
  simp only [renderAsHTML, runProg, hn, success, ht, ha]

/-- **C91**: with `RenderAsHTMLWrapper` the children are rendered as usual, between a start tag and an end tag of the name, each apart by a blank line. -/
theorem c91_wrapper (hf : RegisteredFirst c name priority) (t : TagType) (fuel : Nat) (ctx : Ctx Bool) {node : Loc} (hn : node.name = name)
    (hnt : ∀ d, node.node ≠ .text d) {st st' : St Bool}
    (h : renderNodes S L.tables (apply c (.rendererFor name t renderAsHTMLWrapper priority)) fuel ctx node.children { st with out := [] } = some st') :
    renderNodes S L.tables (apply c (.rendererFor name t renderAsHTMLWrapper priority)) (fuel + 1) ctx [node] st =
      some { st' with out := st.out ++ (b!"<" ++ name ++ b!">\n\n" ++ st'.out ++ b!"\n\n</" ++ name ++ b!">") } := by
  refine registered_runs S L.tables hf t renderAsHTMLWrapper fuel ctx hn hnt ?_
  have hfr := renderNodes_frame S L.tables (apply c (.rendererFor name t renderAsHTMLWrapper priority)) fuel (st.out ++ (b!"<" ++ name ++ b!">\n\n")) ctx
    node.children { st with out := [] }
  rw [h] at hfr
  simp only [St.before, List.append_nil, Option.map_some] at hfr
  simp only [renderAsHTMLWrapper, runProg, hn, success]
  rw [hfr]
  simp [runProg]

/-- **C91**: with `RenderAsPlaintextWrapper` the children are rendered as usual, those of a block with a blank line before and after them. -/
theorem c91_plaintext (hf : RegisteredFirst c name priority) (t : TagType) (fuel : Nat) (ctx : Ctx Bool) {node : Loc} (hn : node.name = name)
    (hnt : ∀ d, node.node ≠ .text d) {st st' : St Bool}
    (hst : ∀ n, (getTagType S L.tables st.tagTypes n).1 = (getTagType S L.tables (apply c (.rendererFor name t renderAsPlaintextWrapper priority)).tagTypes n).1)
    (h : renderNodes S L.tables (apply c (.rendererFor name t renderAsPlaintextWrapper priority)) fuel ctx node.children
      { st with out := [], tagTypes := (getTagType S L.tables st.tagTypes name).2 } = some st') :
    renderNodes S L.tables (apply c (.rendererFor name t renderAsPlaintextWrapper priority)) (fuel + 1) ctx [node] st =
      some { st' with out := st.out ++ (around t ++ st'.out ++ around t) } := by
  have ht := (hst name).trans (registered_type S L.tables hf t _)
  refine registered_runs S L.tables hf t renderAsPlaintextWrapper fuel ctx hn hnt ?_
  have hfr := renderNodes_frame S L.tables (apply c (.rendererFor name t renderAsPlaintextWrapper priority)) fuel (st.out ++ around t) ctx
    node.children { st with out := [], tagTypes := (getTagType S L.tables st.tagTypes name).2 }
  rw [h] at hfr
  simp only [St.before, List.append_nil, Option.map_some] at hfr
  have ha : (if some t = some TagType.block then b!"\n\n" else []) = around t := by cases t <;> rfl
  simp only [renderAsPlaintextWrapper, runProg, hn, success, ht, ha]
  rw [hfr]
  simp [runProg]
end

/-- **C47**: what nodes are rendered as does not depend on what was written before them. -/
theorem c47_frame {V : Type} (S : GoSort) (T : NameTables) (c : Conv V) (fuel : Nat) (ctx : Ctx V) (nodes : List Loc) (st st' : St V)
    (h : renderNodes S T c fuel ctx nodes { st with out := [] } = some st') :
    renderNodes S T c fuel ctx nodes st = some { st' with out := st.out ++ st'.out } := by
  have := renderNodes_frame S T c fuel st.out ctx nodes { st with out := [] }
  rw [h] at this
  simpa [St.before] using this

/-! ## C92 -/

/-- **C92**: if the renderers and text transformers pass on the value of a key, then the value with which some nodes are rendered reaches every
renderer and text transformer below: handlers which do the same for this value (and the domain) may be exchanged. -/
theorem c92_value_reaches {V : Type} (S : GoSort) (T : NameTables) {c c' : Conv V} {key : Bytes} (hc : PassesOn key c) {ctx : Ctx V}
    (hr : SameFor ctx.domain key (ctx.values key) (S.sort c.renderers) (S.sort c'.renderers))
    (ht : SameFor ctx.domain key (ctx.values key) (S.sort c.text) (S.sort c'.text)) (he : c.escaping = c'.escaping)
    (fuel : Nat) (nodes : List Loc) (st : St V) :
    renderNodes S T c fuel ctx nodes st = renderNodes S T c' fuel ctx nodes st :=
  renderNodes_same S T hc hr ht he fuel ctx rfl rfl nodes st

theorem renderEachTo_passes {key : Bytes} {ctx : Ctx Bool} : ∀ (ls : List Loc) {k : List Bytes → Prog Bool Status},
    (∀ xs, Passes key ctx (k xs)) → Passes key ctx (renderEachTo ctx ls k)
  | [], _, h => h []
  | _ :: ls, _, h => .renderTo rfl rfl fun x => renderEachTo_passes ls fun xs => h (x :: xs)

theorem renderCells_passes {key : Bytes} {ctx : Ctx Bool} {l : Loc} : ∀ (cs : List (Render.Path × Node)) {k : List Table.RawCell → Prog Bool Status},
    (∀ xs, Passes key ctx (k xs)) → Passes key ctx (renderCells ctx l cs k)
  | [], _, h => h []
  | _ :: cs, _, h => .renderTo rfl rfl fun _ => renderCells_passes cs fun _ => h _

theorem renderRows_passes {key : Bytes} {ctx : Ctx Bool} {l : Loc} : ∀ (rs : List (Render.Path × Node)) {k : List (List Table.RawCell) → Prog Bool Status},
    (∀ xs, Passes key ctx (k xs)) → Passes key ctx (renderRows ctx l rs k)
  | [], _, h => h []
  | _ :: rs, _, h => renderCells_passes _ fun _ => renderRows_passes rs fun _ => h _

theorem success_passes {key : Bytes} {ctx : Ctx Bool} (b : Bytes) : Passes key ctx (success b) := .write (.ret _)
theorem tryNext_passes {key : Bytes} {ctx : Ctx Bool} : Passes key ctx tryNext := .ret _
theorem orTryNext_passes {key : Bytes} {ctx : Ctx Bool} (b : Option Bytes) : Passes key ctx (orTryNext b) := by
  cases b
  · exact .ret _
  · exact success_passes _

theorem commonmarkRender_passes (L : Lib) (cfg : Config.Config) {key : Bytes} (hk : key ≠ b!"is_inside_link") (ctx : Ctx Bool) (l : Loc) :
    Passes key ctx (commonmarkRender L cfg ctx l) := by
  unfold commonmarkRender
  dsimp only
  repeat' split
  · exact .renderTo rfl rfl fun _ => success_passes _
  · exact success_passes _
  · exact success_passes _
  · exact renderEachTo_passes _ fun _ => .unEscape fun _ => success_passes _
  · exact success_passes _
  · exact success_passes _
  · exact .renderTo rfl rfl fun _ => success_passes _
  · refine .renderTo rfl rfl fun _ => ?_
    split
    · exact success_passes _
    · exact .panic
  · exact orTryNext_passes _
  · unfold renderLink
    dsimp only
    split
    · exact tryNext_passes
    · refine .renderTo rfl (by simp [Ctx.withValue, insideLink, hk]) fun _ => ?_
      split
      · exact orTryNext_passes _
      · exact tryNext_passes
  · unfold renderComment
    repeat' split
    all_goals first | exact success_passes _ | exact tryNext_passes
  · exact tryNext_passes

theorem strikeRender_passes (d : Bytes) {key : Bytes} (ctx : Ctx Bool) (l : Loc) : Passes key ctx (strikeRender d ctx l) := by
  unfold strikeRender
  split
  · exact .renderTo rfl rfl fun _ => success_passes _
  · exact tryNext_passes

theorem tableRender_passes (t : Table.Config) {key : Bytes} (ctx : Ctx Bool) (l : Loc) : Passes key ctx (tableRender t ctx l) := by
  unfold tableRender
  split
  · unfold renderTable
    split
    · exact tryNext_passes
    · refine renderRows_passes _ fun _ => renderRows_passes _ fun _ => .unEscape fun _ => ?_
      split
      · exact tryNext_passes
      · dsimp only
        split
        · exact success_passes _
        · exact .renderTo rfl rfl fun _ => success_passes _
  · split
    · exact .write (.render rfl rfl (success_passes _))
    · exact tryNext_passes

/-- A call that registers only handlers which pass on the value of a key. -/
def CallPasses (key : Bytes) : Op Bool → Prop
  | .renderer h _ => ∀ ctx l, Passes key ctx (h ctx l)
  | .rendererFor _ _ h _ => ∀ ctx l, Passes key ctx (h ctx l)
  | .textTransformer h _ => ∀ ctx content, Passes key ctx (h ctx content)
  | _ => True

theorem passesOn_applyAll {key : Bytes} {c : Conv Bool} (hc : PassesOn key c) {ops : List (Op Bool)} (h : ∀ op ∈ callsOfAll ops, CallPasses key op) :
    PassesOn key (applyAll c ops) := by
  have hadds := applyAll_adds c ops
  constructor
  · intro r hr
    rw [hadds.renderers, List.mem_append, List.mem_filterMap] at hr
    rcases hr with hr | ⟨op, hop, e⟩
    · exact hc.renderers r hr
    · have := h op hop
      split at e
      · simp only [Option.some.injEq] at e; subst e; exact this
      · simp only [Option.some.injEq] at e; subst e
        intro ctx l
        show Passes key ctx (if l.name = _ then _ else _)
        split
        · exact this ctx l
        · exact .ret _
      · simp at e
  · intro r hr
    rw [hadds.text, List.mem_append, List.mem_filterMap] at hr
    rcases hr with hr | ⟨op, hop, e⟩
    · exact hc.text r hr
    · have := h op hop
      split at e
      · simp only [Option.some.injEq] at e; subst e; exact this
      · simp at e

theorem callsOfAll_map {key : Bytes} {f : Kind → Op Bool} (h : ∀ k, ∀ op ∈ callsOf (f k), CallPasses key op) : ∀ kinds : List Kind,
    ∀ op ∈ callsOfAll (kinds.map f), CallPasses key op
  | [], op, hop => by simp [callsOfAll] at hop
  | k :: ks, op, hop => by
    rw [List.map_cons, callsOfAll, List.mem_append] at hop
    rcases hop with hop | hop
    · exact h k op hop
    · exact callsOfAll_map h ks op hop

theorem tagTypes_calls {key : Bytes} (t : TagType) (p : Int) : ∀ names : List Bytes, ∀ op ∈ callsOfAll (names.map fun n => .tagType n t p), CallPasses key op
  | [], op, hop => by simp [callsOfAll] at hop
  | n :: ns, op, hop => by
    rw [List.map_cons, callsOfAll, List.mem_append, callsOf, List.mem_singleton] at hop
    rcases hop with rfl | hop
    · trivial
    · exact tagTypes_calls t p ns op hop
    · simp

theorem callsOfAll_append (a b : List (Op Bool)) : callsOfAll (a ++ b) = callsOfAll a ++ callsOfAll b := by
  induction a with
  | nil => rfl
  | cons x a ih => rw [List.cons_append, callsOfAll, callsOfAll, ih, List.append_assoc]

theorem plugin_passes (L : Lib) (o : Options) {key : Bytes} (hk : key ≠ b!"is_inside_link") : ∀ k, ∀ op ∈ callsOf (o.plugin L k), CallPasses key op
  | .base, op, hop => by
    rw [Options.plugin, basePlugin, callsOf, if_neg (by decide), baseInit, callsOfAll_append, List.mem_append] at hop
    rcases hop with hop | hop
    · exact tagTypes_calls _ _ _ op hop
    · simp only [callsOfAll, callsOf, List.cons_append, List.nil_append, List.append_nil, List.mem_cons, List.not_mem_nil, or_false] at hop
      rcases hop with rfl | rfl | rfl | rfl | rfl
      · trivial
      · trivial
      · exact fun _ _ => .escape fun _ => .ret _
      · trivial
      · trivial
  | .commonmark, op, hop => by
    rw [Options.plugin, commonmarkPlugin, callsOf, if_neg (by decide)] at hop
    split at hop
    · simp only [commonmarkInit, callsOfAll, callsOf, List.cons_append, List.nil_append, List.append_nil, List.mem_cons, List.not_mem_nil, or_false] at hop
      rcases hop with rfl | rfl | rfl | rfl | rfl | rfl | rfl | rfl | rfl | rfl | rfl | rfl | rfl | rfl | rfl | rfl | rfl
      case' inr.inr.inr.inr.inr.inr.inr.inr.inr.inr.inr.inr.inr.inr.inl => exact commonmarkRender_passes L _ hk
      case' inr.inr.inr.inr.inr.inr.inr.inr.inr.inr.inr.inr.inr.inr.inr.inl => exact fun _ _ => .ret _
      all_goals trivial
    · simp [callsOfAll] at hop
  | .strikethrough, op, hop => by
    rw [Options.plugin, strikePlugin, callsOf, if_neg (by decide)] at hop
    simp only [strikeInit, callsOfAll, callsOf, List.cons_append, List.nil_append, List.append_nil, List.mem_cons, List.not_mem_nil, or_false] at hop
    rcases hop with rfl | rfl | rfl | rfl
    · trivial
    · trivial
    · trivial
    · exact strikeRender_passes _
  | .table, op, hop => by
    rw [Options.plugin, tablePlugin] at hop
    split at hop
    · rw [callsOf, if_neg (by decide)] at hop
      simp only [tableInit, callsOfAll, callsOf, List.cons_append, List.nil_append, List.append_nil, List.mem_cons, List.not_mem_nil, or_false] at hop
      rcases hop with rfl | rfl
      · trivial
      · exact tableRender_passes _
    · rw [callsOf, if_neg (by decide)] at hop
      simp [callsOfAll] at hop

/-- **C92**: the renderers and text transformers of the stock plugins, with any options, pass on every value that a renderer attaches to the
context (under a key other than that for links), also through links, lists, tables and so on.  Further registrations (`extra`) may be made. -/
theorem c92_stock (L : Lib) (o : Options) (kinds : List Kind) {key : Bytes} (hk : key ≠ b!"is_inside_link") {extra : List (Op Bool)}
    (hx : ∀ op ∈ callsOfAll extra, CallPasses key op) : PassesOn key (applyAll (o.converter L kinds) extra) := by
  refine passesOn_applyAll ?_ hx
  show PassesOn key (applyAll (applyAll {} [.escapeMode o.mode]) (kinds.map (o.plugin L)))
  refine passesOn_applyAll ⟨?_, ?_⟩ (callsOfAll_map (plugin_passes L o hk) kinds)
  · intro r hr; simp [applyAll, apply] at hr
  · intro r hr; simp [applyAll, apply] at hr

/-! ### Beside the theorems -/

/-- The default converter, and a block that is kept as HTML. -/
def keepVideo : Conv Bool := apply (defaultConverter demoLib) (.rendererFor b!"video" .block (renderAsHTML demoLib) 100)
example : RegisteredFirst (defaultConverter demoLib) b!"video" 100 := ⟨by decide +kernel, by decide +kernel⟩
example : around .block = b!"\n\n" ∧ around .inline = [] := ⟨rfl, rfl⟩

/-- `<p>a</p><video></video>b` -/
example : (Engine.convertNode stableSort demoLib.tables keepVideo 9 {} (.document [.elem b!"p" [] [.text b!"a"], .elem b!"video" [] [], .text b!"b"])).map
    (fun r => r.1.toOption) = some (some b!"a\n\n<video>\n\nb") := by
  simp only [keepVideo, defaultConverter, commonmarkPlugin, commonmarkInit]
  unfold commonmarkPre
  simp only [DomUtils.handlePreRender, Render.mergeAdjacent_eq]
  decide +kernel

/-- HTML with three newlines in a row (in preformatted text). -/
def newlineLib : Lib := { demoLib with renderHTML := fun _ => b!"<x-y>\n\n\n</x-y>" }

/-- HTML that is kept is not kept byte by byte: after rendering, the newlines of the whole are trimmed. -/
theorem c91_counterexample_newlines :
    (Engine.convertNode stableSort newlineLib.tables (apply (defaultConverter newlineLib) (.rendererFor b!"x-y" .block (renderAsHTML newlineLib) 100)) 9 {}
      (.document [.elem b!"x-y" [] [.elem b!"pre" [] [.text b!"\n\n\n"]]])).map (fun r => r.1.toOption) = some (some b!"<x-y>\n\n</x-y>") := by
  simp only [defaultConverter, commonmarkPlugin, commonmarkInit]
  unfold commonmarkPre
  simp only [DomUtils.handlePreRender, Render.mergeAdjacent_eq]
  decide +kernel

/-- A renderer that attaches a value, and one that writes what it finds. -/
def valueOps : List (Op Bool) :=
  [.rendererFor b!"section" .block (fun ctx l => .render (ctx.withValue b!"inside" true) l.children (.ret .success)) 100,
   .rendererFor b!"x-y" .inline (fun ctx _ => success (if ctx.values b!"inside" = some true then b!"in" else b!"out")) 100]

/-- They pass on the values of other keys, -/
example : ∀ op ∈ callsOfAll valueOps, CallPasses b!"other" op := by
  intro op hop
  simp only [valueOps, callsOfAll, callsOf, List.cons_append, List.nil_append, List.append_nil, List.mem_cons, List.not_mem_nil, or_false] at hop
  rcases hop with rfl | rfl
  · exact fun _ _ => .render rfl rfl (.ret _)
  · exact fun _ _ => success_passes _

/-- and the second sees the value of the first inside of lists and links, and not behind it:
`<section><ul><li><a href="/b"><x-y></x-y></a></li></ul></section><x-y></x-y>` -/
example : (Engine.convertNode stableSort demoLib.tables (applyAll (defaultConverter demoLib) valueOps) 12 {}
    (.document [.elem b!"section" [] [.elem b!"ul" [] [.elem b!"li" [] [.elem b!"a" [(b!"href", b!"/b")] [.elem b!"x-y" [] [.text b!"c"]]]]],
      .elem b!"x-y" [] [.text b!"c"]])).map (fun r => r.1.toOption) = some (some b!"- [in](/b)\n\nout") := by
  simp only [defaultConverter, commonmarkPlugin, commonmarkInit]
  unfold commonmarkPre
  simp only [DomUtils.handlePreRender, Render.mergeAdjacent_eq]
  decide +kernel

end Verif.Props
