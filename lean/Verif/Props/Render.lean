import Verif.Proofs.CharsMain
import Verif.Proofs.RenderEval
import Verif.Props.Trimmed
/-!
# Whole conversions with the base and the CommonMark plugin, and optionally the strikethrough and the table plugin
-/

namespace Verif.Props
open Verif Verif.Spec Verif.Render

/-- The delimiters consist of ASCII characters other than `#`.  (The validation of the options only counts certain characters.) -/
def PlainDelimiters (cfg : Config.Config) : Prop :=
  ∀ d ∈ [cfg.emDelimiter, cfg.strongDelimiter, cfg.horizontalRule], ∀ b ∈ d, b < 128 ∧ b ≠ 35

theorem count_visible {s : Bytes} {b : UInt8} (hs : ∀ x ∈ s, x < 128) (hv : Chars.vis [b] = true) (hc : 0 < s.count b) : visibleChars s ≠ [] := by
  have hm : b ∈ s := List.count_pos_iff.1 hc
  induction s with
  | nil => simp at hm
  | cons x s ih =>
    have hu : Utf8 s := Chars.utf8_of_ascii fun y hy => hs y (by simp [hy])
    rw [Chars.vis_ascii (hs x (by simp)) hu]
    rcases List.mem_cons.1 hm with rfl | hm
    · rw [if_pos hv]; simp
    · have := ih (fun y hy => hs y (by simp [hy])) (List.count_pos_iff.2 hm) hm
      split
      · simp
      · exact this

/-- The delimiter of the strikethrough plugin is not blank, and consists of ASCII characters other than `#`.  (It is not validated.) -/
def PlainStrike (E : Env) : Prop := ∀ d, E.strike = some d → visibleChars d ≠ [] ∧ ∀ b ∈ d, b < 128 ∧ b ≠ 35

/-- Elements that cannot be inside of a Markdown table. -/
def tableBreakers : List Bytes :=
  [b!"h1", b!"h2", b!"h3", b!"h4", b!"h5", b!"h6", b!"table", b!"hr", b!"ul", b!"ol", b!"blockquote"]

/-- If the table plugin is used, the tables of the page (as they are when rendering starts) have a property.  Only tables that can be Markdown
tables count. -/
def Tables (P : Node → Prop) (E : Env) (doc : Node) : Prop :=
  E.table.isSome = true → ∀ t ∈ nodes (preRender E doc), t.name = b!"table" → (∀ x ∈ inside t, x.name ∉ tableBreakers) → P t

theorem problematic_iff (t : Node) : hasProblematicChild t = false ↔ ∀ x ∈ inside t, x.name ∉ tableBreakers := by
  rw [hasProblematicChild, List.any_eq_false, ← TableNodes.below_snd.1 t []]
  simp only [List.mem_map, forall_exists_index, and_imp, forall_apply_eq_imp_iff₂]
  refine forall_congr' fun y => forall_congr' fun _ => ?_
  simp only [tableBreakers, DomUtils.isHeading, List.mem_cons, List.not_mem_nil, or_false, Bool.or_eq_true, decide_eq_true_eq]
  grind

theorem envOk {E : Env} (hv : Config.validate E.cfg = none) (hd : PlainDelimiters E.cfg) (hs : PlainStrike E) (ha : ∀ u, Utf8 u → Utf8 (E.assemble u)) : Chars.EnvOk E := by
  rw [Config.validate] at hv
  split at hv
  · simp at hv
  rename_i h1
  split at hv
  · simp at hv
  rename_i h2
  split at hv
  · simp at hv
  split at hv
  · simp at hv
  rename_i h4
  split at hv
  · simp at hv
  rename_i h5
  have de := hd E.cfg.emDelimiter (by simp)
  have ds := hd E.cfg.strongDelimiter (by simp)
  have dr := hd E.cfg.horizontalRule (by simp)
  have h42 : Chars.vis [42] = true := by decide
  have h95 : Chars.vis [95] = true := by decide
  refine ⟨⟨Chars.utf8_of_ascii fun b hb => (de b hb).1, ?_, fun hb => (de 35 hb).2 rfl⟩,
    ⟨Chars.utf8_of_ascii fun b hb => (ds b hb).1, ?_, fun hb => (ds 35 hb).2 rfl⟩,
    Chars.utf8_of_ascii fun b hb => (dr b hb).1, ?_, ?_, ha,
    fun d e => ⟨Chars.utf8_of_ascii fun b hb => ((hs d e).2 b hb).1, (hs d e).1, fun hb => ((hs d e).2 35 hb).2 rfl⟩⟩
  · by_cases e : E.cfg.emDelimiter.count 95 = 1
    · exact count_visible (fun b hb => (de b hb).1) h95 (by omega)
    · exact count_visible (b := 42) (fun b hb => (de b hb).1) h42 (by omega)
  · by_cases e : E.cfg.strongDelimiter.count 95 = 2
    · exact count_visible (fun b hb => (ds b hb).1) h95 (by omega)
    · exact count_visible (b := 42) (fun b hb => (ds b hb).1) h42 (by omega)
  · have : E.cfg.bulletListMarker ∈ [b!"-", b!"+", b!"*"] := Decidable.not_not.1 h4
    simp at this
    rcases this with h | h | h <;> rw [h] <;> exact Chars.utf8_byte (by decide)
  · have : E.cfg.codeBlockFence ∈ [b!"```", b!"~~~"] := Decidable.not_not.1 h5
    simp at this
    rcases this with h | h <;> rw [h] <;> decide

theorem render_page {R : List Bytes → List Bytes → Prop} (hR : Chars.Rel R) {E : Env} {doc : Node} (hp : Page doc) (hv : Config.validate E.cfg = none)
    (hd : PlainDelimiters E.cfg) (hs : PlainStrike E) (ha : ∀ u, Utf8 u → Utf8 (E.assemble u))
    (hm : E.mode = .smart ∨ ∀ i ∈ items [] doc, ∀ d, i.what = .text d → 35 ∉ d)
    (ht : ∀ t ∈ nodes (preRender E doc), t.name = b!"table" → E.table.isSome = true → Chars.TableOk R t) :
    ∃ md cs, convertNode E doc = some md ∧ Utf8 md ∧ R (visibleChars md) cs ∧ (pageChars doc).Sublist cs := by
  have key : ∀ h : Bool, (h = true → ∀ i ∈ items [] doc, ∀ d, i.what = .text d → 35 ∉ d) → (E.mode = .smart ∨ h = true) →
      ∃ md cs, convertNode E doc = some md ∧ Utf8 md ∧ R (visibleChars md) cs ∧ (pageChars doc).Sublist cs := by
    intro h hh hm
    obtain ⟨h1, h2, h3⟩ := Chars.preRender_ok E hp hh
    obtain ⟨out, e, ho, -⟩ := Chars.render_good (envOk hv hd hs ha) hR hm _ true false false false h1 h3 ht
    have k := Chars.keeps_postRender E.mode (handlers E) ho.1
    exact ⟨_, _, by rw [convertNode, e]; rfl, k.1, hR.mono ho.2 k.2, h2⟩
  rcases hm with hm | hm
  · exact key false (by simp) (Or.inl hm)
  · exact key true (fun _ => hm) (Or.inr rfl)

/-- **C64** (partial: the default escape mode, or no `#` in the texts; tables are read from top to bottom): a conversion shows all visible
characters of the page, in their order.  `<` and `>` may be spelled as entities, and the null character as U+FFFD. -/
theorem c64_visible_text_partial {E : Env} {doc : Node} (hp : Page doc) (hv : Config.validate E.cfg = none) (hd : PlainDelimiters E.cfg)
    (hs : PlainStrike E) (ha : ∀ u, Utf8 u → Utf8 (E.assemble u))
    (hm : E.mode = .smart ∨ ∀ i ∈ items [] doc, ∀ d, i.what = .text d → 35 ∉ d) (ht : Tables TopDown E doc)
    {md : Bytes} (h : convertNode E doc = some md) : Shows (visibleChars md) (pageChars doc) := by
  obtain ⟨md', cs, e, -, hsh, hsub⟩ := render_page Chars.rel_shows hp hv hd hs ha hm
    fun t hm hn hE => Chars.tableOk_topDown hn fun hp => ht hE t hm hn ((problematic_iff t).1 hp)
  rw [h] at e
  cases e
  exact Chars.Shows.less hsh hsub

/-- **C64**, without the order (partial: the default escape mode, or no `#` in the texts; the text of a table is in its rows or in its first
caption): a conversion shows all visible characters of the page.  In a table, the header row comes first and the caption last. -/
theorem c64_visible_text_any_order_partial {E : Env} {doc : Node} (hp : Page doc) (hv : Config.validate E.cfg = none) (hd : PlainDelimiters E.cfg)
    (hs : PlainStrike E) (ha : ∀ u, Utf8 u → Utf8 (E.assemble u))
    (hm : E.mode = .smart ∨ ∀ i ∈ items [] doc, ∀ d, i.what = .text d → 35 ∉ d) (ht : Tables Tidy E doc)
    {md : Bytes} (h : convertNode E doc = some md) : ShowsSomehow (visibleChars md) (pageChars doc) := by
  obtain ⟨md', cs, e, -, ⟨ds, hperm, hsh⟩, hsub⟩ := render_page Chars.rel_somehow hp hv hd hs ha hm
    fun t hm hn hE => Chars.tableOk_tidy hn fun hp => ht hE t hm hn ((problematic_iff t).1 hp)
  rw [h] at e
  cases e
  obtain ⟨ds', h1, h2⟩ := List.exists_perm_sublist hsub hperm
  exact ⟨ds', h1.symm, Chars.Shows.less hsh h2⟩

/-- **C30** for whole documents (partial: the default escape mode, or no `#` in the texts): the conversion does not panic, and the result is
UTF-8.  This is for all four stock plugins and all tables. -/
theorem c30_conversion_no_panic_partial {E : Env} {doc : Node} (hp : Page doc) (hv : Config.validate E.cfg = none) (hd : PlainDelimiters E.cfg)
    (hs : PlainStrike E) (ha : ∀ u, Utf8 u → Utf8 (E.assemble u))
    (hm : E.mode = .smart ∨ ∀ i ∈ items [] doc, ∀ d, i.what = .text d → 35 ∉ d) :
    ∃ md, convertNode E doc = some md ∧ Utf8 md := by
  obtain ⟨md, -, e, hu, -⟩ := render_page Chars.rel_true hp hv hd hs ha hm fun t _ _ _ => Chars.tableOk_true t
  exact ⟨md, e, hu⟩

/-- **C65** for whole documents: the Markdown contains no U+F002, and no bell byte if the escape mode is `smart`. -/
theorem c65_document (E : Env) (doc : Node) (md : Bytes) (h : convertNode E doc = some md) :
    ¬ Commonmark.codeNewline <:+: md ∧ (E.mode = .smart → 7 ∉ md) := by
  rw [convertNode, Option.map_eq_some_iff] at h
  obtain ⟨out, -, rfl⟩ := h
  exact c65_no_markers _ _ _

/-! ## A page that meets the hypotheses -/

/-- Options: the defaults; a few names are block names. -/
def demoEnv (mode : Escape.Mode) : Env where
  cfg := Config.newPlugin []
  mode := mode
  assemble := id
  tables := ⟨fun n => n ∈ [b!"#document", b!"html", b!"head", b!"body", b!"div", b!"p", b!"h1", b!"ul", b!"li", b!"pre", b!"blockquote"],
    fun n => n ∈ [b!"a", b!"b", b!"code", b!"span"]⟩
  isDigit := fun r => 48 ≤ r && r ≤ 57

/-- `<title>T</title><h1>C <b>x #</b></h1><ul><li>1 &lt; 2<br>é</li></ul><p>*a* <code>b</code> <a href="/u">[c]</a></p><pre>d\n e</pre>` -/
def demoPage : Node := .document [.elem b!"html" [] [
  .elem b!"head" [] [.elem b!"title" [] [.text b!"T"]],
  .elem b!"body" [] [
    .elem b!"h1" [] [.text b!"C ", .elem b!"b" [] [.text b!"x #"]],
    .elem b!"ul" [] [.elem b!"li" [] [.text b!"1 < 2", .elem b!"br" [] [], .text b!"é"]],
    .elem b!"p" [] [.text b!"*a* ", .elem b!"code" [] [.text b!"b"], .text b!" ", .elem b!"a" [(b!"href", b!"/u")] [.text b!"[c]"]],
    .elem b!"pre" [] [.text b!"d\n e"]]]]

theorem demoPage_ok : Page demoPage where
  texts := by
    intro i hi d hd
    have : ∀ i ∈ items [] demoPage, ∀ d ∈ i.what.text?, Utf8 d := by unfold Utf8; decide +kernel
    exact this i hi d (by rw [hd]; rfl)
  attrs := by
    intro i hi n a ha
    have : ∀ i ∈ items [] demoPage, ∀ p ∈ (match i.what with | .elem _ a => a | _ => []), Utf8 p.2 := by unfold Utf8; decide +kernel
    have := this i hi
    rw [ha] at this
    exact this
  void := by decide +kernel
  document := by decide +kernel
  root := by decide

example : Config.validate (demoEnv .smart).cfg = none := by decide
example : PlainDelimiters (demoEnv .smart).cfg := by unfold PlainDelimiters; decide
example : PlainStrike (demoEnv .smart) := by intro d h; exact absurd h (by simp [demoEnv])
example : Tables TopDown (demoEnv .smart) demoPage := fun h => absurd h (by decide)

/-- The conversion of this page. -/
theorem demoPage_converted : convertNode (demoEnv .smart) demoPage =
    some b!"# C **x #**\n\n- 1 &lt; 2  \n  é\n\n\\*a* `b` [\\[c\\]](/u)\n\n```\nd\n e\n```" := by
  simp only [convertNode, preRender, strikePreRender, DomUtils.handlePreRender, mergeAdjacent_eq]
  decide +kernel

/-! ## The full C64 and C30 fail with EscapeModeDisabled -/

/-- With EscapeModeDisabled the conversion of `<h1>C#</h1>` loses the C. -/
theorem c64_counterexample_disabled :
    convertNode (demoEnv .disabled) (.elem b!"h1" [] [.text b!"C#"]) = some b!"# \\#" ∧
    ¬ Shows (visibleChars b!"# \\#") (pageChars (.elem b!"h1" [] [.text b!"C#"])) := by
  refine ⟨?_, ?_⟩
  · simp only [convertNode, preRender, strikePreRender, DomUtils.handlePreRender, mergeAdjacent_eq]
    decide +kernel
  · rintro ⟨ds, h1, h2⟩
    have e : pageChars (.elem b!"h1" [] [.text b!"C#"]) = [[67], [35]] := by decide
    rw [e] at h1
    cases h1 with
    | same _ h1 =>
      have : [67] ∈ visibleChars b!"# \\#" := h2.subset (by simp)
      exact absurd this (by decide)

/-- With EscapeModeDisabled the conversion of `<h1>#</h1>` panics. -/
theorem c30_counterexample_conversion : convertNode (demoEnv .disabled) (.elem b!"h1" [] [.text b!"#"]) = none := by
  simp only [convertNode, preRender, strikePreRender, DomUtils.handlePreRender, mergeAdjacent_eq]
  decide +kernel

end Verif.Props
