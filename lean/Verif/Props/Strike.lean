import Verif.Proofs.Strike
import Verif.Props.RenderTables
import Verif.Props.Spaces
/-!
# Deleted text, and the delimiters of inline elements
-/

namespace Verif.Props
open Verif Verif.Dom Verif.DomUtils Verif.Spec Verif.Render Verif.Commonmark

/-- The elements for deleted text. -/
def deletions : List Bytes := [b!"del", b!"s", b!"strike"]

theorem isStrike_eq : isStrike = fun x : Bytes => decide (x ∈ deletions) := by
  funext x
  simp [isStrike, deletions]

theorem mergeOK_strike : MergeOK isStrike := ⟨by decide, by decide, by decide, by decide, by decide⟩

theorem sameOK_strike : SameOK bothStrike := by
  constructor
  · intro a b; simp only [bothStrike, Bool.and_eq_true]; exact fun h => ⟨h.2, h.1⟩
  · intro a b c; simp only [bothStrike, Bool.and_eq_true]; exact fun h h' => ⟨h.1, h'.2⟩

/-! ## C78: deletions -/

/-- **C78**: the strikethrough plugin keeps every text, in document order, and a text is deleted exactly if it was before. -/
theorem c78_text (E : Env) (doc : Node) :
    textsWith (fun anc => anc.any (· ∈ deletions)) (items [] (strikePreRender E doc)) =
      textsWith (fun anc => anc.any (· ∈ deletions)) (items [] doc) := by
  rw [strikePreRender]
  split
  · have h1 := mergeAdjacent_ftxts isStrike mergeOK_strike (removeRedundant bothStrike doc)
    have e1 := (ftxts_items isStrike).1 (removeRedundant bothStrike doc) []
    have e2 := (ftxts_items isStrike).1 (mergeAdjacent isStrike (removeRedundant bothStrike doc)) []
    simp only [List.any_nil] at e1 e2
    rw [← e1, ← e2] at h1
    have h2 := removeRedundant_textsWith bothStrike sameOK_strike (fun anc => anc.any isStrike) (by
      intro a b h
      have := h b!"del"
      have e : bothStrike b!"del" = isStrike := by
        funext x
        have : isStrike b!"del" = true := by decide
        simp [bothStrike, this]
      rw [e] at this
      exact this) doc
    have := h1.trans h2
    rw [isStrike_eq] at this ⊢
    exact this
  · rfl

/-- **C78**: with the plugin no deletion is inside of a deletion. -/
theorem c78_no_nesting {E : Env} (hE : E.strike.isSome = true) (doc : Node) (i : Item) (hi : i ∈ items [] (strikePreRender E doc))
    (hn : i.what.name ∈ deletions) : ∀ a ∈ i.anc, a ∉ deletions := by
  rw [strikePreRender, if_pos hE] at hi
  have hr : flat isStrike false (removeRedundant bothStrike doc) := by
    have := (flat_items mergeOK_strike).1 (removeRedundant bothStrike doc) []
    simp only [List.any_nil] at this
    rw [this]
    intro i hi hm a ha
    have := noNested_removeRedundant bothStrike (by decide) doc i hi (by simp [bothStrike, hm]) a ha
    simpa [bothStrike, hm] using this
  have hm := mergeAdjacent_flat isStrike mergeOK_strike _ hr
  have := (flat_items mergeOK_strike).1 (mergeAdjacent isStrike (removeRedundant bothStrike doc)) []
  simp only [List.any_nil] at this
  intro a ha hd
  have h := this.1 hm i hi (by rw [isStrike_eq]; simpa using hn) a ha
  rw [isStrike_eq] at h
  simp [hd] at h

/-- **C78**: with the plugin no two deletions stand next to each other (which would be `~~a~~~~b~~`). -/
theorem c78_no_neighbours {E : Env} (hE : E.strike.isSome = true) (doc x : Node) (hx : x ∈ nodes (strikePreRender E doc)) (pre post : List Node) (a b : Node)
    (h : x.children = pre ++ a :: b :: post) (ha : a.name ∈ deletions) : b.name ∉ deletions := by
  rw [strikePreRender, if_pos hE] at hx
  have := noAdjM_split isStrike ((goodM_nodes isStrike).1 _ (mergeAdjacent_good _ mergeOK_strike _) x hx) h (by rw [isStrike_eq]; simpa using ha)
  intro hb
  rw [isStrike_eq] at this
  simp [hb] at this

/-- `<p><del>a<s>b</s></del><strike>c</strike>d</p>` -/
example : strikePreRender fullEnv (.elem b!"p" [] [.elem b!"del" [] [.text b!"a", .elem b!"s" [] [.text b!"b"]], .elem b!"strike" [] [.text b!"c"], .text b!"d"]) =
    .elem b!"p" [] [.elem b!"del" [] [.text b!"a", .text b!"b", .text b!"c"], .text b!"d"] := by
  simp [strikePreRender, fullEnv, removeRedundant, removeRedundantL, removeRedundantIn, bothStrike, isStrike, mergeAdjacent, mergeAdjacentF, mergeStep, collectFrames,
    collectL, collectNode, Node.name, Node.children, withChildren]

/-- **C79** for whole conversions: the handler for tildes is among those of the conversion if the plugin is used, so that the theorems of C79 apply. -/
theorem c79_document {E : Env} (hE : E.strike.isSome = true) : Escape.IsStock E.isDigit (handlers E) ∧ Escape.isStrikethrough ∈ handlers E := by
  rw [handlers, if_pos hE]
  exact ⟨.inr (.inl rfl), by simp⟩

example : convertNode fullEnv (.elem b!"p" [] [.text b!"~~a~~ ~ b"]) = some b!"\\~\\~a\\~~ ~ b" := by
  simp only [convertNode, preRender, strikePreRender, DomUtils.handlePreRender, mergeAdjacent_eq]
  decide +kernel

/-! ## C80: which delimiter belongs to which element -/

/-- **C80**: bold text is wrapped, line by line (see `Wrapped`), by the configured delimiter for bold text. -/
theorem c80_bold {E : Env} (hd : 10 ∉ E.cfg.strongDelimiter) {link stuck : Bool} {n : Bytes} (hn : n ∈ [b!"strong", b!"b"]) {a : List (Bytes × Bytes)}
    {cs : List Node} {out : Bytes} (h : renderNode E link stuck (.elem n a cs) = some out) :
    ∃ content, renderL E link true cs = some content ∧ Pointwise (Wrapped E.cfg.strongDelimiter) (lines content) (lines out) := by
  have hb : isBold n = true := by simpa [isBold] using hn
  have hp : isProblematicParent n = true := by
    simp only [List.mem_cons, List.not_mem_nil, or_false] at hn
    rcases hn with rfl | rfl <;> decide
  rw [renderNode] at h
  simp only [isBoldOrItalic, hb, Bool.true_or, if_true, hp, Bool.or_true, delimiterOf] at h
  rw [Option.map_eq_some_iff] at h
  obtain ⟨c, h1, rfl⟩ := h
  exact ⟨c, h1, c22_delimiters _ c hd⟩

/-- **C80**: italic text is wrapped by the configured delimiter for italic text. -/
theorem c80_italic {E : Env} (hd : 10 ∉ E.cfg.emDelimiter) {link stuck : Bool} {n : Bytes} (hn : n ∈ [b!"em", b!"i"]) {a : List (Bytes × Bytes)}
    {cs : List Node} {out : Bytes} (h : renderNode E link stuck (.elem n a cs) = some out) :
    ∃ content, renderL E link true cs = some content ∧ Pointwise (Wrapped E.cfg.emDelimiter) (lines content) (lines out) := by
  have hb : isItalic n = true := by simpa [isItalic] using hn
  have hnb : isBold n = false := by
    simp only [List.mem_cons, List.not_mem_nil, or_false] at hn
    rcases hn with rfl | rfl <;> decide
  have hp : isProblematicParent n = true := by
    simp only [List.mem_cons, List.not_mem_nil, or_false] at hn
    rcases hn with rfl | rfl <;> decide
  rw [renderNode] at h
  simp only [isBoldOrItalic, hb, hnb, if_true, hp, Bool.or_true, delimiterOf, Bool.false_eq_true, if_false] at h
  rw [Option.map_eq_some_iff] at h
  obtain ⟨c, h1, rfl⟩ := h
  exact ⟨c, h1, c22_delimiters _ c hd⟩

/-- **C80**: with the strikethrough plugin deleted text is wrapped by the delimiter of the plugin. -/
theorem c80_deleted {E : Env} {d : Bytes} (hE : E.strike = some d) (hd : 10 ∉ d) {link stuck : Bool} {n : Bytes} (hn : n ∈ deletions)
    {a : List (Bytes × Bytes)} {cs : List Node} {out : Bytes} (h : renderNode E link stuck (.elem n a cs) = some out) :
    ∃ content, renderL E link true cs = some content ∧ Pointwise (Wrapped d) (lines content) (lines out) := by
  have key : renderNode E link stuck (.elem n a cs) = (renderL E link true cs).map (delimited d) := by
    simp only [deletions, List.mem_cons, List.not_mem_nil, or_false] at hn
    have hp : isProblematicParent n = true := by rcases hn with rfl | rfl | rfl <;> decide
    have hs : isStrike n = true := by rcases hn with rfl | rfl | rfl <;> decide
    have e : ¬ isBoldOrItalic n = true ∧ n ≠ b!"hr" ∧ n ≠ b!"br" ∧ ¬ (n = b!"ul" ∨ n = b!"ol") ∧ n ≠ b!"pre" ∧ ¬ DomUtils.isInlineCode n = true ∧
        n ≠ b!"blockquote" ∧ ¬ isHeading n = true ∧ n ≠ b!"img" ∧ n ≠ b!"a" := by
      rcases hn with rfl | rfl | rfl <;> decide
    obtain ⟨e1, e2, e3, e4, e5, e6, e7, e8, e9, e10⟩ := e
    rw [renderNode]
    simp only [hp, Bool.or_true]
    rw [if_neg e1, if_neg e2, if_neg e3, if_neg e4, if_neg e5, if_neg e6, if_neg e7, if_neg e8, if_neg e9, if_neg e10, if_pos hs, hE]
  rw [key, Option.map_eq_some_iff] at h
  obtain ⟨c, h1, rfl⟩ := h
  exact ⟨c, h1, c22_delimiters _ c hd⟩

/-- One page with all of them. -/
example : convertNode fullEnv (.elem b!"p" [] [.elem b!"b" [] [.text b!"1"], .text b!" ", .elem b!"strong" [] [.text b!"2"], .text b!" ",
      .elem b!"i" [] [.text b!"3"], .text b!" ", .elem b!"em" [] [.text b!"4"], .text b!" ", .elem b!"del" [] [.text b!"5"], .text b!" ",
      .elem b!"s" [] [.text b!"6"], .text b!" ", .elem b!"strike" [] [.text b!"7"]]) =
    some b!"**1** **2** *3* *4* ~~5~~ ~~6~~ ~~7~~" := by
  simp only [convertNode, preRender, strikePreRender, DomUtils.handlePreRender, mergeAdjacent_eq]
  decide +kernel

/-! ## C77: inside of links, emphasis and deletions -/

/-- The same settings without the table plugin; table rows are blocks. -/
def withoutTables (E : Env) : Env :=
  { E with table := none, tables := { E.tables with isBlock := fun n => n = b!"tr" || E.tables.isBlock n } }

theorem fallback_withoutTables (E : Env) (n x : Bytes) (h : n ≠ b!"tr") : fallback (withoutTables E) n x = fallback E n x := by
  simp [fallback, isBlock, withoutTables, h]

theorem fallback_row (E : Env) (x : Bytes) : fallback (withoutTables E) b!"tr" x = b!"\n\n" ++ x ++ b!"\n\n" := by
  have : isRemoved b!"tr" = false := by decide
  simp [fallback, isBlock, withoutTables, this]

theorem render_withoutTables {E : Env} {cfg : Table.Config} (hE : E.table = some cfg) :
    (∀ n link s, renderNode E link true n = renderNode (withoutTables E) link s n) ∧
    (∀ ns link s, renderL E link true ns = renderL (withoutTables E) link s ns ∧ renderEach E link true ns = renderEach (withoutTables E) link s ns) := by
  apply induct
  · intro d link s; simp only [renderNode]; rfl
  · intro d link s
    simp only [renderNode, renderComment]
    rw [fallback_withoutTables E _ _ (by decide)]
  · intro d link s
    simp only [renderNode]
    rw [fallback_withoutTables E _ _ (by decide)]
  · intro cs ih link s
    simp only [renderNode]
    rw [(ih link s).1, show fallback (withoutTables E) b!"#document" = fallback E b!"#document" from
      funext fun x => fallback_withoutTables E _ x (by decide)]
  · intro n a cs ih link s
    have e1 : renderL E link (true || isProblematicParent n) cs = renderL (withoutTables E) link (s || isProblematicParent n) cs := by
      rw [Bool.true_or]; exact (ih link _).1
    have e2 : renderEach E link (true || isProblematicParent n) cs = renderEach (withoutTables E) link (s || isProblematicParent n) cs := by
      rw [Bool.true_or]; exact (ih link _).2
    have e3 : renderL E true (true || isProblematicParent n) cs = renderL (withoutTables E) true (s || isProblematicParent n) cs := by
      rw [Bool.true_or]; exact (ih true _).1
    have hfb : n ≠ b!"tr" → fallback E n = fallback (withoutTables E) n := fun h => funext fun x => (fallback_withoutTables E n x h).symm
    rw [renderNode, renderNode, e1, e2, e3]
    by_cases c0 : isBoldOrItalic n = true
    · rw [if_pos c0, if_pos c0]; rfl
    rw [if_neg c0, if_neg c0]
    by_cases c1 : n = b!"hr"
    · rw [if_pos c1, if_pos c1]; rfl
    rw [if_neg c1, if_neg c1]
    by_cases c2 : n = b!"br"
    · rw [if_pos c2, if_pos c2]
    rw [if_neg c2, if_neg c2]
    by_cases c3 : (n = b!"ul" ∨ n = b!"ol")
    · rw [if_pos c3, if_pos c3]; rfl
    rw [if_neg c3, if_neg c3]
    by_cases c4 : n = b!"pre"
    · rw [if_pos c4, if_pos c4]; rfl
    rw [if_neg c4, if_neg c4]
    by_cases c5 : DomUtils.isInlineCode n = true
    · rw [if_pos c5, if_pos c5]
    rw [if_neg c5, if_neg c5]
    by_cases c6 : n = b!"blockquote"
    · rw [if_pos c6, if_pos c6]
    rw [if_neg c6, if_neg c6]
    by_cases c7 : isHeading n = true
    · rw [if_pos c7, if_pos c7]; rfl
    rw [if_neg c7, if_neg c7]
    by_cases c8 : n = b!"img"
    · rw [if_pos c8, if_pos c8]; rfl
    rw [if_neg c8, if_neg c8]
    by_cases c9 : n = b!"a"
    · rw [if_pos c9, if_pos c9]; rfl
    rw [if_neg c9, if_neg c9]
    by_cases hs : isStrike n = true
    · rw [if_pos hs, if_pos hs]
      have hs' : (withoutTables E).strike = E.strike := rfl
      rw [hs']
      cases E.strike with
      | some d => rfl
      | none =>
        simp only
        rw [hfb (by rintro rfl; revert hs; decide)]
    rw [if_neg hs, if_neg hs]
    by_cases hn : n = b!"table"
    · rw [if_pos hn, if_pos hn]
      have ht : (withoutTables E).table = none := rfl
      rw [ht, hE]
      simp only
      rw [renderTable, cannotBeTable, Bool.or_true, if_pos rfl, Option.bind_some, hfb (by rw [hn]; decide)]
    rw [if_neg hn, if_neg hn]
    by_cases ht : n = b!"tr"
    · subst ht
      rw [if_pos ⟨rfl, by rw [hE]; rfl⟩, if_neg (by simp [withoutTables])]
      rw [show fallback (withoutTables E) b!"tr" = fun x => b!"\n\n" ++ x ++ b!"\n\n" from funext (fallback_row E)]
    · rw [if_neg (by simp [ht]), if_neg (by simp [ht]), hfb ht]
  · intro link s; simp [renderL, renderEach]
  · intro n ns h1 h2 link s
    simp only [renderL, renderEach, h1 link s, (h2 link s).1, (h2 link s).2, and_self]

/-- **C77**: inside of links, bold, italic and deleted text there are no Markdown tables, at any depth: such an element is rendered as if the table
plugin were not there, except that rows are set apart. -/
theorem c77_inside {E : Env} {cfg : Table.Config} (hE : E.table = some cfg) {n : Bytes}
    (hn : n ∈ [b!"a", b!"strong", b!"b", b!"em", b!"i", b!"del", b!"s", b!"strike"]) (link : Bool) (a : List (Bytes × Bytes)) (cs : List Node) :
    renderNode E link false (.elem n a cs) = renderNode (withoutTables E) link false (.elem n a cs) := by
  have hp : isProblematicParent n = true := by rw [isProblematicParent]; simpa using hn
  have key : renderNode E link false (.elem n a cs) = renderNode E link true (.elem n a cs) := by
    have ht : ¬ n = b!"table" := by rintro rfl; revert hn; decide
    rw [renderNode, renderNode]
    simp only [hp, Bool.or_true]
    rw [if_neg ht, if_neg ht]
  rw [key, (render_withoutTables hE).1 _ link false]

/-- `<strike><p><table><tr><td>x</td></tr></table></p></strike>` -/
example : convertNode fullEnv (.elem b!"strike" [] [.elem b!"div" [] [.elem b!"table" [] [.elem b!"tbody" [] [.elem b!"tr" [] [.elem b!"td" [] [.text b!"x"]]]]]]) =
    some b!"~~x~~" := by
  simp only [convertNode, preRender, strikePreRender, DomUtils.handlePreRender, mergeAdjacent_eq]
  decide +kernel

end Verif.Props
