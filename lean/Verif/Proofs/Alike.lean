import Verif.Proofs.DomText
import Verif.Model.Render
/-!
# Trees with other names and attributes

`relabel` gives the elements of a tree other names and other attributes.  If all that the converter looks at stays the same, the steps before
rendering do the same, and so does rendering.
-/

namespace Verif.Alike
open Verif Verif.DomUtils Verif.Render

/-- The names that the converter treats in a special way, one by one. -/
def fixedNames : List Bytes := [b!"span", b!"div", b!"code", b!"#document", b!"#text", b!"#comment", b!"#doctype", b!"html", b!"head", b!"body", b!"blockquote", b!"ul", b!"ol", b!"li", b!"hr", b!"pre", b!"h1", b!"h2", b!"h3", b!"h4", b!"h5", b!"h6", b!"a", b!"img", b!"br", b!"script", b!"style", b!"link", b!"meta", b!"iframe", b!"noscript", b!"input", b!"textarea", b!"area", b!"base", b!"col", b!"command", b!"embed", b!"keygen", b!"param", b!"track", b!"wbr", b!"table", b!"thead", b!"tr", b!"th", b!"td", b!"caption"]

/-- The attributes that the converter looks at, for the elements with this name. -/
def watched (name : Bytes) : List Bytes :=
  if name = b!"a" then [b!"href", b!"title"]
  else if name = b!"img" then [b!"src", b!"title", b!"alt"]
  else if name = b!"ol" then [b!"start"]
  else if name = b!"pre" ∨ name = b!"code" then [b!"class"]
  else if name = b!"th" ∨ name = b!"td" then [b!"align", b!"rowspan", b!"colspan"]
  else if name = b!"table" then [b!"role"]
  else []

/-- The first attribute with this key. -/
def look (a : List (Bytes × Bytes)) (key : Bytes) : Option Bytes := (a.find? fun x => x.1 == key).map (·.2)

/-- Other names (`ρ`) and attributes (`α`) that the converter treats in the same way. -/
structure Relabelling (T T' : NameTables) (ρ : Bytes → Bytes) (α : Bytes → List (Bytes × Bytes) → List (Bytes × Bytes)) : Prop where
  block : ∀ n, T'.isBlock (ρ n) = T.isBlock n
  fix : ∀ x ∈ fixedNames, ∀ n, ρ n = x ↔ n = x
  bold : ∀ n, isBold (ρ n) = isBold n
  italic : ∀ n, isItalic (ρ n) = isItalic n
  strike : ∀ n, isStrike (ρ n) = isStrike n
  inlineCode : ∀ n, isInlineCode (ρ n) = isInlineCode n
  strong : ρ b!"strong" = b!"strong"
  nil : ∀ n, α n [] = []
  span : α b!"span" = α b!"div"
  look : ∀ n, ∀ key ∈ watched n, ∀ a, look (α n a) key = look a key

mutual
/-- The tree with other names and attributes, and without the data of the doctype. -/
def relabel (ρ : Bytes → Bytes) (α : Bytes → List (Bytes × Bytes) → List (Bytes × Bytes)) : Node → Node
  | .text d => .text d
  | .comment d => .comment d
  | .doctype _ => .doctype []
  | .document cs => .document (relabelL ρ α cs)
  | .elem n a cs => .elem (ρ n) (α n a) (relabelL ρ α cs)
/-- The same for a list of siblings. -/
def relabelL (ρ : Bytes → Bytes) (α : Bytes → List (Bytes × Bytes) → List (Bytes × Bytes)) : List Node → List Node
  | [] => []
  | n :: ns => relabel ρ α n :: relabelL ρ α ns
end

namespace Relabelling
variable {T T' : NameTables} {ρ : Bytes → Bytes} {α : Bytes → List (Bytes × Bytes) → List (Bytes × Bytes)}

theorem e_span (h : Relabelling T T' ρ α) (n : Bytes) : (ρ n = b!"span") = (n = b!"span") := propext (h.fix _ (by decide) n)
theorem e_div (h : Relabelling T T' ρ α) (n : Bytes) : (ρ n = b!"div") = (n = b!"div") := propext (h.fix _ (by decide) n)
theorem e_code (h : Relabelling T T' ρ α) (n : Bytes) : (ρ n = b!"code") = (n = b!"code") := propext (h.fix _ (by decide) n)
theorem e_hdocument (h : Relabelling T T' ρ α) (n : Bytes) : (ρ n = b!"#document") = (n = b!"#document") := propext (h.fix _ (by decide) n)
theorem e_htext (h : Relabelling T T' ρ α) (n : Bytes) : (ρ n = b!"#text") = (n = b!"#text") := propext (h.fix _ (by decide) n)
theorem e_hcomment (h : Relabelling T T' ρ α) (n : Bytes) : (ρ n = b!"#comment") = (n = b!"#comment") := propext (h.fix _ (by decide) n)
theorem e_hdoctype (h : Relabelling T T' ρ α) (n : Bytes) : (ρ n = b!"#doctype") = (n = b!"#doctype") := propext (h.fix _ (by decide) n)
theorem e_html (h : Relabelling T T' ρ α) (n : Bytes) : (ρ n = b!"html") = (n = b!"html") := propext (h.fix _ (by decide) n)
theorem e_head (h : Relabelling T T' ρ α) (n : Bytes) : (ρ n = b!"head") = (n = b!"head") := propext (h.fix _ (by decide) n)
theorem e_body (h : Relabelling T T' ρ α) (n : Bytes) : (ρ n = b!"body") = (n = b!"body") := propext (h.fix _ (by decide) n)
theorem e_blockquote (h : Relabelling T T' ρ α) (n : Bytes) : (ρ n = b!"blockquote") = (n = b!"blockquote") := propext (h.fix _ (by decide) n)
theorem e_ul (h : Relabelling T T' ρ α) (n : Bytes) : (ρ n = b!"ul") = (n = b!"ul") := propext (h.fix _ (by decide) n)
theorem e_ol (h : Relabelling T T' ρ α) (n : Bytes) : (ρ n = b!"ol") = (n = b!"ol") := propext (h.fix _ (by decide) n)
theorem e_li (h : Relabelling T T' ρ α) (n : Bytes) : (ρ n = b!"li") = (n = b!"li") := propext (h.fix _ (by decide) n)
theorem e_hr (h : Relabelling T T' ρ α) (n : Bytes) : (ρ n = b!"hr") = (n = b!"hr") := propext (h.fix _ (by decide) n)
theorem e_pre (h : Relabelling T T' ρ α) (n : Bytes) : (ρ n = b!"pre") = (n = b!"pre") := propext (h.fix _ (by decide) n)
theorem e_h1 (h : Relabelling T T' ρ α) (n : Bytes) : (ρ n = b!"h1") = (n = b!"h1") := propext (h.fix _ (by decide) n)
theorem e_h2 (h : Relabelling T T' ρ α) (n : Bytes) : (ρ n = b!"h2") = (n = b!"h2") := propext (h.fix _ (by decide) n)
theorem e_h3 (h : Relabelling T T' ρ α) (n : Bytes) : (ρ n = b!"h3") = (n = b!"h3") := propext (h.fix _ (by decide) n)
theorem e_h4 (h : Relabelling T T' ρ α) (n : Bytes) : (ρ n = b!"h4") = (n = b!"h4") := propext (h.fix _ (by decide) n)
theorem e_h5 (h : Relabelling T T' ρ α) (n : Bytes) : (ρ n = b!"h5") = (n = b!"h5") := propext (h.fix _ (by decide) n)
theorem e_h6 (h : Relabelling T T' ρ α) (n : Bytes) : (ρ n = b!"h6") = (n = b!"h6") := propext (h.fix _ (by decide) n)
theorem e_a (h : Relabelling T T' ρ α) (n : Bytes) : (ρ n = b!"a") = (n = b!"a") := propext (h.fix _ (by decide) n)
theorem e_img (h : Relabelling T T' ρ α) (n : Bytes) : (ρ n = b!"img") = (n = b!"img") := propext (h.fix _ (by decide) n)
theorem e_br (h : Relabelling T T' ρ α) (n : Bytes) : (ρ n = b!"br") = (n = b!"br") := propext (h.fix _ (by decide) n)
theorem e_script (h : Relabelling T T' ρ α) (n : Bytes) : (ρ n = b!"script") = (n = b!"script") := propext (h.fix _ (by decide) n)
theorem e_style (h : Relabelling T T' ρ α) (n : Bytes) : (ρ n = b!"style") = (n = b!"style") := propext (h.fix _ (by decide) n)
theorem e_link (h : Relabelling T T' ρ α) (n : Bytes) : (ρ n = b!"link") = (n = b!"link") := propext (h.fix _ (by decide) n)
theorem e_meta (h : Relabelling T T' ρ α) (n : Bytes) : (ρ n = b!"meta") = (n = b!"meta") := propext (h.fix _ (by decide) n)
theorem e_iframe (h : Relabelling T T' ρ α) (n : Bytes) : (ρ n = b!"iframe") = (n = b!"iframe") := propext (h.fix _ (by decide) n)
theorem e_noscript (h : Relabelling T T' ρ α) (n : Bytes) : (ρ n = b!"noscript") = (n = b!"noscript") := propext (h.fix _ (by decide) n)
theorem e_input (h : Relabelling T T' ρ α) (n : Bytes) : (ρ n = b!"input") = (n = b!"input") := propext (h.fix _ (by decide) n)
theorem e_textarea (h : Relabelling T T' ρ α) (n : Bytes) : (ρ n = b!"textarea") = (n = b!"textarea") := propext (h.fix _ (by decide) n)
theorem e_area (h : Relabelling T T' ρ α) (n : Bytes) : (ρ n = b!"area") = (n = b!"area") := propext (h.fix _ (by decide) n)
theorem e_base (h : Relabelling T T' ρ α) (n : Bytes) : (ρ n = b!"base") = (n = b!"base") := propext (h.fix _ (by decide) n)
theorem e_col (h : Relabelling T T' ρ α) (n : Bytes) : (ρ n = b!"col") = (n = b!"col") := propext (h.fix _ (by decide) n)
theorem e_command (h : Relabelling T T' ρ α) (n : Bytes) : (ρ n = b!"command") = (n = b!"command") := propext (h.fix _ (by decide) n)
theorem e_embed (h : Relabelling T T' ρ α) (n : Bytes) : (ρ n = b!"embed") = (n = b!"embed") := propext (h.fix _ (by decide) n)
theorem e_keygen (h : Relabelling T T' ρ α) (n : Bytes) : (ρ n = b!"keygen") = (n = b!"keygen") := propext (h.fix _ (by decide) n)
theorem e_param (h : Relabelling T T' ρ α) (n : Bytes) : (ρ n = b!"param") = (n = b!"param") := propext (h.fix _ (by decide) n)
theorem e_track (h : Relabelling T T' ρ α) (n : Bytes) : (ρ n = b!"track") = (n = b!"track") := propext (h.fix _ (by decide) n)
theorem e_wbr (h : Relabelling T T' ρ α) (n : Bytes) : (ρ n = b!"wbr") = (n = b!"wbr") := propext (h.fix _ (by decide) n)
theorem e_table (h : Relabelling T T' ρ α) (n : Bytes) : (ρ n = b!"table") = (n = b!"table") := propext (h.fix _ (by decide) n)
theorem e_thead (h : Relabelling T T' ρ α) (n : Bytes) : (ρ n = b!"thead") = (n = b!"thead") := propext (h.fix _ (by decide) n)
theorem e_tr (h : Relabelling T T' ρ α) (n : Bytes) : (ρ n = b!"tr") = (n = b!"tr") := propext (h.fix _ (by decide) n)
theorem e_th (h : Relabelling T T' ρ α) (n : Bytes) : (ρ n = b!"th") = (n = b!"th") := propext (h.fix _ (by decide) n)
theorem e_td (h : Relabelling T T' ρ α) (n : Bytes) : (ρ n = b!"td") = (n = b!"td") := propext (h.fix _ (by decide) n)
theorem e_caption (h : Relabelling T T' ρ α) (n : Bytes) : (ρ n = b!"caption") = (n = b!"caption") := propext (h.fix _ (by decide) n)

theorem fixed (h : Relabelling T T' ρ α) {x : Bytes} (hx : x ∈ fixedNames) : ρ x = x := (h.fix x hx x).2 rfl

end Relabelling

variable {T T' : NameTables} {ρ : Bytes → Bytes} {α : Bytes → List (Bytes × Bytes) → List (Bytes × Bytes)}

@[simp] theorem relabelL_append (a b : List Node) : relabelL ρ α (a ++ b) = relabelL ρ α a ++ relabelL ρ α b := by
  induction a with
  | nil => rfl
  | cons x a ih => simp [relabelL, ih]

theorem relabelL_map (a : List Node) : relabelL ρ α a = a.map (relabel ρ α) := by
  induction a with
  | nil => rfl
  | cons x a ih => simp [relabelL, ih]

theorem relabelL_isEmpty (a : List Node) : (relabelL ρ α a).isEmpty = a.isEmpty := by cases a <;> rfl

variable (h : Relabelling T T' ρ α)
include h

theorem relabel_name (n : Node) : (relabel ρ α n).name = ρ n.name := by
  cases n <;> simp only [relabel, Node.name]
  · exact (h.fixed (by decide)).symm
  · exact (h.fixed (by decide)).symm
  · exact (h.fixed (by decide)).symm
  · exact (h.fixed (by decide)).symm

omit h in
theorem relabel_children (n : Node) : (relabel ρ α n).children = relabelL ρ α n.children := by
  cases n <;> rfl

/-! ## Removing -/

omit h in
theorem mergeText_relabel : (∀ n, mergeText (relabel ρ α n) = relabel ρ α (mergeText n)) ∧
    (∀ ns prev, mergeTextGo prev (relabelL ρ α ns) = relabelL ρ α (mergeTextGo prev ns)) := by
  have hf : ∀ prev, relabelL ρ α (flush prev) = flush prev := by intro prev; cases prev <;> rfl
  refine Dom.induct ?_ ?_ ?_ ?_ ?_ ?_ ?_
  · intro d; rfl
  · intro d; rfl
  · intro d; rfl
  · intro cs ih; simp [relabel, mergeText, ih]
  · intro n a cs ih; simp [relabel, mergeText, ih]
  · intro prev; simp [relabelL, mergeTextGo, hf]
  · intro n ns hn hns prev
    cases n with
    | text d => cases prev <;> simp [relabelL, relabel, mergeTextGo, hns]
    | comment d => simp [relabelL, relabel, mergeTextGo, hns, hf]
    | doctype d => simp [relabelL, relabel, mergeTextGo, hns, hf]
    | document cs => rw [relabel] at hn; simp [relabelL, relabel, mergeTextGo, hns, hf, hn]
    | elem m a cs => rw [relabel] at hn; simp [relabelL, relabel, mergeTextGo, hns, hf, hn]

theorem removeIn_relabel {r : Bytes → Bool} (hr : ∀ n, r (ρ n) = r n) : (∀ n, removeIn r (relabel ρ α n) = relabel ρ α (removeIn r n)) ∧
    (∀ ns, removeInL r (relabelL ρ α ns) = relabelL ρ α (removeInL r ns)) := by
  refine Dom.induct ?_ ?_ ?_ ?_ ?_ ?_ ?_
  · intro d; rfl
  · intro d; rfl
  · intro d; rfl
  · intro cs ih; simp [relabel, removeIn, ih]
  · intro n a cs ih; simp [relabel, removeIn, ih]
  · rfl
  · intro n ns hn hns
    rw [relabelL, removeInL, removeInL, relabel_name h, hr]
    split
    · exact hns
    · rw [relabelL, hn, hns]

theorem isRemoved_relabel (n : Bytes) : isRemoved (ρ n) = isRemoved n := by
  have e : ∀ m : Bytes, isRemoved m = decide (m = b!"#comment" ∨ m = b!"head" ∨ m = b!"script" ∨ m = b!"style" ∨ m = b!"link" ∨ m = b!"meta" ∨
      m = b!"iframe" ∨ m = b!"noscript" ∨ m = b!"input" ∨ m = b!"textarea") := by
    intro m
    simp [isRemoved, baseRemoves]
  rw [e, e]
  simp only [h.e_hcomment, h.e_head, h.e_script, h.e_style, h.e_link, h.e_meta, h.e_iframe, h.e_noscript, h.e_input, h.e_textarea]

theorem preRenderRemove_relabel (n : Node) : preRenderRemove isRemoved (relabel ρ α n) = relabel ρ α (preRenderRemove isRemoved n) := by
  rw [preRenderRemove, preRenderRemove, relabel_name h, isRemoved_relabel h]
  split
  · exact mergeText_relabel.1 n
  · rw [(removeIn_relabel h (isRemoved_relabel h)).1, mergeText_relabel.1]

/-! ## Spans -/

theorem hasBlock_relabel : (∀ n, hasBlock T' (relabel ρ α n) = hasBlock T n) ∧ (∀ ns, hasBlockL T' (relabelL ρ α ns) = hasBlockL T ns) := by
  refine Dom.induct ?_ ?_ ?_ ?_ ?_ ?_ ?_
  · intro d; rw [relabel, hasBlock, hasBlock, ← h.block, h.fixed (by decide)]
  · intro d; rw [relabel, hasBlock, hasBlock, ← h.block, h.fixed (by decide)]
  · intro d; rw [relabel, hasBlock, hasBlock, ← h.block, h.fixed (by decide)]
  · intro cs ih; rw [relabel, hasBlock, hasBlock, ← h.block, h.fixed (by decide), ih]
  · intro n a cs ih; rw [relabel, hasBlock, hasBlock, ← h.block, ih]
  · rfl
  · intro n ns hn hns; rw [relabelL, hasBlockL, hasBlockL, hn, hns]

theorem renameFakeSpans_relabel : (∀ n, renameFakeSpans T' (relabel ρ α n) = relabel ρ α (renameFakeSpans T n)) ∧
    (∀ ns, renameFakeSpansL T' (relabelL ρ α ns) = relabelL ρ α (renameFakeSpansL T ns)) := by
  refine Dom.induct ?_ ?_ ?_ ?_ ?_ ?_ ?_
  · intro d; rfl
  · intro d; rfl
  · intro d; rfl
  · intro cs ih; simp [relabel, renameFakeSpans, ih]
  · intro n a cs ih
    rw [relabel, renameFakeSpans, renameFakeSpans, relabel, ih, h.block, (hasBlock_relabel h).2]
    simp only [h.e_span]
    split
    · rename_i hn
      rw [h.fixed (by decide), hn.1, h.span]
    · rfl
  · rfl
  · intro n ns hn hns; simp [relabelL, renameFakeSpansL, hn, hns]

/-! ## Redundant elements -/

omit h in
theorem removeRedundantIn_relabel {same : Bytes → Bytes → Bool} (hs : ∀ a b, same (ρ a) (ρ b) = same a b) (hd : ρ b!"#document" = b!"#document") :
    (∀ n anc, removeRedundantIn same (anc.map ρ) (relabel ρ α n) = relabelL ρ α (removeRedundantIn same anc n)) ∧
    (∀ ns anc, removeRedundantL same (anc.map ρ) (relabelL ρ α ns) = relabelL ρ α (removeRedundantL same anc ns)) := by
  refine Dom.induct ?_ ?_ ?_ ?_ ?_ ?_ ?_
  · intro d anc; rfl
  · intro d anc; rfl
  · intro d anc; rfl
  · intro cs ih anc
    have := ih (b!"#document" :: anc)
    rw [List.map_cons, hd] at this
    simp [relabel, relabelL, removeRedundantIn, this]
  · intro n a cs ih anc
    have hany : (anc.map ρ).any (same (ρ n)) = anc.any (same n) := by
      rw [List.any_map]; congr 1; funext x; exact hs n x
    rw [relabel, removeRedundantIn, removeRedundantIn, hs, hany]
    split
    · exact ih anc
    · have := ih (n :: anc)
      rw [List.map_cons] at this
      simp [relabelL, relabel, this]
  · intro anc; rfl
  · intro n ns hn hns anc; simp [relabelL, removeRedundantL, hn, hns]

theorem removeRedundant_relabel {same : Bytes → Bytes → Bool} (hs : ∀ a b, same (ρ a) (ρ b) = same a b) (n : Node) :
    removeRedundant same (relabel ρ α n) = relabel ρ α (removeRedundant same n) := by
  have hd := h.fixed (x := b!"#document") (by decide)
  have hi := (removeRedundantIn_relabel (α := α) hs hd).2
  cases n with
  | text d => rfl
  | comment d => rfl
  | doctype d => rfl
  | document cs =>
    have := hi cs [b!"#document"]
    rw [List.map_cons, hd] at this
    simp [relabel, removeRedundant, ← this]
  | elem m a cs =>
    have := hi cs [m]
    simp [relabel, removeRedundant, ← this]

/-! ## Merging -/

/-- What is collected, with other names and attributes. -/
def relabelC (ρ : Bytes → Bytes) (α : Bytes → List (Bytes × Bytes) → List (Bytes × Bytes)) (c : Collected) : Collected :=
  ⟨relabelL ρ α c.moved, relabelL ρ α c.left, c.goOn⟩

theorem collect_relabel {m : Bytes → Bool} (hm : ∀ n, m (ρ n) = m n) : (∀ n, collectNode m (relabel ρ α n) = relabelC ρ α (collectNode m n)) ∧
    (∀ ns, collectL m (relabelL ρ α ns) = relabelC ρ α (collectL m ns)) := by
  refine Dom.induct ?_ ?_ ?_ ?_ ?_ ?_ ?_
  · intro d; rfl
  · intro d; rfl
  · intro d; rfl
  · intro cs ih; rfl
  · intro n a cs ih
    rw [relabel, collectNode, collectNode]
    simp only [h.e_span, hm, ih]
    by_cases hn : n = b!"span"
    · simp [hn, relabelC, relabelL, relabel]
    · by_cases hmn : m n = true <;> simp [hn, hmn, relabelC, relabelL, relabel]
  · rfl
  · intro n ns hn hns
    rw [relabelL, collectL, collectL, hn, hns]
    by_cases hg : (collectNode m n).goOn = true <;> simp [hg, relabelC]

theorem collectFrames_relabel {m : Bytes → Bool} (hm : ∀ n, m (ρ n) = m n) : ∀ fs : List (List Node),
    collectFrames m (fs.map (relabelL ρ α)) = (relabelL ρ α (collectFrames m fs).1, (collectFrames m fs).2.map (relabelL ρ α))
  | [] => rfl
  | f :: fs => by
    rw [List.map_cons, collectFrames, collectFrames, (collect_relabel h hm).2, collectFrames_relabel hm fs]
    by_cases hg : (collectL m f).goOn = true <;> simp [hg, relabelC]

theorem mergeStep_relabel {m : Bytes → Bool} (hm : ∀ n, m (ρ n) = m n) (n : Node) (cs : List Node) (fs : List (List Node)) :
    mergeStep m (relabel ρ α n) (relabelL ρ α cs) (fs.map (relabelL ρ α)) = (mergeStep m n cs fs).map (relabelL ρ α) := by
  have := collectFrames_relabel h hm (cs :: fs)
  rw [List.map_cons] at this
  rw [mergeStep, mergeStep, relabel_name h, hm, relabelL_isEmpty, relabel_children, this]
  split <;> simp

omit h in
theorem withChildren_relabel (n : Node) (cs : List Node) : withChildren (relabel ρ α n) (relabelL ρ α cs) = relabel ρ α (withChildren n cs) := by
  cases n <;> rfl

theorem mergeAdjacentF_relabel {m : Bytes → Bool} (hm : ∀ n, m (ρ n) = m n) (fs : List (List Node)) :
    mergeAdjacentF m (fs.map (relabelL ρ α)) = (mergeAdjacentF m fs).map (relabelL ρ α) := by
  fun_induction mergeAdjacentF m fs with
  | case1 => simp [mergeAdjacentF]
  | case2 fs ih => rw [List.map_cons, relabelL, mergeAdjacentF, ih]; rfl
  | case3 n cs fs ks cs' fs' e ih =>
    rw [List.map_cons, relabelL, mergeAdjacentF, mergeStep_relabel h hm, ih, e]
    simp [relabelL, withChildren_relabel]
  | case4 n cs fs e ih =>
    rw [List.map_cons, relabelL, mergeAdjacentF, mergeStep_relabel h hm, ih]
    split
    · rename_i ks cs' fs' e'
      exfalso
      generalize hg : mergeAdjacentF m (mergeStep m n cs fs) = g at e e'
      match g, e' with
      | a :: b :: c, _ => exact e a b c rfl
    · rfl

theorem mergeAdjacent_relabel {m : Bytes → Bool} (hm : ∀ n, m (ρ n) = m n) (n : Node) :
    mergeAdjacent m (relabel ρ α n) = relabel ρ α (mergeAdjacent m n) := by
  have := mergeAdjacentF_relabel h hm [[n]]
  simp only [List.map_cons, List.map_nil, relabelL] at this
  rw [mergeAdjacent, mergeAdjacent, this]
  cases hg : mergeAdjacentF m [[n]] with
  | nil => rfl
  | cons f fs =>
    cases f <;> rfl

/-! ## Empty code -/

omit h in
theorem hasText_relabel : (∀ n, hasText (relabel ρ α n) = hasText n) ∧ (∀ ns, hasTextL (relabelL ρ α ns) = hasTextL ns) := by
  refine Dom.induct ?_ ?_ ?_ ?_ ?_ ?_ ?_
  · intro d; rfl
  · intro d; rfl
  · intro d; rfl
  · intro cs ih; rw [relabel, hasText, hasText, ih]
  · intro n a cs ih; rw [relabel, hasText, hasText, ih]
  · rfl
  · intro n ns hn hns; rw [relabelL, hasTextL, hasTextL, hn, hns]

theorem removeEmptyCode_relabel : (∀ n, removeEmptyCode (relabel ρ α n) = relabel ρ α (removeEmptyCode n)) ∧
    (∀ ns, removeEmptyCodeL (relabelL ρ α ns) = relabelL ρ α (removeEmptyCodeL ns)) := by
  refine Dom.induct ?_ ?_ ?_ ?_ ?_ ?_ ?_
  · intro d; rfl
  · intro d; rfl
  · intro d; rfl
  · intro cs ih; simp [relabel, removeEmptyCode, ih]
  · intro n a cs ih; simp [relabel, removeEmptyCode, ih]
  · rfl
  · intro n ns hn hns
    rw [relabelL, removeEmptyCodeL, removeEmptyCodeL, relabel_name h, hasText_relabel.1]
    simp only [h.e_code]
    split
    · exact hns
    · rw [relabelL, hn, hns]

/-! ## Swapping -/

omit h in
theorem isEmptyText_relabel (n : Node) : isEmptyText (relabel ρ α n) = isEmptyText n := by cases n <;> rfl

omit h in
theorem swapTags_relabel {o i : Bytes → Bool} (ho : ∀ n, o (ρ n) = o n) (hi : ∀ n, i (ρ n) = i n) :
    (∀ n, swapTags o i (relabel ρ α n) = relabel ρ α (swapTags o i n)) ∧
    (∀ ns, swapTagsL o i (relabelL ρ α ns) = relabelL ρ α (swapTagsL o i ns)) := by
  refine Dom.induct ?_ ?_ ?_ ?_ ?_ ?_ ?_
  · intro d; rfl
  · intro d; rfl
  · intro d; rfl
  · intro cs ih; simp [relabel, swapTags, ih]
  · intro n a cs ih
    have hf : (relabelL ρ α cs).filter (fun c => !isEmptyText c) = relabelL ρ α (cs.filter fun c => !isEmptyText c) := by
      rw [relabelL_map, relabelL_map, List.filter_map]
      congr 1
      congr 1
      funext c
      simp [isEmptyText_relabel]
    rw [relabel, swapTags.eq_def, swapTags.eq_def]
    dsimp only
    rw [hf]
    generalize hg : cs.filter (fun c => !isEmptyText c) = g
    match g with
    | [] => simp [relabelL, relabel, ih]
    | [.text d] => simp [relabelL, relabel, ih]
    | [.comment d] => simp [relabelL, relabel, ih]
    | [.doctype d] => simp [relabelL, relabel, ih]
    | [.document ks] => simp [relabelL, relabel, ih]
    | [.elem n' a' ks] =>
      simp only [relabelL, relabel, ho, hi]
      split
      · rw [relabel]
        congr 1
        rw [relabelL_map (α := α) cs, relabelL_map (α := α) (List.map _ _), List.map_map, List.map_map]
        apply List.map_congr_left
        intro c hc
        simp only [Function.comp, isEmptyText_relabel]
        split
        · rfl
        · rfl
      · rw [relabel, ih]
    | x :: y :: r => simp [relabelL, relabel, ih]
  · rfl
  · intro n ns hn hns; simp [relabelL, swapTagsL, hn, hns]

/-! ## The walk -/

/-- A step of the walk, with other names. -/
def relabelEv (ρ : Bytes → Bytes) : Ev → Ev
  | .op n => .op (ρ n)
  | .cl n => .cl (ρ n)
  | .text => .text
  | .comment d => .comment d

theorem events_relabel : (∀ n, events (relabel ρ α n) = (events n).map (relabelEv ρ)) ∧ (∀ ns, eventsL (relabelL ρ α ns) = (eventsL ns).map (relabelEv ρ)) := by
  refine Dom.induct ?_ ?_ ?_ ?_ ?_ ?_ ?_
  · intro d; rfl
  · intro d; rfl
  · intro d; simp [relabel, events, relabelEv, h.fixed (x := b!"#doctype") (by decide)]
  · intro cs ih; simp [relabel, events, relabelEv, h.fixed (x := b!"#document") (by decide), ih]
  · intro n a cs ih; simp [relabel, events, relabelEv, ih]
  · rfl
  · intro n ns hn hns; simp [relabelL, eventsL, hn, hns]

theorem firstIsInner_go_relabel {i : Bytes → Bool} (hi : ∀ n, i (ρ n) = i n) : ∀ evs : List Ev, firstIsInner.go i (evs.map (relabelEv ρ)) = firstIsInner.go i evs
  | [] => rfl
  | .cl n :: evs => by simp [relabelEv, firstIsInner.go, firstIsInner_go_relabel hi evs]
  | .op n :: evs => by simp [relabelEv, firstIsInner.go, firstIsInner_go_relabel hi evs, h.e_span, hi]
  | .text :: evs => by simp [relabelEv, firstIsInner.go]
  | .comment d :: evs => by simp [relabelEv, firstIsInner.go]

theorem firstIsInner_relabel {i : Bytes → Bool} (hi : ∀ n, i (ρ n) = i n) (evs : List Ev) : firstIsInner i (evs.map (relabelEv ρ)) = firstIsInner i evs := by
  have := firstIsInner_go_relabel h hi evs
  cases evs with
  | nil => rfl
  | cons e evs => cases e <;> simpa [relabelEv, firstIsInner] using this

theorem lastIsInner_go_relabel {i : Bytes → Bool} (hi : ∀ n, i (ρ n) = i n) : ∀ evs : List Ev, lastIsInner.go i (evs.map (relabelEv ρ)) = lastIsInner.go i evs
  | [] => rfl
  | .op n :: evs => by simp [relabelEv, lastIsInner.go, lastIsInner_go_relabel hi evs]
  | .cl n :: evs => by simp [relabelEv, lastIsInner.go, lastIsInner_go_relabel hi evs, h.e_span, hi]
  | .text :: evs => by simp [relabelEv, lastIsInner.go]
  | .comment d :: evs => by simp [relabelEv, lastIsInner.go]

theorem lastIsInner_relabel {i : Bytes → Bool} (hi : ∀ n, i (ρ n) = i n) (evs : List Ev) : lastIsInner i (evs.map (relabelEv ρ)) = lastIsInner i evs := by
  have := lastIsInner_go_relabel h hi evs
  cases evs with
  | nil => rfl
  | cons e evs => cases e <;> simpa [relabelEv, lastIsInner] using this

theorem nextIsText_relabel : ∀ evs : List Ev, nextIsText (evs.map (relabelEv ρ)) = nextIsText evs
  | [] => rfl
  | .cl n :: evs => by simp [relabelEv, nextIsText, nextIsText_relabel evs]
  | .op n :: evs => by simp [relabelEv, nextIsText, nextIsText_relabel evs, h.e_span]
  | .text :: evs => by simp [relabelEv, nextIsText]
  | .comment d :: evs => by simp [relabelEv, nextIsText]

theorem prevIsText_relabel : ∀ evs : List Ev, prevIsText (evs.map (relabelEv ρ)) = prevIsText evs
  | [] => rfl
  | .op n :: evs => by simp [relabelEv, prevIsText, prevIsText_relabel evs]
  | .cl n :: evs => by simp [relabelEv, prevIsText, prevIsText_relabel evs, h.e_span]
  | .text :: evs => by simp [relabelEv, prevIsText]
  | .comment d :: evs => by simp [relabelEv, prevIsText]

theorem addedSpaces_relabel {o i : Bytes → Bool} (ho : ∀ n, o (ρ n) = o n) (hi : ∀ n, i (ρ n) = i n) : ∀ (evs before : List Ev) (k : Nat),
    addedSpaces o i (before.map (relabelEv ρ)) k (evs.map (relabelEv ρ)) = addedSpaces o i before k evs
  | [], before, k => rfl
  | e :: evs, before, k => by
    have ih := addedSpaces_relabel ho hi evs (e :: before) (if e = .text then k + 1 else k)
    rw [List.map_cons] at ih
    have he : (relabelEv ρ e = .text) = (e = .text) := by cases e <;> simp [relabelEv]
    cases e with
    | op n =>
      simp only [reduceCtorEq, if_false] at ih
      simp [relabelEv, addedSpaces, ho, firstIsInner_relabel h hi, prevIsText_relabel h]
      simp only [relabelEv] at ih
      rw [ih]
    | cl n =>
      simp only [reduceCtorEq, if_false] at ih
      simp [relabelEv, addedSpaces, ho, lastIsInner_relabel h hi, nextIsText_relabel h]
      simp only [relabelEv] at ih
      rw [ih]
    | text => simp [relabelEv] at ih; simp [relabelEv, addedSpaces, ih]
    | comment d => simp [relabelEv] at ih; simp [relabelEv, addedSpaces, ih]

omit h in
theorem mapTexts_relabel (f : Nat → Bytes → Bytes) : (∀ n k, mapTexts f k (relabel ρ α n) = (relabel ρ α (mapTexts f k n).1, (mapTexts f k n).2)) ∧
    (∀ ns k, mapTextsL f k (relabelL ρ α ns) = (relabelL ρ α (mapTextsL f k ns).1, (mapTextsL f k ns).2)) := by
  refine Dom.induct ?_ ?_ ?_ ?_ ?_ ?_ ?_
  · intro d k; rfl
  · intro d k; rfl
  · intro d k; rfl
  · intro cs ih k; simp [relabel, mapTexts, ih]
  · intro n a cs ih k; simp [relabel, mapTexts, ih]
  · intro k; rfl
  · intro n ns hn hns k; simp [relabelL, mapTextsL, hn, hns]

theorem addSpace_relabel {o i : Bytes → Bool} (ho : ∀ n, o (ρ n) = o n) (hi : ∀ n, i (ρ n) = i n) (n : Node) :
    addSpace o i (relabel ρ α n) = relabel ρ α (addSpace o i n) := by
  have := addedSpaces_relabel h ho hi (events n) [] 0
  rw [List.map_nil] at this
  rw [addSpace, addSpace, (events_relabel h).1, this, (mapTexts_relabel _).1]

/-! ## Alternatives -/

theorem boldItalic_relabel (n : Bytes) : isBoldOrItalic (ρ n) = isBoldOrItalic n := by rw [isBoldOrItalic, isBoldOrItalic, h.bold, h.italic]

theorem isHeading_relabel (n : Bytes) : isHeading (ρ n) = isHeading n := by
  rw [isHeading, isHeading]
  simp only [h.e_h1, h.e_h2, h.e_h3, h.e_h4, h.e_h5, h.e_h6]

theorem getStructure_relabel (n : Bytes) : getStructure (ρ n) = getStructure n := by
  have e : ∀ m : Bytes, getStructure m = if m = b!"#document" ∨ m = b!"html" ∨ m = b!"head" ∨ m = b!"body" ∨ m = b!"blockquote" ∨ m = b!"ul" ∨ m = b!"ol" ∨ m = b!"li" then .container
      else if m = b!"hr" ∨ m = b!"pre" ∨ isHeading m = true then .leaf
      else if m = b!"#text" ∨ m = b!"span" ∨ m = b!"code" ∨ isBoldOrItalic m = true ∨ m = b!"a" ∨ m = b!"img" ∨ m = b!"br" then .inline else .other := by
    intro m
    have e1 : (m ∈ [b!"hr", b!"pre", b!"h1", b!"h2", b!"h3", b!"h4", b!"h5", b!"h6"]) = (m = b!"hr" ∨ m = b!"pre" ∨ isHeading m = true) := by
      simp [isHeading]
    have e2 : (m ∈ [b!"#text", b!"span", b!"code", b!"b", b!"strong", b!"i", b!"em", b!"a", b!"img", b!"br"]) =
        (m = b!"#text" ∨ m = b!"span" ∨ m = b!"code" ∨ isBoldOrItalic m = true ∨ m = b!"a" ∨ m = b!"img" ∨ m = b!"br") := by
      apply propext
      simp only [isBoldOrItalic, isBold, isItalic, List.mem_cons, List.not_mem_nil, or_false, Bool.or_eq_true, decide_eq_true_eq]
      grind
    rw [getStructure]
    simp only [e1, e2]
    simp only [List.mem_cons, List.not_mem_nil, or_false]
  rw [e, e]
  simp only [h.e_hdocument, h.e_html, h.e_head, h.e_body, h.e_blockquote, h.e_ul, h.e_ol, h.e_li, h.e_hr, h.e_pre, isHeading_relabel h, h.e_htext, h.e_span,
    h.e_code, boldItalic_relabel h, h.e_a, h.e_img, h.e_br]

theorem alternative_relabel (hu : ∀ m n, α m = α n) (n : Bytes) (a : List (Bytes × Bytes)) (cs : List Node) :
    alternative (ρ n) (α n a) (relabelL ρ α cs) = relabelL ρ α (alternative n a cs) := by
  have e : ∀ m : Bytes, (m ∈ [b!"h1", b!"h2", b!"h3", b!"h4", b!"h5", b!"h6"]) = (isHeading m = true) := by intro m; simp [isHeading]
  rw [alternative, alternative]
  simp only [e, isHeading_relabel h, h.e_blockquote, h.e_pre, h.e_hr]
  repeat' split
  · simp [relabelL, relabel, h.nil, h.strong, h.fixed (x := b!"br") (by decide), hu n b!"strong"]
  · simp [relabelL, relabel, h.fixed (x := b!"span") (by decide), hu n b!"span"]
  · simp [relabelL, relabel, h.fixed (x := b!"code") (by decide), hu n b!"code"]
  · rfl
  · simp [relabelL, relabel, h.fixed (x := b!"span") (by decide), hu n b!"span"]

theorem leafAlternativesIn_relabel (hu : ∀ m n, α m = α n) : (∀ n b c, leafAlternativesIn b c (relabel ρ α n) = relabelL ρ α (leafAlternativesIn b c n)) ∧
    (∀ ns b c, leafAlternativesL b c (relabelL ρ α ns) = relabelL ρ α (leafAlternativesL b c ns)) := by
  refine Dom.induct ?_ ?_ ?_ ?_ ?_ ?_ ?_
  · intro d b c; rfl
  · intro d b c; rfl
  · intro d b c; rfl
  · intro cs ih b c; simp [relabel, relabelL, leafAlternativesIn, ih]
  · intro n a cs ih b c
    rw [relabel, leafAlternativesIn, leafAlternativesIn]
    simp only [getStructure_relabel h, ih, alternative_relabel h hu]
    split <;> simp [relabelL, relabel]
  · intro b c; rfl
  · intro n ns hn hns b c; simp [relabelL, leafAlternativesL, hn, hns]

theorem leafAlternatives_relabel (hu : ∀ m n, α m = α n) (n : Node) : leafAlternatives (relabel ρ α n) = relabel ρ α (leafAlternatives n) := by
  rw [leafAlternatives, leafAlternatives, (leafAlternativesIn_relabel h hu).1]
  cases leafAlternativesIn false false n <;> rfl

/-- Attributes that are dropped before or after an element gets another name. -/
structure Dropping (α : Bytes → List (Bytes × Bytes) → List (Bytes × Bytes)) : Prop where
  again : ∀ n a, α n (α n a) = α n a
  span : ∀ n a, α b!"span" (α n a) = α b!"span" a
  strong : ∀ n a, α b!"strong" (α n a) = α b!"strong" a
  code : ∀ a, α b!"code" (α b!"pre" a) = α b!"code" a

omit h in
theorem alternative_drop (hd : Dropping α) (n : Bytes) (a : List (Bytes × Bytes)) {cs cs' : List Node} (hc : relabelL id α cs' = relabelL id α cs) :
    relabelL id α (alternative n (α n a) cs') = relabelL id α (alternative n a cs) := by
  rw [alternative, alternative]
  repeat' split
  · simp [relabelL, relabel, hd.strong, hc]
  · simp [relabelL, relabel, hd.span, hc]
  · rename_i e; subst e; simp [relabelL, relabel, hd.code, hc]
  · rfl
  · simp [relabelL, relabel, hd.span, hc]

omit h in
theorem leafAlternativesIn_drop (hd : Dropping α) : (∀ n b c, relabelL id α (leafAlternativesIn b c (relabel id α n)) = relabelL id α (leafAlternativesIn b c n)) ∧
    (∀ ns b c, relabelL id α (leafAlternativesL b c (relabelL id α ns)) = relabelL id α (leafAlternativesL b c ns)) := by
  refine Dom.induct ?_ ?_ ?_ ?_ ?_ ?_ ?_
  · intro d b c; rfl
  · intro d b c; rfl
  · intro d b c; rfl
  · intro cs ih b c; simp [relabel, relabelL, leafAlternativesIn, ih]
  · intro n a cs ih b c
    rw [relabel, leafAlternativesIn, leafAlternativesIn, id]
    split
    · exact alternative_drop hd n a (ih _ _)
    · simp [relabelL, relabel, ih, hd.again]
  · intro b c; rfl
  · intro n ns hn hns b c; simp [relabelL, leafAlternativesL, hn, hns]

omit h in
theorem leafAlternatives_drop (hd : Dropping α) (n : Node) : relabel id α (leafAlternatives (relabel id α n)) = relabel id α (leafAlternatives n) := by
  have h1 := (leafAlternativesIn_drop hd).1 n false false
  have h2 : ∀ n : Node, leafAlternativesIn false false n ≠ [] := by
    intro n
    cases n <;> simp [leafAlternativesIn]
  rw [leafAlternatives, leafAlternatives]
  revert h1
  cases h3 : leafAlternativesIn false false (relabel id α n) with
  | nil => exact absurd h3 (h2 _)
  | cons x xs =>
    cases h4 : leafAlternativesIn false false n with
    | nil => exact absurd h4 (h2 _)
    | cons y ys =>
      intro h1
      simp only [relabelL, List.cons.injEq] at h1
      exact h1.1

/-! ## List items -/

theorem isLi_relabel (n : Node) : isLi (relabel ρ α n) = isLi n := by cases n <;> simp [relabel, isLi, h.e_li]

/-- The item that is being built, with other names and attributes. -/
def relabelCur (ρ : Bytes → Bytes) (α : Bytes → List (Bytes × Bytes) → List (Bytes × Bytes)) (c : List (Bytes × Bytes) × List Node × List Node) :
    List (Bytes × Bytes) × List Node × List Node := (α b!"li" c.1, relabelL ρ α c.2.1, relabelL ρ α c.2.2)

omit h in
theorem moveItemsGo_cons (cur : Option (List (Bytes × Bytes) × List Node × List Node)) (c : Node) (cs : List Node) :
    moveItemsGo cur (c :: cs) =
      if isLi c then
        (match cur with | none => [] | some (a, ks, blanks) => .elem b!"li" a ks :: blanks) ++
          moveItemsGo (some (match c with | .elem _ a ks => (a, ks, []) | _ => ([], [], []))) cs
      else if isEmptyText c then
        match cur with
        | none => c :: moveItemsGo none cs
        | some (a, ks, blanks) => moveItemsGo (some (a, ks, blanks ++ [c])) cs
      else
        match cur with
        | none => moveItemsGo (some ([], [c], [])) cs
        | some (a, ks, blanks) => moveItemsGo (some (a, ks ++ [c], blanks)) cs := by
  cases cur <;> cases c <;> simp [moveItemsGo]

theorem moveItemsGo_relabel : ∀ (ns : List Node) (cur : Option (List (Bytes × Bytes) × List Node × List Node)),
    moveItemsGo (cur.map (relabelCur ρ α)) (relabelL ρ α ns) = relabelL ρ α (moveItemsGo cur ns)
  | [], none => rfl
  | [], some (a, ks, bl) => by simp [relabelCur, relabelL, moveItemsGo, relabel, h.fixed (x := b!"li") (by decide)]
  | c :: cs, cur => by
    have ih := moveItemsGo_relabel cs
    rw [relabelL, moveItemsGo_cons, moveItemsGo_cons]
    rw [isLi_relabel h, isEmptyText_relabel]
    have hli := h.fixed (x := b!"li") (by decide)
    split
    · rename_i hc
      cases c with
      | elem n a ks =>
        have hn : n = b!"li" := by simpa [isLi] using hc
        subst hn
        have := ih (some (a, ks, []))
        simp only [Option.map_some, relabelCur, relabelL] at this
        simp only [relabel, relabelL_append, this]
        cases cur with
        | none => rfl
        | some x => obtain ⟨a', ks', bl⟩ := x; simp [relabelCur, relabelL, relabel, hli]
      | text d => simp [isLi] at hc
      | comment d => simp [isLi] at hc
      | doctype d => simp [isLi] at hc
      | document d => simp [isLi] at hc
    · split
      · cases cur with
        | none =>
          have := ih none
          simp only [Option.map_none] at this
          simp [relabelL, this]
        | some x =>
          obtain ⟨a', ks', bl⟩ := x
          have := ih (some (a', ks', bl ++ [c]))
          simp only [Option.map_some, relabelCur, relabelL_append, relabelL] at this
          simp only [Option.map_some, relabelCur, this]
      · cases cur with
        | none =>
          have := ih (some ([], [c], []))
          simp only [Option.map_some, relabelCur, relabelL, h.nil] at this
          simp only [Option.map_none, this]
        | some x =>
          obtain ⟨a', ks', bl⟩ := x
          have := ih (some (a', ks' ++ [c], bl))
          simp only [Option.map_some, relabelCur, relabelL_append, relabelL] at this
          simp only [Option.map_some, relabelCur, this]

theorem moveListItems_relabel : (∀ n, moveListItems (relabel ρ α n) = relabel ρ α (moveListItems n)) ∧
    (∀ ns, moveListItemsL (relabelL ρ α ns) = relabelL ρ α (moveListItemsL ns)) := by
  refine Dom.induct ?_ ?_ ?_ ?_ ?_ ?_ ?_
  · intro d; rfl
  · intro d; rfl
  · intro d; rfl
  · intro cs ih; simp [relabel, moveListItems, ih]
  · intro n a cs ih
    have := moveItemsGo_relabel h (moveListItemsL cs) none
    rw [Option.map_none] at this
    rw [relabel, moveListItems, moveListItems]
    simp only [h.e_ol, h.e_ul, ih, this, relabel]
    split <;> rfl
  · rfl
  · intro n ns hn hns; simp [relabelL, moveListItemsL, hn, hns]

/-! ## All of `handlePreRender` -/

theorem isPre_relabel (n : Bytes) : isPre (ρ n) = isPre n := by rw [isPre, isPre]; simp only [h.e_pre]
theorem isLink_relabel (n : Bytes) : isLink (ρ n) = isLink n := by rw [isLink, isLink]; simp only [h.e_a]

omit h in
/-- The steps of `handlePreRender` up to the alternatives. -/
def beforeLeaf (T : NameTables) (doc : Node) : Node :=
  let doc := renameFakeSpans T doc
  let doc := removeRedundant bothBoldOrItalic doc
  let doc := mergeAdjacent isBoldOrItalic doc
  let doc := removeEmptyCode doc
  let doc := swapTags isInlineCode isPre doc
  let doc := mergeAdjacent isInlineCode doc
  let doc := addSpace isBoldOrItalic isInlineCode doc
  let doc := removeRedundant bothLink doc
  let doc := swapTags isBoldOrItalic isLink doc
  swapTags isLink isHeading doc

omit h in
theorem handlePreRender_steps (n : Node) : handlePreRender T n = moveListItems (leafAlternatives (beforeLeaf T n)) := rfl

theorem beforeLeaf_relabel (n : Node) : beforeLeaf T' (relabel ρ α n) = relabel ρ α (beforeLeaf T n) := by
  have hbi : ∀ a b, bothBoldOrItalic (ρ a) (ρ b) = bothBoldOrItalic a b := by intro a b; simp only [bothBoldOrItalic, h.bold, h.italic]
  have hbl : ∀ a b, bothLink (ρ a) (ρ b) = bothLink a b := by intro a b; simp only [bothLink, isLink_relabel h]
  rw [beforeLeaf, beforeLeaf]
  rw [(renameFakeSpans_relabel h).1, removeRedundant_relabel h hbi, mergeAdjacent_relabel h (boldItalic_relabel h), (removeEmptyCode_relabel h).1,
    (swapTags_relabel h.inlineCode (isPre_relabel h)).1, mergeAdjacent_relabel h h.inlineCode, addSpace_relabel h (boldItalic_relabel h) h.inlineCode,
    removeRedundant_relabel h hbl, (swapTags_relabel (boldItalic_relabel h) (isLink_relabel h)).1,
    (swapTags_relabel (isLink_relabel h) (isHeading_relabel h)).1]

/-! ## Whitespace -/

theorem isVoid_relabel (n : Bytes) : decide (ρ n ∈ Collapse.voidElements) = decide (n ∈ Collapse.voidElements) := by
  have e : ∀ m, m ∈ Collapse.voidElements → m ∈ fixedNames := by decide
  by_cases hn : n ∈ Collapse.voidElements
  · rw [h.fixed (e _ hn)]
  · have : ¬ρ n ∈ Collapse.voidElements := fun hv => hn ((h.fix _ (e _ hv) n).1 rfl ▸ hv)
    simp [hn, this]

section collapse
open Collapse

/-- Functions that treat the names alike. -/
structure SameFuncs (f f' : DomFuncs) (ρ : Bytes → Bytes) : Prop where
  isBlock : ∀ n, f'.isBlock (ρ n) = f.isBlock n
  isVoid : ∀ n, f'.isVoid (ρ n) = f.isVoid n
  isPre : ∀ n, f'.isPre (ρ n) = f.isPre n

variable {f f' : DomFuncs} (hf : SameFuncs f f' ρ)
include hf

theorem visit_relabel (s : Vars) (n : Bytes) : visit f' s (ρ n) = visit f s n := by
  rw [visit, visit, hf.isBlock, hf.isVoid, hf.isPre]
  simp only [h.e_br, h.e_code]

theorem before_relabel (x : Next) (n : Bytes) : before f' x (ρ n) = before f x n := by
  rw [before, before, hf.isBlock, hf.isVoid, hf.isPre]
  simp only [h.e_br, h.e_code]

theorem first_relabel : (∀ n s, first f' s (relabel ρ α n) = (relabelL ρ α (first f s n).1, (first f s n).2)) ∧
    (∀ ns s, firstL f' s (relabelL ρ α ns) = (relabelL ρ α (firstL f s ns).1, (firstL f s ns).2)) := by
  refine Dom.induct ?_ ?_ ?_ ?_ ?_ ?_ ?_
  · intro d s
    rw [relabel, first, first, firstText]
    split <;> split <;> rfl
  · intro d s; rfl
  · intro d s; rfl
  · intro cs ih s; rfl
  · intro n a cs ih s
    rw [relabel, first, first, hf.isPre, visit_relabel h hf]
    split
    · rfl
    · simp [ih, visit_relabel h hf, relabelL, relabel]
  · intro s; rfl
  · intro n ns hn hns s; simp [relabelL, firstL, hn, hns]

theorem second_relabel : (∀ n x, second f' x (relabel ρ α n) = (relabelL ρ α (second f x n).1, (second f x n).2)) ∧
    (∀ ns x, secondL f' x (relabelL ρ α ns) = (relabelL ρ α (secondL f x ns).1, (secondL f x ns).2)) := by
  refine Dom.induct ?_ ?_ ?_ ?_ ?_ ?_ ?_
  · intro d x
    cases x
    · rfl
    · simp only [relabel, second]; split <;> rfl
    · rfl
  · intro d x; rfl
  · intro d x; rfl
  · intro cs ih x; rfl
  · intro n a cs ih x
    rw [relabel, second, second, hf.isPre, before_relabel h hf]
    split
    · rfl
    · simp [ih, before_relabel h hf, relabelL, relabel]
  · intro x; rfl
  · intro n ns hn hns x; simp [relabelL, secondL, hn, hns]

theorem collapse_relabel (n : Node) : collapse f' (relabel ρ α n) = relabel ρ α (collapse f n) := by
  have hc : ∀ cs, Collapse.children f' (relabelL ρ α cs) = relabelL ρ α (Collapse.children f cs) := by
    intro cs
    simp [Collapse.children, (first_relabel h hf).2, (second_relabel h hf).2]
  have hd : f'.isPre b!"#document" = f.isPre b!"#document" := by rw [← hf.isPre, h.fixed (by decide)]
  cases n with
  | text d => rfl
  | comment d => rfl
  | doctype d => rfl
  | document cs => rw [relabel, collapse, collapse, hd]; split <;> simp [relabel, hc]
  | elem m a cs => rw [relabel, collapse, collapse, hf.isPre]; split <;> simp [relabel, hc]

end collapse

/-! ## Comments between lists -/

theorem isListName_relabel (n : Bytes) : isListName (ρ n) = isListName n := by rw [isListName, isListName]; simp only [h.e_ul, h.e_ol]

theorem nextIsList_relabel : ∀ evs : List Ev, nextIsList (evs.map (relabelEv ρ)) = nextIsList evs
  | [] => rfl
  | .cl n :: evs => by simp [relabelEv, nextIsList, nextIsList_relabel evs]
  | .op n :: evs => by simp [relabelEv, nextIsList, nextIsList_relabel evs, h.e_li, h.e_hr, isListName_relabel h]
  | .text :: evs => by simp [relabelEv, nextIsList]
  | .comment d :: evs => by simp [relabelEv, nextIsList, nextIsList_relabel evs]

theorem addListEndIn_relabel : (∀ n evs, addListEndIn (evs.map (relabelEv ρ)) (relabel ρ α n) = relabel ρ α (addListEndIn evs n)) ∧
    (∀ ns evs, addListEndL (evs.map (relabelEv ρ)) (relabelL ρ α ns) = relabelL ρ α (addListEndL evs ns)) := by
  refine Dom.induct ?_ ?_ ?_ ?_ ?_ ?_ ?_
  · intro d evs; rfl
  · intro d evs; rfl
  · intro d evs; rfl
  · intro cs ih evs
    have := ih (.cl b!"#document" :: evs)
    rw [List.map_cons, relabelEv, h.fixed (by decide)] at this
    simp [relabel, addListEndIn, this]
  · intro n a cs ih evs
    have := ih (.cl n :: evs)
    rw [List.map_cons, relabelEv] at this
    simp [relabel, addListEndIn, this]
  · intro evs; rfl
  · intro n ns hn hns evs
    rw [relabelL, addListEndL, addListEndL, relabel_name h, isListName_relabel h, (events_relabel h).2, ← List.map_append, nextIsList_relabel h]
    split
    · have := hn (.comment listEndComment :: (eventsL ns ++ evs))
      rw [List.map_cons, relabelEv] at this
      simp only [relabelL, relabel, hns]
      rw [← List.cons_append] at this
      rw [List.cons_append, ← List.map_append, this]
    · rw [relabelL, hns, ← hn, List.map_append]

theorem addListEndComments_relabel (n : Node) : addListEndComments (relabel ρ α n) = relabel ρ α (addListEndComments n) :=
  (addListEndIn_relabel h).1 n []

end Verif.Alike
