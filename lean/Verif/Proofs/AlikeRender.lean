import Verif.Proofs.Alike
/-!
# Rendering trees with other names and attributes
-/

namespace Verif.Alike
open Verif Verif.DomUtils Verif.Render Verif.Commonmark Verif.Escape

variable {T' : NameTables} {E : Env} {ρ : Bytes → Bytes} {α : Bytes → List (Bytes × Bytes) → List (Bytes × Bytes)}

/-- The same settings, with other tables of names. -/
def withTables (E : Env) (T' : NameTables) : Env := { E with tables := T' }

variable (h : Relabelling E.tables T' ρ α)
include h

theorem isBlock_relabel (n : Bytes) : isBlock (withTables E T') (ρ n) = isBlock E n := by
  rw [isBlock, isBlock, isRemoved_relabel h]
  exact congrArg _ (h.block n)

omit h in
/-- What comes after `handlePreRender`, before rendering. -/
def afterHandle (E : Env) (doc : Node) : Node :=
  let doc := Collapse.collapse (Collapse.baseFuncs (isBlock E)) (strikePreRender E doc)
  if E.cfg.disableListEndComment then doc else addListEndComments doc

omit h in
theorem preRender_steps (n : Node) :
    preRender E n = afterHandle E (moveListItems (leafAlternatives (beforeLeaf E.tables (preRenderRemove isRemoved n)))) := rfl

theorem afterHandle_relabel (n : Node) : afterHandle (withTables E T') (relabel ρ α n) = relabel ρ α (afterHandle E n) := by
  have hb : ∀ a b, bothStrike (ρ a) (ρ b) = bothStrike a b := by intro a b; simp only [bothStrike, h.strike]
  have hs : ∀ n, strikePreRender (withTables E T') (relabel ρ α n) = relabel ρ α (strikePreRender E n) := by
    intro n
    rw [strikePreRender, strikePreRender]
    show (if E.strike.isSome then _ else _) = _
    split
    · rw [removeRedundant_relabel h hb, mergeAdjacent_relabel h h.strike]
    · rfl
  have hf : SameFuncs (Collapse.baseFuncs (isBlock E)) (Collapse.baseFuncs (isBlock (withTables E T'))) ρ :=
    ⟨isBlock_relabel h, isVoid_relabel h, fun n => by simp only [Collapse.baseFuncs, h.e_pre, h.e_code]⟩
  rw [afterHandle, afterHandle, hs, collapse_relabel h hf]
  show (if E.cfg.disableListEndComment then _ else _) = _
  split
  · rfl
  · rw [addListEndComments_relabel h]

/-! ## Code -/

theorem codeText_relabel : (∀ n, codeText (relabel ρ α n) = codeText n) ∧ (∀ ns, codeTextL (relabelL ρ α ns) = codeTextL ns) := by
  refine Dom.induct ?_ ?_ ?_ ?_ ?_ ?_ ?_
  · intro d; rfl
  · intro d; rfl
  · intro d; rfl
  · intro cs ih; rw [relabel, codeText, codeText, ih]
  · intro n a cs ih
    rw [relabel, codeText, codeText, ih]
    simp only [h.e_style, h.e_script, h.e_textarea, h.e_br, h.e_div]
  · rfl
  · intro n ns hn hns; rw [relabelL, codeTextL, codeTextL, hn, hns]

theorem attr?_relabel {key : Bytes} (n : Node) (hk : key ∈ watched n.name) : (relabel ρ α n).attr? key = n.attr? key := by
  cases n with
  | elem n a cs => exact h.look n key hk a
  | text d => rfl
  | comment d => rfl
  | doctype d => rfl
  | document d => rfl

theorem attrOr_relabel {key : Bytes} (n : Node) (hk : key ∈ watched n.name) (dflt : Bytes) : (relabel ρ α n).attrOr key dflt = n.attrOr key dflt := by
  rw [Node.attrOr, Node.attrOr, attr?_relabel h n hk]

theorem codeInfo_relabel : (∀ n info, codeInfo info (relabel ρ α n) = codeInfo info n) ∧ (∀ ns info, codeInfoL info (relabelL ρ α ns) = codeInfoL info ns) := by
  refine Dom.induct ?_ ?_ ?_ ?_ ?_ ?_ ?_
  · intro d info; rfl
  · intro d info; rfl
  · intro d info; rfl
  · intro cs ih info; rw [relabel, codeInfo, codeInfo, ih]
  · intro n a cs ih info
    have e : (if (ρ n = b!"code" ∨ ρ n = b!"pre") ∧ info = [] then codeLanguage (Node.attrOr b!"class" [] (.elem (ρ n) (α n a) (relabelL ρ α cs))) else info) =
        if (n = b!"code" ∨ n = b!"pre") ∧ info = [] then codeLanguage (Node.attrOr b!"class" [] (.elem n a cs)) else info := by
      simp only [h.e_code, h.e_pre]
      split
      · rename_i hn
        have := attrOr_relabel h (key := b!"class") (.elem n a cs) (by rw [Node.name]; rcases hn.1 with e | e <;> rw [e] <;> decide) []
        rw [relabel] at this
        rw [this]
      · rfl
    rw [relabel, codeInfo, codeInfo]
    simp only [e, h.e_style, h.e_script, h.e_textarea, ih]
  · intro info; rfl
  · intro n ns hn hns info; rw [relabelL, codeInfoL, codeInfoL, hn, hns]

/-! ## Tables -/

/-- A node with its place, with other names and attributes. -/
def relabelP (ρ : Bytes → Bytes) (α : Bytes → List (Bytes × Bytes) → List (Bytes × Bytes)) (x : Path × Node) : Path × Node := (x.1, relabel ρ α x.2)

omit h in
theorem below_relabel : (∀ n p, below p (relabel ρ α n) = (below p n).map (relabelP ρ α)) ∧
    (∀ ns p i, belowL p i (relabelL ρ α ns) = (belowL p i ns).map (relabelP ρ α)) := by
  refine Dom.induct ?_ ?_ ?_ ?_ ?_ ?_ ?_
  · intro d p; rfl
  · intro d p; rfl
  · intro d p; rfl
  · intro cs ih p; rw [relabel, below, below, ih]
  · intro n a cs ih p; rw [relabel, below, below, ih]
  · intro p i; rfl
  · intro n ns hn hns p i; simp [relabelL, belowL, hn, hns, relabelP]

omit h in
theorem find?_relabelP {q q' : Path × Node → Bool} (hq : ∀ x, q' (relabelP ρ α x) = q x) (l : List (Path × Node)) :
    (l.map (relabelP ρ α)).find? q' = (l.find? q).map (relabelP ρ α) := by
  rw [List.find?_map]
  congr 2
  funext x
  exact hq x

omit h in
theorem filter_relabelP {q q' : Path × Node → Bool} (hq : ∀ x, q' (relabelP ρ α x) = q x) (l : List (Path × Node)) :
    (l.map (relabelP ρ α)).filter q' = (l.filter q).map (relabelP ρ α) := by
  rw [List.filter_map]
  congr 2
  funext x
  exact hq x

theorem findFirst_relabel {name : Bytes} (hname : name ∈ fixedNames) (x : Path × Node) :
    findFirst name (relabelP ρ α x) = (findFirst name x).map (relabelP ρ α) := by
  rw [findFirst, findFirst]
  rw [show (relabelP ρ α x).1 = x.1 from rfl, show (relabelP ρ α x).2 = relabel ρ α x.2 from rfl, below_relabel.1]
  apply find?_relabelP
  intro y
  show decide ((relabel ρ α y.2).name = name) = decide (y.2.name = name)
  rw [relabel_name h]
  simp only [h.fix name hname]

theorem selectHeader_relabel (n : Node) : selectHeader (relabel ρ α n) = (selectHeader n).map (relabelP ρ α) := by
  have h1 := findFirst_relabel h (name := b!"thead") (by decide) ([], n)
  have h3 := findFirst_relabel h (name := b!"th") (by decide) ([], n)
  have hr : relabelP ρ α ([], n) = ([], relabel ρ α n) := rfl
  rw [hr] at h1 h3
  have h2 : (findFirst b!"thead" ([], relabel ρ α n)).bind (findFirst b!"tr") = ((findFirst b!"thead" ([], n)).bind (findFirst b!"tr")).map (relabelP ρ α) := by
    rw [h1]
    cases findFirst b!"thead" ([], n) with
    | none => rfl
    | some x => exact findFirst_relabel h (by decide) x
  rw [selectHeader, selectHeader, h2, h3]
  cases (findFirst b!"thead" ([], n)).bind (findFirst b!"tr") with
  | some x => rfl
  | none =>
    cases findFirst b!"th" ([], n) with
    | none => rfl
    | some x =>
      simp only [Option.map_none, Option.map_some, Option.bind_some]
      rw [below_relabel.1, ← hr, ← List.map_cons]
      exact find?_relabelP (fun _ => rfl) _

theorem selectRows_relabel (n : Node) (hd : Option (Path × Node)) :
    selectRows (relabel ρ α n) (hd.map (relabelP ρ α)) = (selectRows n hd).map (relabelP ρ α) := by
  have hr : relabelP ρ α ([], n) = ([], relabel ρ α n) := rfl
  rw [selectRows, selectRows, below_relabel.1, ← hr, ← List.map_cons]
  apply filter_relabelP
  intro y
  have e1 : (hd.map (relabelP ρ α)).map (·.1) = hd.map (·.1) := by cases hd <;> rfl
  have e2 : ((relabelP ρ α y).2.name = b!"tr") = (y.2.name = b!"tr") := by
    show ((relabel ρ α y.2).name = b!"tr") = _
    rw [relabel_name h, h.e_tr]
  have e3 : (relabelP ρ α y).1 = y.1 := rfl
  simp only [e1, e2, e3]

theorem cellsOf_relabel (x : Path × Node) : cellsOf (relabelP ρ α x) = (cellsOf x).map (relabelP ρ α) := by
  rw [cellsOf, cellsOf, show (relabelP ρ α x).1 = x.1 from rfl, show (relabelP ρ α x).2 = relabel ρ α x.2 from rfl, below_relabel.1]
  apply filter_relabelP
  intro y
  have e2 : ∀ x, (relabelP ρ α y).2.name = x ↔ ρ y.2.name = x := by
    intro x
    show (relabel ρ α y.2).name = x ↔ _
    rw [relabel_name h]
  simp only [e2, h.e_th, h.e_td]

omit h in
theorem cellsOf_name {x c : Path × Node} (hc : c ∈ cellsOf x) : c.2.name = b!"th" ∨ c.2.name = b!"td" := by
  rw [cellsOf, List.mem_filter] at hc
  simpa using hc.2

theorem collectAlignments_relabel (hd : Option (Path × Node)) (rows : List (Path × Node)) :
    collectAlignments (hd.map (relabelP ρ α)) (rows.map (relabelP ρ α)) = collectAlignments hd rows := by
  have e : (hd.map (relabelP ρ α)).or (rows.map (relabelP ρ α)).head? = (hd.or rows.head?).map (relabelP ρ α) := by
    cases hd <;> simp
  rw [collectAlignments, collectAlignments, e]
  cases hd.or rows.head? with
  | none => rfl
  | some x =>
    simp only [Option.map_some]
    rw [cellsOf_relabel h, List.map_map]
    apply List.map_congr_left
    intro c hc
    refine attrOr_relabel h c.2 ?_ _
    rcases cellsOf_name hc with e | e <;> rw [e] <;> decide

theorem hasProblematicChild_relabel (n : Node) : hasProblematicChild (relabel ρ α n) = hasProblematicChild n := by
  rw [hasProblematicChild, hasProblematicChild, below_relabel.1, List.any_map]
  congr 1
  funext y
  have e : (relabelP ρ α y).2.name = ρ y.2.name := relabel_name h y.2
  simp only [Function.comp, e, isHeading_relabel h, List.mem_cons, List.not_mem_nil, or_false, h.e_table, h.e_hr, h.e_ul, h.e_ol, h.e_blockquote]

theorem isProblematicParent_relabel (n : Bytes) : isProblematicParent (ρ n) = isProblematicParent n := by
  have e : ∀ m, isProblematicParent m = (decide (m = b!"a") || isBold m || isItalic m || isStrike m) := by
    intro m
    rw [Bool.eq_iff_iff]
    simp only [isProblematicParent, isBold, isItalic, isStrike, List.mem_cons, List.not_mem_nil, or_false, decide_eq_true_eq, Bool.or_eq_true]
    grind
  rw [e, e, h.bold, h.italic, h.strike]
  simp only [h.e_a]

theorem rawCells_relabel (at_ : Path → Option Bytes) {cells : List (Path × Node)} (hc : ∀ c ∈ cells, c.2.name = b!"th" ∨ c.2.name = b!"td") :
    rawCells at_ (cells.map (relabelP ρ α)) = rawCells at_ cells := by
  induction cells with
  | nil => rfl
  | cons c cells ih =>
    have ih := ih fun x hx => hc x (List.mem_cons_of_mem _ hx)
    rw [rawCells, rawCells] at ih
    rw [rawCells, rawCells, List.map_cons, List.mapM_cons, List.mapM_cons, ih]
    congr 1
    have hn := hc c List.mem_cons_self
    have e1 := attr?_relabel h (key := b!"rowspan") c.2 (by rcases hn with e | e <;> rw [e] <;> decide)
    have e2 := attr?_relabel h (key := b!"colspan") c.2 (by rcases hn with e | e <;> rw [e] <;> decide)
    show (at_ c.1).map (fun out => (⟨out, (relabel ρ α c.2).attr? b!"rowspan", (relabel ρ α c.2).attr? b!"colspan"⟩ : Table.RawCell)) = _
    rw [e1, e2]

theorem rowCells_relabel (at_ : Path → Option Bytes) (rows : List (Path × Node)) :
    (rows.map (relabelP ρ α)).mapM (fun r => rawCells at_ (cellsOf r)) = rows.mapM fun r => rawCells at_ (cellsOf r) := by
  induction rows with
  | nil => rfl
  | cons c rows ih => rw [List.map_cons, List.mapM_cons, List.mapM_cons, ih, cellsOf_relabel h, rawCells_relabel h _ fun _ hc => cellsOf_name hc]

theorem renderTable_relabel (cfg : Table.Config) (u : Bytes → Bytes) (stuck : Bool) (n : Node) (hn : n.name = b!"table") (at_ : Path → Option Bytes) :
    renderTable cfg u stuck (relabel ρ α n) at_ = renderTable cfg u stuck n at_ := by
  have hc : cannotBeTable cfg stuck (relabel ρ α n) = cannotBeTable cfg stuck n := by
    rw [cannotBeTable, cannotBeTable, attrOr_relabel h n (by rw [hn]; decide), hasProblematicChild_relabel h]
  have hcap := findFirst_relabel h (name := b!"caption") (by decide) ([], n)
  rw [show relabelP ρ α ([], n) = ([], relabel ρ α n) from rfl] at hcap
  rw [renderTable, renderTable, hc]
  split
  · rfl
  · dsimp only
    rw [selectHeader_relabel h, selectRows_relabel h, rowCells_relabel h, collectAlignments_relabel h, hcap]
    have e1 : ((selectHeader n).map (relabelP ρ α)).mapM (fun x => rawCells at_ (cellsOf x)) = (selectHeader n).mapM (fun x => rawCells at_ (cellsOf x)) := by
      cases selectHeader n with
      | none => rfl
      | some x => simp only [Option.map_some, Option.mapM_some, cellsOf_relabel h, rawCells_relabel h _ fun _ hc => cellsOf_name hc]
    have e2 : ((findFirst b!"caption" ([], n)).map (relabelP ρ α)).mapM (fun c => at_ c.1) = (findFirst b!"caption" ([], n)).mapM (fun c => at_ c.1) := by
      cases findFirst b!"caption" ([], n) <;> rfl
    rw [e1, e2]

/-! ## Rendering -/

theorem fallback_relabel (n c : Bytes) : fallback (withTables E T') (ρ n) c = fallback E n c := by
  rw [fallback, fallback, isBlock_relabel h]

theorem fallback_fixed {n : Bytes} (hn : n ∈ fixedNames) (c : Bytes) : fallback (withTables E T') n c = fallback E n c := by
  rw [← fallback_relabel h, h.fixed hn]

omit h in
theorem handlers_withTables : handlers (withTables E T') = handlers E := rfl

theorem headingLevel_relabel (n : Bytes) : headingLevel (ρ n) = headingLevel n := by
  rw [headingLevel, headingLevel]
  simp only [h.e_h1, h.e_h2, h.e_h3, h.e_h4, h.e_h5]

theorem delimiterOf_relabel (n : Bytes) : delimiterOf (withTables E T') (ρ n) = delimiterOf E n := by
  rw [delimiterOf, delimiterOf, h.bold, h.italic]
  rfl

theorem renderComment_relabel (d : Bytes) : renderComment (withTables E T') d = renderComment E d := by
  rw [renderComment, renderComment, fallback_fixed h (by decide)]

theorem renderImage_relabel (n : Node) (hn : n.name = b!"img") : renderImage (withTables E T') (relabel ρ α n) = renderImage E n := by
  funext c
  rw [renderImage, renderImage, attrOr_relabel h n (by rw [hn]; decide), attrOr_relabel h n (by rw [hn]; decide), attrOr_relabel h n (by rw [hn]; decide), fallback_fixed h (by decide)]
  rfl

theorem renderLink_relabel (n : Node) (hn : n.name = b!"a") (i : Bytes) : renderLink (withTables E T') (relabel ρ α n) i = renderLink E n i := by
  funext c
  rw [renderLink, renderLink, attrOr_relabel h n (by rw [hn]; decide), attrOr_relabel h n (by rw [hn]; decide), fallback_fixed h (by decide)]
  rfl

theorem renderNode_relabel :
    (∀ n, (∀ link stuck, renderNode (withTables E T') link stuck (relabel ρ α n) = renderNode E link stuck n) ∧
      (∀ link stuck p, renderBelow (withTables E T') link stuck p (relabel ρ α n) = renderBelow E link stuck p n)) ∧
    (∀ ns, (∀ link stuck, renderL (withTables E T') link stuck (relabelL ρ α ns) = renderL E link stuck ns) ∧
      (∀ link stuck, renderEach (withTables E T') link stuck (relabelL ρ α ns) = renderEach E link stuck ns) ∧
      (∀ link stuck p, renderAt (withTables E T') link stuck p (relabelL ρ α ns) = renderAt E link stuck p ns)) := by
  refine Dom.induct ?_ ?_ ?_ ?_ ?_ ?_ ?_
  · intro d
    exact ⟨fun _ _ => by simp only [relabel, renderNode]; rfl, fun _ _ _ => by simp only [relabel, renderBelow]⟩
  · intro d
    exact ⟨fun _ _ => by simp only [relabel, renderNode, renderComment_relabel h], fun _ _ _ => by simp only [relabel, renderBelow]⟩
  · intro d
    exact ⟨fun _ _ => by simp only [relabel, renderNode, fallback_fixed h (n := b!"#doctype") (by decide)], fun _ _ _ => by simp only [relabel, renderBelow]⟩
  · intro cs ih
    refine ⟨fun link stuck => ?_, fun link stuck p => ?_⟩
    · have : fallback (withTables E T') b!"#document" = fallback E b!"#document" := by funext c; exact fallback_fixed h (by decide) c
      simp only [relabel, renderNode, ih.1, this]
    · simp only [relabel, renderBelow, ih.2.2]
  · intro n a cs ih
    refine ⟨fun link stuck => ?_, fun link stuck p => ?_⟩
    · have hfb : fallback (withTables E T') (ρ n) = fallback E n := by funext c; exact fallback_relabel h n c
      have hci := (codeInfo_relabel h).1 (.elem n a cs) []
      have hct := (codeText_relabel h).1 (.elem n a cs)
      rw [relabel] at hci hct
      have e1 : (withTables E T').cfg = E.cfg := rfl
      have e2 : (withTables E T').mode = E.mode := rfl
      have e3 : (withTables E T').strike = E.strike := rfl
      have e4 : (withTables E T').table = E.table := rfl
      rw [relabel, renderNode, renderNode]
      simp only [isProblematicParent_relabel h, ih.1, ih.2.1, ih.2.2, hfb, hci, hct, e1, e2, e3, e4, handlers_withTables,
        boldItalic_relabel h, h.e_hr, h.e_br, h.e_ul, h.e_ol, h.e_pre, h.inlineCode, h.e_blockquote, isHeading_relabel h, headingLevel_relabel h, h.e_img, h.e_a,
        h.strike, h.e_table, h.e_tr, delimiterOf_relabel h, ne_eq]
      by_cases hul : n = b!"ul" ∨ n = b!"ol"
      · have : list (unEscapeContent E.mode (handlers E)) (!decide (n = b!"ul")) E.cfg.bulletListMarker
            (startAt (Node.attr? b!"start" (.elem (ρ n) (α n a) (relabelL ρ α cs)))) =
            list (unEscapeContent E.mode (handlers E)) (!decide (n = b!"ul")) E.cfg.bulletListMarker (startAt (Node.attr? b!"start" (.elem n a cs))) := by
          rcases hul with e | e
          · subst e
            funext x
            rfl
          · subst e
            have hst := attr?_relabel h (key := b!"start") (.elem b!"ol" a cs) (show b!"start" ∈ watched b!"ol" by decide)
            rw [relabel] at hst
            rw [hst]
        have h1 : ¬n = b!"img" := by rcases hul with e | e <;> rw [e] <;> decide
        have h2 : ¬n = b!"a" := by rcases hul with e | e <;> rw [e] <;> decide
        have h3 : ¬n = b!"table" := by rcases hul with e | e <;> rw [e] <;> decide
        simp only [decide_not, this, h1, h2, h3, if_false]
      by_cases himg : n = b!"img"
      · have := renderImage_relabel (E := E) h (.elem n a cs) himg
        rw [relabel] at this
        have h2 : ¬n = b!"a" := by rw [himg]; decide
        have h3 : ¬n = b!"table" := by rw [himg]; decide
        simp only [this, hul, h2, h3, if_false]
      by_cases ha : n = b!"a"
      · have := renderLink_relabel (E := E) h (.elem n a cs) ha
        simp only [relabel] at this
        have h3 : ¬n = b!"table" := by rw [ha]; decide
        simp only [this, hul, himg, h3, if_false]
      by_cases ht : n = b!"table"
      · have := fun cfg u at_ => renderTable_relabel h cfg u stuck (.elem n a cs) ht at_
        simp only [relabel] at this
        simp only [this, hul, himg, ha, if_false]
      simp only [hul, himg, ha, ht, if_false]
    · simp only [relabel, renderBelow, isProblematicParent_relabel h, ih.2.2]
  · refine ⟨fun _ _ => ?_, fun _ _ => ?_, fun _ _ p => ?_⟩
    · simp only [relabelL, renderL]
    · simp only [relabelL, renderEach]
    · simp only [relabelL, renderAt]
  · intro n ns hn hns
    refine ⟨fun _ _ => ?_, fun _ _ => ?_, fun link stuck p => ?_⟩
    · simp only [relabelL, renderL, hn.1, hns.1]
    · simp only [relabelL, renderEach, hn.1, hns.2.1]
    · match p with
      | [] => simp only [relabelL, renderAt]
      | [0] => simp only [relabelL, renderAt, hn.1]
      | 0 :: i :: p => simp only [relabelL, renderAt, hn.2]
      | (i + 1) :: p => simp only [relabelL, renderAt, hns.2.2]

/-- The conversion of the tree with other names. -/
theorem convertNode_relabel (hu : ∀ m n, α m = α n) (n : Node) : convertNode (withTables E T') (relabel ρ α n) = convertNode E n := by
  rw [convertNode, convertNode, preRender_steps, preRender_steps, preRenderRemove_relabel h, show (withTables E T').tables = T' from rfl, beforeLeaf_relabel h,
    leafAlternatives_relabel h hu, (moveListItems_relabel h).1, afterHandle_relabel h, (renderNode_relabel h).1 _ |>.1]
  rfl

omit h in
/-- The conversion of the tree with other attributes. -/
theorem convertNode_drop (hr : Relabelling E.tables E.tables id α) (hd : Dropping α) (n : Node) : convertNode E (relabel id α n) = convertNode E n := by
  have hf : ∀ x, renderNode E false false (afterHandle E (moveListItems (relabel id α x))) = renderNode E false false (afterHandle E (moveListItems x)) := by
    intro x
    have h1 := afterHandle_relabel hr (moveListItems x)
    have h2 := ((renderNode_relabel hr).1 (afterHandle E (moveListItems x))).1 false false
    rw [show withTables E E.tables = E from rfl] at h1 h2
    rw [(moveListItems_relabel hr).1, h1, h2]
  rw [convertNode, convertNode, preRender_steps, preRender_steps, preRenderRemove_relabel hr, beforeLeaf_relabel hr, ← hf, leafAlternatives_drop hd, hf]

end Verif.Alike
