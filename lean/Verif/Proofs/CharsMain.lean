import Verif.Proofs.CharsTable
import Verif.Proofs.TableNodes
import Verif.Model.Config
/-!
# Rendering shows all visible characters of the tree
-/
set_option linter.unusedSimpArgs false

namespace Verif.Chars
open Verif Verif.Spec Verif.Dom Verif.DomUtils Verif.TextUtils Verif.Escape Verif.Commonmark Verif.Render

/-- What the induction needs of the configuration. -/
structure EnvOk (E : Env) : Prop where
  em : Utf8 E.cfg.emDelimiter ∧ visibleChars E.cfg.emDelimiter ≠ [] ∧ 35 ∉ E.cfg.emDelimiter
  strong : Utf8 E.cfg.strongDelimiter ∧ visibleChars E.cfg.strongDelimiter ≠ [] ∧ 35 ∉ E.cfg.strongDelimiter
  rule : Utf8 E.cfg.horizontalRule
  bullet : Utf8 E.cfg.bulletListMarker
  fence : E.cfg.codeBlockFence.headD 0 < 128 ∧ vis [E.cfg.codeBlockFence.headD 0] = true ∧ E.cfg.codeBlockFence.headD 0 ≠ 35
  assemble : ∀ u, Utf8 u → Utf8 (E.assemble u)
  strike : ∀ d, E.strike = some d → Utf8 d ∧ visibleChars d ≠ [] ∧ 35 ∉ d

variable {E : Env} {h : Bool}

theorem attr_utf8 {a : List (Bytes × Bytes)} (ha : ∀ p ∈ a, Utf8 p.2) (key : Bytes) (n : Bytes) (cs : List Node) :
    Utf8 (Node.attrOr key [] (.elem n a cs)) := by
  rw [Node.attrOr, Node.attr?]
  cases e : a.find? fun x => x.1 == key with
  | none => exact utf8_nil
  | some p => exact ha p (List.mem_of_find?_eq_some e)

theorem removed_names {n : Bytes} (hn : isRemoved n = false) : ¬ (n = b!"style" ∨ n = b!"script" ∨ n = b!"textarea") := by
  rintro (rfl | rfl | rfl) <;> exact absurd hn (by decide)

theorem code_has : (∀ n, ∀ t, ok (kinds h true) t n → Has (codeText n) (shown (txts n)) ∧ ∀ info, Utf8 info → Utf8 (codeInfo info n)) ∧
    (∀ ns, okL (kinds h true) ns → Has (codeTextL ns) (shown (txtsL ns)) ∧ ∀ info, Utf8 info → Utf8 (codeInfoL info ns)) := by
  apply induct
  · intro d t hd
    refine ⟨?_, fun info hi => hi⟩
    rw [codeText, txts, shown_cons, shown_nil, List.append_nil]
    exact ⟨hd.1, shows_refl _⟩
  · intro d t _; exact ⟨has_nil utf8_nil, fun info hi => hi⟩
  · intro d t _; exact ⟨has_nil utf8_nil, fun info hi => hi⟩
  · intro cs ih t hn
    exact ⟨(ih hn.2).1, (ih hn.2).2⟩
  · intro n a cs ih t hn
    have hr := removed_names (hn.1 rfl)
    refine ⟨?_, ?_⟩
    · rw [codeText, if_neg hr, txts]
      split
      · exact (ih hn.2.2.2).1.keeps ((Keeps.refl (ih hn.2.2.2).1.1).after [NL] (utf8_byte (by decide)))
      · exact (ih hn.2.2.2).1
    · intro info hi
      rw [codeInfo, if_neg hr]
      refine (ih hn.2.2.2).2 _ ?_
      split
      · exact utf8_codeLanguage (attr_utf8 hn.2.1 _ _ _)
      · exact hi
  · intro _; exact ⟨has_nil utf8_nil, fun info hi => hi⟩
  · intro n ns ih1 ih2 hn
    refine ⟨?_, ?_⟩
    · rw [codeTextL, txtsL, shown_append]
      exact (ih1 false hn.1).1.append (ih2 hn.2).1
    · intro info hi
      rw [codeInfoL]
      exact (ih2 hn.2).2 _ ((ih1 false hn.1).2 info hi)

/-! ## Ways to show characters -/

/-- What the proof needs of a relation "the output shows these characters". -/
structure Rel (R : List Bytes → List Bytes → Prop) : Prop where
  of_shows : ∀ {o c}, Shows o c → R o c
  mono : ∀ {o o' c}, R o c → o.Sublist o' → R o' c
  append : ∀ {o1 o2 c1 c2}, R o1 c1 → R o2 c2 → R (o1 ++ o2) (c1 ++ c2)

theorem rel_true : Rel fun _ _ => True := ⟨fun _ => trivial, fun _ _ => trivial, fun _ _ => trivial⟩
theorem rel_shows : Rel Shows := ⟨id, Shows.mono, Shows.append⟩
theorem rel_somehow : Rel ShowsSomehow where
  of_shows h := ⟨_, List.Perm.refl _, h⟩
  mono := fun ⟨ds, h1, h2⟩ hs => ⟨ds, h1, Shows.mono h2 hs⟩
  append := fun ⟨ds, h1, h2⟩ ⟨ds', h1', h2'⟩ => ⟨ds ++ ds', h1.append h1', Shows.append h2 h2'⟩

variable {R : List Bytes → List Bytes → Prop}

/-- The bytes are UTF-8 and show the characters. -/
def HasR (R : List Bytes → List Bytes → Prop) (x : Bytes) (cs : List Bytes) : Prop := Utf8 x ∧ R (visibleChars x) cs

theorem Has.rel (hR : Rel R) {x : Bytes} {cs : List Bytes} (h : Has x cs) : HasR R x cs := ⟨h.1, hR.of_shows h.2⟩

theorem HasR.keeps (hR : Rel R) {x y : Bytes} {cs : List Bytes} (h : HasR R x cs) (k : Keeps x y) : HasR R y cs := ⟨k.1, hR.mono h.2 k.2⟩

theorem HasR.append (hR : Rel R) {x y : Bytes} {cs ds : List Bytes} (h1 : HasR R x cs) (h2 : HasR R y ds) : HasR R (x ++ y) (cs ++ ds) :=
  ⟨utf8_append h1.1 h2.1, by rw [vis_append h2.1]; exact hR.append h1.2 h2.2⟩

theorem HasR.wrap (hR : Rel R) {x : Bytes} {cs : List Bytes} (h : HasR R x cs) {a b : Bytes} (ha : Utf8 a) (hb : Utf8 b) : HasR R (a ++ x ++ b) cs :=
  h.keeps hR (((Keeps.refl h.1).after a ha).before b hb)

theorem hasR_nil (hR : Rel R) {x : Bytes} (h : Utf8 x) : HasR R x [] := (has_nil h).rel hR

theorem fallback_ok (hR : Rel R) (n : Bytes) {x : Bytes} {cs : List Bytes} (hx : HasR R x cs) :
    HasR R (fallback E n x) cs ∧ (EndsOk x → EndsOk (fallback E n x)) := by
  rw [fallback]
  split
  · have hnn : Utf8 b!"\n\n" := utf8_of_ascii (by decide)
    refine ⟨hx.wrap hR hnn hnn, fun he => ?_⟩
    exact ((ends_blank (by decide)).append he hnn hx.1).append (ends_blank (by decide)) (utf8_append hnn hx.1) hnn
  · exact ⟨hx, id⟩

theorem comment_ok (d : Bytes) : Utf8 (renderComment E d) ∧ EndsOk (renderComment E d) := by
  rw [renderComment]
  split
  · refine ⟨utf8_of_ascii (by decide), ends_none (by decide)⟩
  · have := fallback_ok (E := E) rel_true b!"#comment" (hasR_nil rel_true utf8_nil)
    exact ⟨this.1.1, this.2 (ends_blank rfl)⟩

theorem ends_blockCode {c : UInt8} (hc : c < 128 ∧ vis [c] = true ∧ c ≠ 35) {info s : Bytes} (hi : Utf8 info) (hs : Utf8 s) :
    EndsOk (blockCode c info s) := by
  rw [blockCode]
  have k1 := keeps_dropNewline hs
  generalize dropTrailingNewline s = t at k1 ⊢
  have k2 := k1.trans (keeps_replace_one (a := NL) (new := codeNewline) (by decide) (by decide) utf8_codeNewline.1 k1.1)
  have h10 : Utf8 [NL] := utf8_byte (by decide)
  have hnn : Utf8 b!"\n\n" := utf8_of_ascii (by decide)
  have hf : Utf8 (calculateCodeFence c t) := by rw [calculateCodeFence]; exact utf8_rep hc.1 _
  have hf2 : EndsOk (calculateCodeFence c t) := by
    refine ends_none ?_
    rw [calculateCodeFence]
    intro h
    exact hc.2.2 (List.eq_of_mem_replicate h).symm
  have hf3 : visibleChars (calculateCodeFence c t) ≠ [] := by
    have : ∃ k, calculateCodeFence c t = c :: List.replicate k c := by
      rw [calculateCodeFence]
      split
      · exact ⟨2, rfl⟩
      · exact ⟨_, rfl⟩
    obtain ⟨k, e⟩ := this
    rw [e, vis_ascii hc.1 (utf8_rep hc.1 k), if_pos hc.2.1]
    simp
  have u := utf8_append (utf8_append (utf8_append (utf8_append (utf8_append hnn hf) hi) h10) k2.1) h10
  refine EndsOk.append ?_ (ends_blank (by decide)) (utf8_append u hf) hnn
  exact ends_after u hf hf3 (by rw [calculateCodeFence]; intro h; exact hc.2.2 (List.eq_of_mem_replicate h).symm)

/-! ## Where blocks are -/

/-- Rendering succeeds and shows everything; inside of a heading or inline element the result can be followed by the end of a heading. -/
def Good (R : List Bytes → List Bytes → Prop) (inside : Bool) (r : Option Bytes) (cs : List Bytes) : Prop :=
  ∃ out, r = some out ∧ HasR R out cs ∧ (inside = true → EndsOk out)

def isBad (n : Bytes) : Bool := n = b!"hr" || n = b!"ul" || n = b!"ol" || n = b!"blockquote" || isHeading n

theorem bad_block (n : Bytes) (hb : isBlockName n = false) : isBad n = false := by
  cases e : isBad n with
  | false => rfl
  | true =>
    exfalso
    simp only [isBad, isHeading, Bool.or_eq_true, decide_eq_true_eq] at e
    rcases e with (((rfl | rfl) | rfl) | rfl) | rfl | rfl | rfl | rfl | rfl | rfl <;> exact absurd hb (by decide)

theorem narrow_heading (n : Bytes) (hn : isHeading n = true) : isNarrow n = true := by
  simp only [isHeading, decide_eq_true_eq] at hn
  rcases hn with rfl | rfl | rfl | rfl | rfl | rfl <;> decide

theorem heading_not_strike (n : Bytes) (hn : isHeading n = true) : isStrike n = false := by
  simp only [isHeading, decide_eq_true_eq] at hn
  rcases hn with rfl | rfl | rfl | rfl | rfl | rfl <;> decide

/-- What rendering needs: the elements that could break a heading are not inside of one. -/
def Fit (E : Env) (inside : Bool) (n : Node) : Prop := Free isBad isNarrow (struck E) inside n
def FitL (E : Env) (inside : Bool) (ns : List Node) : Prop := FreeL isBad isNarrow (struck E) inside ns

theorem placed_fit : (∀ n, ∀ f, Placed E f n → Fit E f n) ∧ (∀ ns, ∀ f, FreeL isBlockName isNarrow (struck E) f ns → FitL E f ns) := by
  apply induct
  · intro d f _; trivial
  · intro d f _; trivial
  · intro d f _; trivial
  · intro cs ih f h; exact ih f h
  · intro n a cs ih f h; exact ⟨fun hf => bad_block n (h.1 hf), ih _ h.2⟩
  · intro f _; trivial
  · intro n ns ih1 ih2 f h; exact ⟨ih1 f h.1, ih2 f h.2⟩

theorem fit_harmless : (∀ n, (∀ x ∈ nodes n, isBad x.name = false) → ∀ f, Fit E f n) ∧ (∀ ns, (∀ x ∈ nodesL ns, isBad x.name = false) → ∀ f, FitL E f ns) := by
  apply induct
  · intro d _ f; trivial
  · intro d _ f; trivial
  · intro d _ f; trivial
  · intro cs ih h f; exact ih (fun x hx => h x (by simp [nodes, hx])) f
  · intro n a cs ih h f
    exact ⟨fun _ => h (.elem n a cs) (by simp [nodes]), ih (fun x hx => h x (by simp [nodes, hx])) _⟩
  · intro _ f; trivial
  · intro n ns ih1 ih2 h f
    exact ⟨ih1 (fun x hx => h x (by simp [nodesL, hx])) f, ih2 (fun x hx => h x (by simp [nodesL, hx])) f⟩

theorem ok_nodes {K : Kinds} : (∀ n t, ok K t n → ∀ x ∈ nodes n, ∃ t', ok K t' x) ∧ (∀ ns, okL K ns → ∀ x ∈ nodesL ns, ∃ t', ok K t' x) := by
  apply induct
  · intro d t h x hx; rw [nodes, List.mem_singleton] at hx; subst hx; exact ⟨t, h⟩
  · intro d t h x hx; rw [nodes, List.mem_singleton] at hx; subst hx; exact ⟨t, h⟩
  · intro d t h x hx; rw [nodes, List.mem_singleton] at hx; subst hx; exact ⟨t, h⟩
  · intro cs ih t h x hx
    rcases List.mem_cons.1 hx with rfl | hx
    · exact ⟨t, h⟩
    · exact ih h.2 x hx
  · intro n a cs ih t h x hx
    rcases List.mem_cons.1 hx with rfl | hx
    · exact ⟨t, h⟩
    · exact ih h.2.2.2 x hx
  · intro _ x hx; simp [nodesL] at hx
  · intro n ns ih1 ih2 h x hx
    rcases List.mem_append.1 hx with hx | hx
    · exact ih1 false h.1 x hx
    · exact ih2 h.2 x hx

theorem nodes_trans : (∀ n, ∀ y ∈ nodes n, ∀ x ∈ nodes y, x ∈ nodes n) ∧ (∀ ns, ∀ y ∈ nodesL ns, ∀ x ∈ nodes y, x ∈ nodesL ns) := by
  apply induct
  · intro d y hy x hx; rw [nodes, List.mem_singleton] at hy; subst hy; exact hx
  · intro d y hy x hx; rw [nodes, List.mem_singleton] at hy; subst hy; exact hx
  · intro d y hy x hx; rw [nodes, List.mem_singleton] at hy; subst hy; exact hx
  · intro cs ih y hy x hx
    rcases List.mem_cons.1 hy with rfl | hy
    · exact hx
    · exact List.mem_cons_of_mem _ (ih y hy x hx)
  · intro n a cs ih y hy x hx
    rcases List.mem_cons.1 hy with rfl | hy
    · exact hx
    · exact List.mem_cons_of_mem _ (ih y hy x hx)
  · intro y hy; simp [nodesL] at hy
  · intro n ns ih1 ih2 y hy x hx
    rcases List.mem_append.1 hy with hy | hy
    · exact List.mem_append_left _ (ih1 y hy x hx)
    · exact List.mem_append_right _ (ih2 y hy x hx)

/-! ## Tables -/

/-- The characters that a table shows, if `ren` are the contents of its nodes. -/
def tableVis (t : Node) (ren : Path → Bytes) : List Bytes :=
  (((selectHeader t).toList ++ selectRows t (selectHeader t)).flatMap fun r => (cellsOf r).flatMap fun c => visibleChars (ren c.1)) ++
  (findFirst b!"caption" ([], t)).elim [] fun c => visibleChars (ren c.1)

/-- If the contents of the nodes are shown, the table is. -/
def TableOk (R : List Bytes → List Bytes → Prop) (t : Node) : Prop :=
  hasProblematicChild t = false → ∀ ren : Path → Bytes, (∀ z ∈ below [] t, R (visibleChars (ren z.1)) (shown (txts z.2))) →
    R (tableVis t ren) (shown (txts t))

theorem mapM_some {α β : Type} {f : α → Option β} {g : α → β} : ∀ {l : List α}, (∀ x ∈ l, f x = some (g x)) → l.mapM f = some (l.map g)
  | [], _ => rfl
  | x :: l, h => by
    rw [List.mapM_cons, h x (by simp), mapM_some fun y hy => h y (by simp [hy])]
    rfl

theorem cells_below {t : Node} {z : Path × Node} (hz : z = ([], t) ∨ z ∈ below [] t) {c : Path × Node} (hc : c ∈ cellsOf z) : c ∈ below [] t := by
  have hc := (List.mem_filter.1 hc).1
  rcases hz with rfl | hz
  · exact hc
  · obtain ⟨A, B, e⟩ := List.append_of_mem hz
    obtain ⟨D, hD⟩ := TableNodes.below_after.1 t [] A z B e
    rw [e, hD]
    simp [hc]

theorem header_below {t : Node} {h : Path × Node} (e : selectHeader t = some h) : h = ([], t) ∨ h ∈ below [] t := by
  rw [selectHeader] at e
  split at e
  · rename_i tr e1
    simp only [Option.some.injEq] at e
    subst e
    rw [Option.bind_eq_some_iff] at e1
    obtain ⟨thead, f1, f2⟩ := e1
    have m1 := List.mem_of_find?_eq_some f1
    have m2 := List.mem_of_find?_eq_some f2
    obtain ⟨A, B, e⟩ := List.append_of_mem m1
    obtain ⟨D, hD⟩ := TableNodes.below_after.1 t [] A thead B e
    right
    simp only at e
    rw [e, hD]
    simp [m2]
  · rw [Option.bind_eq_some_iff] at e
    obtain ⟨th, -, f2⟩ := e
    exact List.mem_cons.1 (List.mem_of_find?_eq_some f2)

theorem row_below {t : Node} {h : Option (Path × Node)} {r : Path × Node} (e : r ∈ selectRows t h) : r = ([], t) ∨ r ∈ below [] t :=
  List.mem_cons.1 (List.mem_filter.1 e).1

/-- A table that is rendered as a table. -/
theorem renderTable_ok (hR : Rel R) {un : Bytes → Bytes} (hun : ∀ s, Utf8 s → Keeps s (un s)) (cfg : Table.Config) (stuck : Bool) {t : Node}
    (ht : TableOk R t) (at_ : Path → Option Bytes) (hat : hasProblematicChild t = false → ∀ z ∈ below [] t, Good R true (at_ z.1) (shown (txts z.2))) :
    ∃ r, renderTable cfg un stuck t at_ = some r ∧ ∀ out ∈ r, HasR R out (shown (txts t)) ∧ EndsOk out := by
  rw [renderTable]
  split
  · exact ⟨none, rfl, by simp⟩
  · rename_i hc
    have hp : hasProblematicChild t = false := by
      rw [cannotBeTable, Bool.or_eq_true, Bool.or_eq_true] at hc
      cases e : hasProblematicChild t with
      | false => rfl
      | true => exact absurd (Or.inl (Or.inr e)) hc
    have hat := hat hp
    let ren : Path → Bytes := fun q => (at_ q).getD []
    have hren : ∀ z ∈ below [] t, at_ z.1 = some (ren z.1) ∧ HasR R (ren z.1) (shown (txts z.2)) ∧ EndsOk (ren z.1) := by
      intro z hz
      obtain ⟨o, e, h1, h2⟩ := hat z hz
      have : ren z.1 = o := by show (at_ z.1).getD [] = o; rw [e]; rfl
      rw [this]
      exact ⟨e, h1, h2 rfl⟩
    have hcells : ∀ r, (r = ([], t) ∨ r ∈ below [] t) → rawCells at_ (cellsOf r) =
        some ((cellsOf r).map fun c => ⟨ren c.1, c.2.attr? b!"rowspan", c.2.attr? b!"colspan"⟩) := by
      intro r hr
      rw [rawCells]
      refine mapM_some ?_
      intro c hc
      rw [(hren c (cells_below hr hc)).1]
      rfl
    have hhead : ((selectHeader t).mapM fun h => rawCells at_ (cellsOf h)) =
        some ((selectHeader t).map fun h => (cellsOf h).map fun c => ⟨ren c.1, c.2.attr? b!"rowspan", c.2.attr? b!"colspan"⟩) := by
      cases e : selectHeader t with
      | none => rfl
      | some h =>
        rw [Option.mapM_some, hcells h (header_below e)]
        rfl
    have hrows : ((selectRows t (selectHeader t)).mapM fun r => rawCells at_ (cellsOf r)) =
        some ((selectRows t (selectHeader t)).map fun r => (cellsOf r).map fun c => ⟨ren c.1, c.2.attr? b!"rowspan", c.2.attr? b!"colspan"⟩) :=
      mapM_some fun r hr => hcells r (row_below hr)
    have hcap : ((findFirst b!"caption" ([], t)).mapM fun c => at_ c.1) = some ((findFirst b!"caption" ([], t)).map fun c => ren c.1) := by
      cases e : findFirst b!"caption" ([], t) with
      | none => rfl
      | some c =>
        rw [Option.mapM_some, (hren c (List.mem_of_find?_eq_some e)).1]
        rfl
    simp only [hhead, hrows, hcap, Option.bind_some, Option.map_some]
    refine ⟨_, rfl, ?_⟩
    intro out hout
    have hcellU : ∀ r, (r = ([], t) ∨ r ∈ below [] t) → ∀ c ∈ cellsOf r, Utf8 (ren c.1) := fun r hr c hc => (hren c (cells_below hr hc)).2.1.1
    have hraw : ∀ r ∈ headerCells ((selectHeader t).map fun h => (cellsOf h).map fun c => (⟨ren c.1, c.2.attr? b!"rowspan", c.2.attr? b!"colspan"⟩ : Table.RawCell)) ::
        (selectRows t (selectHeader t)).map (fun r => (cellsOf r).map fun c => (⟨ren c.1, c.2.attr? b!"rowspan", c.2.attr? b!"colspan"⟩ : Table.RawCell)),
        ∀ c ∈ r, Utf8 c.rendered := by
      intro r hr c hc
      rcases List.mem_cons.1 hr with rfl | hr
      · cases e : selectHeader t with
        | none => rw [e] at hc; simp [headerCells] at hc
        | some h =>
          rw [e] at hc
          simp only [headerCells, Option.map_some, Option.getD_some, List.mem_map] at hc
          obtain ⟨c', hc', rfl⟩ := hc
          exact hcellU h (header_below e) c' hc'
      · obtain ⟨r', hr', rfl⟩ := List.mem_map.1 hr
        obtain ⟨c', hc', rfl⟩ := List.mem_map.1 hc
        exact hcellU r' (row_below hr') c' hc'
    have hcp : ∀ c ∈ (findFirst b!"caption" ([], t)).map (fun c => ren c.1), Utf8 c ∧ EndsOk c := by
      intro c hc
      cases e : findFirst b!"caption" ([], t) with
      | none => rw [e] at hc; simp at hc
      | some z =>
        rw [e] at hc
        simp only [Option.map_some, Option.mem_def, Option.some.injEq] at hc
        subst hc
        have := (hren z (List.mem_of_find?_eq_some e)).2
        exact ⟨this.1.1, this.2⟩
    obtain ⟨o1, o2, o3⟩ := table_ok hun cfg _ _ _ _ hraw hcp hout
    · refine ⟨⟨o1, hR.mono (ht hp ren fun z hz => (hren z hz).2.1.2) ?_⟩, o3⟩
      refine List.Sublist.trans ?_ o2
      have e1 : rawVis (headerCells ((selectHeader t).map fun h => (cellsOf h).map fun c => ⟨ren c.1, c.2.attr? b!"rowspan", c.2.attr? b!"colspan"⟩) ::
          (selectRows t (selectHeader t)).map fun r => (cellsOf r).map fun c => ⟨ren c.1, c.2.attr? b!"rowspan", c.2.attr? b!"colspan"⟩) =
          (((selectHeader t).toList ++ selectRows t (selectHeader t)).flatMap fun r => (cellsOf r).flatMap fun c => visibleChars (ren c.1)) := by
        rw [rawVis, List.flatMap_cons, List.flatMap_append, List.flatMap_map]
        congr 1
        · cases selectHeader t with
          | none => rfl
          | some h => simp [headerCells, List.flatMap_map]
        · congr 1; funext r; rw [List.flatMap_map]
      rw [e1, tableVis]
      refine List.Sublist.append (List.Sublist.refl _) ?_
      cases findFirst b!"caption" ([], t) <;> exact List.Sublist.refl _

theorem rel_flatMap (hR : Rel R) (ren : Path → Bytes) : ∀ l : List (Path × Node), (∀ z ∈ l, R (visibleChars (ren z.1)) (shown (txts z.2))) →
    R (l.flatMap fun c => visibleChars (ren c.1)) ((l.map (·.2)).flatMap charsOf)
  | [], _ => hR.of_shows (shows_nil _)
  | z :: l, h => by
    rw [List.flatMap_cons, List.map_cons, List.flatMap_cons]
    refine hR.append ?_ (rel_flatMap hR ren l fun y hy => h y (by simp [hy]))
    rw [charsOf, texts_txts]
    exact h z (by simp)

theorem rel_rows (hR : Rel R) (ren : Path → Bytes) : ∀ l : List (Path × Node), (∀ r ∈ l, ∀ z ∈ cellsOf r, R (visibleChars (ren z.1)) (shown (txts z.2))) →
    R (l.flatMap fun r => (cellsOf r).flatMap fun c => visibleChars (ren c.1)) (cellChars (l.map (·.2)))
  | [], _ => hR.of_shows (shows_nil _)
  | r :: l, h => by
    rw [List.flatMap_cons, List.map_cons, cellChars, List.flatMap_cons]
    refine hR.append ?_ (rel_rows hR ren l fun y hy => h y (by simp [hy]))
    rw [← TableNodes.cellsOf_snd]
    exact rel_flatMap hR ren _ (h r (by simp))

theorem rel_table (hR : Rel R) (t : Node) (ren : Path → Bytes) (h : ∀ z ∈ below [] t, R (visibleChars (ren z.1)) (shown (txts z.2))) :
    R (tableVis t ren) (cellChars (((selectHeader t).toList ++ selectRows t (selectHeader t)).map (·.2)) ++ captionChars t) := by
  rw [tableVis]
  refine hR.append (rel_rows hR ren _ ?_) ?_
  · intro r hr z hz
    refine h z (cells_below ?_ hz)
    rcases List.mem_append.1 hr with hr | hr
    · exact header_below (Option.mem_toList.1 hr)
    · exact row_below hr
  · rw [captionChars, ← TableNodes.captionOf_snd]
    cases e : findFirst b!"caption" ([], t) with
    | none => exact hR.of_shows (shows_nil _)
    | some c =>
      have := h c (List.mem_of_find?_eq_some e)
      rw [← texts_txts] at this
      exact this

theorem tableOk_true (t : Node) : TableOk (fun _ _ => True) t := fun _ _ _ => trivial

theorem tableOk_topDown {t : Node} (ht : t.name = b!"table") (hr : hasProblematicChild t = false → TopDown t) : TableOk Shows t := by
  intro hp ren h
  have hr := hr hp
  have := rel_table rel_shows t ren h
  rw [TableNodes.rows_topDown hr (by rw [ht]; decide), TableNodes.rowsAt_snd] at this
  rw [← texts_txts]
  show Shows _ (charsOf t)
  rw [hr.content]
  exact Shows.less this (List.sublist_append_left _ _)

theorem tableOk_tidy {t : Node} (ht : t.name = b!"table") (hr : hasProblematicChild t = false → Tidy t) : TableOk ShowsSomehow t := by
  intro hp ren h
  have hr := hr hp
  obtain ⟨ds, h1, h2⟩ := rel_table rel_somehow t ren h
  have hperm := (TableNodes.rows_perm hr.headers (by rw [ht]; decide)).map (·.2)
  rw [TableNodes.rowsAt_snd] at hperm
  rw [← texts_txts]
  refine ⟨ds, (hr.content.trans ?_).trans h1, h2⟩
  exact List.Perm.append_right _ (hperm.symm.flatMap_right _)

/-! ## Rendering -/

/-- The claim for one node. -/
def Claim (R : List Bytes → List Bytes → Prop) (E : Env) (h : Bool) (n : Node) : Prop :=
  ∀ t inside link stuck, ok (kinds h true) t n → Fit E inside n → (∀ x ∈ nodes n, x.name = b!"table" → E.table.isSome = true → TableOk R x) →
    Good R inside (renderNode E link stuck n) (shown (txts n))

theorem claims (hR : Rel R) (inside link stuck : Bool) : ∀ ns : List Node, (∀ c ∈ ns, Claim R E h c) → okL (kinds h true) ns → FitL E inside ns →
    (∀ x ∈ nodesL ns, x.name = b!"table" → E.table.isSome = true → TableOk R x) →
    Good R inside (renderL E link stuck ns) (shown (txtsL ns)) ∧
    ∃ outs, renderEach E link stuck ns = some outs ∧ (∀ x ∈ outs, Utf8 x) ∧ R (outs.flatMap visibleChars) (shown (txtsL ns))
  | [], _, _, _, _ => ⟨⟨[], rfl, hasR_nil hR utf8_nil, fun _ => ends_blank rfl⟩, [], rfl, by simp, hR.of_shows (shows_nil _)⟩
  | n :: ns, hc, hn, hf, ht => by
    obtain ⟨x, e1, hx, he1⟩ := hc n (by simp) false inside link stuck hn.1 hf.1 (fun x hx => ht x (by rw [nodesL]; simp [hx]))
    obtain ⟨⟨y, e2, hy, he2⟩, outs, e3, hu, hs⟩ :=
      claims hR inside link stuck ns (fun c hm => hc c (by simp [hm])) hn.2 hf.2 (fun x hx => ht x (by rw [nodesL]; simp [hx]))
    rw [txtsL, shown_append]
    refine ⟨⟨x ++ y, by rw [renderL, e1, e2]; rfl, hx.append hR hy, fun hi => (he1 hi).append (he2 hi) hx.1 hy.1⟩, x :: outs, by rw [renderEach, e1, e3]; rfl, ?_, ?_⟩
    · intro z hz
      rcases List.mem_cons.1 hz with rfl | hz
      · exact hx.1
      · exact hu z hz
    · rw [List.flatMap_cons]
      exact hR.append hx.2 hs

theorem elem_claim (hE : EnvOk E) (hR : Rel R) {n : Bytes} {a : List (Bytes × Bytes)} {cs : List Node} (ih : ∀ x ∈ nodesL cs, Claim R E h x) :
    Claim R E h (.elem n a cs) := by
  intro t inside lk stuck hn ho htab
  have hN := hn.1 rfl
  have hA : ∀ p ∈ a, Utf8 p.2 := hn.2.1
  obtain ⟨hnb, ho⟩ := ho
  have hch : ∀ c ∈ cs, Claim R E h c := fun c hc => ih c (nodesL_mem hc (by rw [TableNodes.nodes_eq]; simp))
  have htab' : ∀ x ∈ nodesL cs, x.name = b!"table" → E.table.isSome = true → TableOk R x := fun x hx => htab x (by rw [nodes]; simp [hx])
  obtain ⟨hL, outs, e2, hu, hsh⟩ := claims hR (flagIn isNarrow (struck E) inside n) lk (stuck || isProblematicParent n) cs hch hn.2.2.2 ho htab'
  obtain ⟨out, e, hx, he⟩ := hL
  have hei : struck E n = false → inside = true → EndsOk out := fun hs hi => he (by rw [flagIn, hs, hi]; rfl)
  have hun : ∀ s, Utf8 s → Keeps s (unEscapeContent E.mode (handlers E) s) := fun s hs => keeps_unEscape _ _ hs
  have hfbOk : struck E n = false → Good R inside ((renderL E lk (stuck || isProblematicParent n) cs).map (fallback E n)) (shown (txtsL cs)) := by
    intro hs
    rw [e]
    have hfb := fallback_ok (E := E) hR n hx
    exact ⟨_, rfl, hfb.1, fun hi => hfb.2 (hei hs hi)⟩
  rw [renderNode, txts]
  by_cases h1 : isBoldOrItalic n = true
  · rw [if_pos h1, e]
    have hd : Utf8 (delimiterOf E n) ∧ visibleChars (delimiterOf E n) ≠ [] ∧ 35 ∉ delimiterOf E n := by
      rw [delimiterOf]
      split
      · exact hE.strong
      · rename_i hb
        rw [isBoldOrItalic, Bool.or_eq_true] at h1
        rw [if_pos (h1.resolve_left hb)]
        exact hE.em
    exact ⟨_, rfl, hx.keeps hR (keeps_delimited hd.1 hx.1), fun _ => ends_delimited hd.1 hd.2.1 hd.2.2 hx.1⟩
  rw [if_neg h1]
  by_cases h2 : n = b!"hr"
  · rw [if_pos h2]
    have hcs : cs = [] := hn.2.2.1 (by rw [h2]; show _ ∈ voidTags; decide)
    subst hcs
    have hnn : Utf8 b!"\n\n" := utf8_of_ascii (by decide)
    refine ⟨_, rfl, hasR_nil hR (utf8_append (utf8_append hnn hE.rule) hnn), fun hi => ?_⟩
    have := hnb hi
    rw [h2] at this
    exact absurd this (by decide)
  rw [if_neg h2]
  by_cases h3 : n = b!"br"
  · rw [if_pos h3]
    have hcs : cs = [] := hn.2.2.1 (by rw [h3]; show _ ∈ voidTags; decide)
    subst hcs
    exact ⟨_, rfl, hasR_nil hR (utf8_of_ascii (by decide)), fun _ => ends_none (by decide)⟩
  rw [if_neg h3]
  by_cases h4 : n = b!"ul" ∨ n = b!"ol"
  · rw [if_pos h4, e2]
    obtain ⟨l1, l2⟩ := list_keeps hun (n ≠ b!"ul") hE.bullet (startAt (Node.attr? b!"start" (.elem n a cs))) hu
    refine ⟨_, rfl, ⟨l1, hR.mono hsh l2⟩, fun hi => ?_⟩
    have := hnb hi
    rcases h4 with rfl | rfl <;> exact absurd this (by decide)
  rw [if_neg h4]
  have hcode := code_has.1 (.elem n a cs) t hn
  have hcode1 : HasR R (codeText (.elem n a cs)) (shown (txtsL cs)) := hcode.1.rel hR
  by_cases h5 : n = b!"pre"
  · rw [if_pos h5]
    exact ⟨_, rfl, hcode1.keeps hR (keeps_blockCode hE.fence.1 (hcode.2 [] utf8_nil) hcode.1.1), fun _ => ends_blockCode hE.fence (hcode.2 [] utf8_nil) hcode.1.1⟩
  rw [if_neg h5]
  by_cases h6 : DomUtils.isInlineCode n = true
  · rw [if_pos h6]
    exact ⟨_, rfl, hcode1.keeps hR (keeps_inlineCode hcode.1.1).1, fun _ => (keeps_inlineCode hcode.1.1).2⟩
  rw [if_neg h6]
  by_cases h7 : n = b!"blockquote"
  · rw [if_pos h7, e]
    refine ⟨_, rfl, hx.keeps hR (keeps_blockquote hx.1), fun hi => ?_⟩
    have := hnb hi
    rw [h7] at this
    exact absurd this (by decide)
  rw [if_neg h7]
  by_cases h8 : isHeading n = true
  · rw [if_pos h8, e]
    have hs : struck E n = false := by rw [struck, heading_not_strike n h8, Bool.and_false]
    obtain ⟨o2, e3, k⟩ := keeps_heading (E.cfg.headingStyle = b!"setext") (headingLevel n) hx.1
      (he (by rw [flagIn, hs, narrow_heading n h8]; simp))
    refine ⟨o2, e3, hx.keeps hR k, fun hi => ?_⟩
    have := hnb hi
    rw [isBad, h8, Bool.or_true] at this
    exact absurd this (by decide)
  rw [if_neg h8]
  by_cases h9 : n = b!"img"
  · rw [if_pos h9, e]
    have hs : struck E n = false := by rw [struck, h9]; simp [isStrike]
    have hcs : cs = [] := hn.2.2.1 (by rw [h9]; show _ ∈ voidTags; decide)
    have hfb := fallback_ok (E := E) hR b!"img" hx
    rw [Option.map_some]
    refine ⟨_, rfl, ?_⟩
    rw [renderImage]
    cases ei : image E.assemble (Node.attrOr b!"src" [] (.elem n a cs)) (Node.attrOr b!"title" [] (.elem n a cs)) (Node.attrOr b!"alt" [] (.elem n a cs)) with
    | none => exact ⟨hfb.1, fun hi => hfb.2 (hei hs hi)⟩
    | some img =>
      obtain ⟨i1, i2⟩ := image_ok hE.assemble (attr_utf8 hA _ _ _) (attr_utf8 hA _ _ _) (attr_utf8 hA _ _ _) ei
      subst hcs
      exact ⟨hasR_nil hR i1, fun _ => i2⟩
  rw [if_neg h9]
  by_cases h10 : n = b!"a"
  · rw [if_pos h10]
    have hs : struck E n = false := by rw [struck, h10]; simp [isStrike]
    obtain ⟨ins, e4, hxi, -⟩ := (claims hR (flagIn isNarrow (struck E) inside n) true (stuck || isProblematicParent n) cs hch hn.2.2.2 ho htab').1
    rw [e4, e]
    have hfb := fallback_ok (E := E) hR b!"a" hx
    refine ⟨_, rfl, ?_⟩
    rw [renderLink]
    split
    case isFalse => exact ⟨hfb.1, fun hi => hfb.2 (hei hs hi)⟩
    cases el : Commonmark.link (E.cfg.linkEmptyHrefBehavior = b!"skip") (E.cfg.linkEmptyContentBehavior = b!"skip")
        (E.assemble (trimSpace (Node.attrOr b!"href" [] (.elem n a cs)))) (Node.attrOr b!"title" [] (.elem n a cs)) ins with
    | none => exact ⟨hfb.1, fun hi => hfb.2 (hei hs hi)⟩
    | some l =>
      obtain ⟨i1, i2⟩ := link_ok (hE.assemble _ (utf8_trimSpace (attr_utf8 hA _ _ _)).1) (attr_utf8 hA _ _ _) hxi.1 el
      exact ⟨hxi.keeps hR i1, fun _ => i2⟩
  rw [if_neg h10]
  by_cases h11 : isStrike n = true
  · rw [if_pos h11]
    cases es : E.strike with
    | none => exact hfbOk (by rw [struck, es]; rfl)
    | some d =>
      have hd := hE.strike d es
      simp only
      rw [e]
      exact ⟨_, rfl, hx.keeps hR (keeps_delimited hd.1 hx.1), fun _ => ends_delimited hd.1 hd.2.1 hd.2.2 hx.1⟩
  rw [if_neg h11]
  have hs : struck E n = false := by rw [struck]; simp [h11]
  by_cases h12 : n = b!"table"
  · rw [if_pos h12]
    cases et : E.table with
    | none => exact hfbOk hs
    | some cfg =>
      simp only
      have hat : hasProblematicChild (.elem n a cs) = false → ∀ z ∈ below [] (.elem n a cs),
          Good R true (renderAt E lk (stuck || isProblematicParent n) z.1 cs) (shown (txts z.2)) := by
        intro hp z hz
        obtain ⟨st', e5⟩ := TableNodes.render_at (E := E) (link := lk) (cs := cs) hz (stuck || isProblematicParent n)
        rw [e5]
        have hzm : z.2 ∈ nodesL cs := by
          rw [← TableNodes.below_snd.2 cs [] 0]
          exact List.mem_map_of_mem hz
        obtain ⟨t', ht'⟩ := ok_nodes.2 cs hn.2.2.2 z.2 hzm
        refine ih z.2 hzm t' true lk st' ht' ?_ (fun x hx => htab' x (nodes_trans.2 cs z.2 hzm x hx))
        refine fit_harmless.1 z.2 ?_ true
        intro x hx
        have hxm := nodes_trans.2 cs z.2 hzm x hx
        rw [← TableNodes.below_snd.2 cs [] 0, List.mem_map] at hxm
        obtain ⟨y, hy, rfl⟩ := hxm
        have hpy : ¬ _ := (List.any_eq_false.1 hp) y hy
        rw [Bool.or_eq_true, not_or] at hpy
        have h1 : isHeading y.2.name = false := by simpa using hpy.1
        have h2 : ¬ (y.2.name ∈ [b!"table", b!"hr", b!"ul", b!"ol", b!"blockquote"]) := by simpa using hpy.2
        simp only [List.mem_cons, not_or] at h2
        rw [isBad, h1]
        simp [h2]
      obtain ⟨r, e6, hr⟩ := renderTable_ok hR hun cfg stuck (htab (.elem n a cs) (by rw [nodes]; simp) h12 (by rw [et]; rfl))
        (fun p => renderAt E lk (stuck || isProblematicParent n) p cs) hat
      rw [e6]
      cases r with
      | none => exact hfbOk hs
      | some o =>
        have := hr o rfl
        exact ⟨o, rfl, this.1, fun _ => this.2⟩
  rw [if_neg h12]
  by_cases h13 : n = b!"tr" ∧ E.table.isSome = true
  · rw [if_pos h13, e]
    have hnn : Utf8 b!"\n\n" := utf8_of_ascii (by decide)
    refine ⟨_, rfl, hx.wrap hR hnn hnn, fun hi => ?_⟩
    exact ((ends_blank (by decide)).append (hei hs hi) hnn hx.1).append (ends_blank (by decide)) (utf8_append hnn hx.1) hnn
  rw [if_neg h13]
  exact hfbOk hs

theorem render_claim (hE : EnvOk E) (hR : Rel R) (hm : E.mode = .smart ∨ h = true) :
    (∀ n, ∀ x ∈ nodes n, Claim R E h x) ∧ (∀ ns, ∀ x ∈ nodesL ns, Claim R E h x) := by
  apply induct
  · intro d x hx
    rw [nodes, List.mem_singleton] at hx
    subst hx
    intro t inside lk stuck hd _ _
    rw [renderNode, txts, shown_cons, shown_nil, List.append_nil]
    have hx := has_text E.mode hd.1
    refine ⟨_, rfl, (hx.keeps (keeps_linkText lk hx.1)).rel hR, fun _ => ends_text _ _ ?_⟩
    rcases hm with hm | hm
    · exact Or.inl hm
    · exact Or.inr (hd.2 hm)
  · intro d x hx
    rw [nodes, List.mem_singleton] at hx
    subst hx
    intro t inside lk stuck _ _ _
    rw [renderNode]
    exact ⟨_, rfl, hasR_nil hR (comment_ok d).1, fun _ => (comment_ok d).2⟩
  · intro d x hx
    rw [nodes, List.mem_singleton] at hx
    subst hx
    intro t inside lk stuck _ _ _
    rw [renderNode]
    have := fallback_ok (E := E) hR b!"#doctype" (hasR_nil hR utf8_nil)
    exact ⟨_, rfl, this.1, fun _ => this.2 (ends_blank rfl)⟩
  · intro cs ih x hx
    rcases List.mem_cons.1 hx with rfl | hx
    · intro t inside lk stuck hn ho ht
      obtain ⟨out, e, hx, he⟩ := (claims hR inside lk stuck cs (fun c hc => ih c (nodesL_mem hc (by rw [TableNodes.nodes_eq]; simp))) hn.2 ho
        (fun x hx => ht x (by rw [nodes]; simp [hx]))).1
      rw [renderNode, e, txts]
      have := fallback_ok (E := E) hR b!"#document" hx
      exact ⟨_, rfl, this.1, fun hi => this.2 (he hi)⟩
    · exact ih x hx
  · intro n a cs ih x hx
    rcases List.mem_cons.1 hx with rfl | hx
    · exact elem_claim hE hR ih
    · exact ih x hx
  · intro x hx; simp [nodesL] at hx
  · intro n ns ih1 ih2 x hx
    rcases List.mem_append.1 hx with hx | hx
    · exact ih1 x hx
    · exact ih2 x hx

/-- Rendering a whole tree. -/
theorem render_good (hE : EnvOk E) (hR : Rel R) (hm : E.mode = .smart ∨ h = true) (n : Node) (t inside link stuck : Bool)
    (hn : ok (kinds h true) t n) (hp : Placed E inside n) (ht : ∀ x ∈ nodes n, x.name = b!"table" → E.table.isSome = true → TableOk R x) :
    Good R inside (renderNode E link stuck n) (shown (txts n)) :=
  (render_claim hE hR hm).1 n n (by rw [TableNodes.nodes_eq]; simp) t inside link stuck hn (placed_fit.1 n inside hp) ht

end Verif.Chars
