import Verif.Proofs.EdgeTable
import Verif.Proofs.CharsMain
/-!
# Rendering a tree leaves the markers where they belong

For documents whose texts and attributes have neither the bell character nor U+F002.
-/
set_option linter.unusedSimpArgs false

namespace Verif.Edge
open Verif Verif.Spec Verif.Dom Verif.DomUtils Verif.TextUtils Verif.Escape Verif.Commonmark Verif.Render Verif.Chars Verif.Collapse
open Verif.Inner (inner Ins Plain plain_ascii plain_append)

variable {E : Env} {h np : Bool}

/-! ## The steps before rendering -/

/-- The texts and attribute values are clean, and no element is named `pre` (if `np`). -/
def kinds2 (np : Bool) : Kinds where
  N := fun n => np = true → n ≠ b!"pre"
  A := fun a => ∀ p ∈ a, Clean p.2
  R := Clean
  V := fun _ => False

theorem oneSpaceAfter_inner : ∀ s, Utf8 s → ∀ p, Utf8 (oneSpaceAfter p s) ∧ inner (oneSpaceAfter p s) = inner s := by
  apply utf8_induct
  · intro p; exact ⟨utf8_nil, rfl⟩
  · intro c s hc hs ih p
    rcases isChar_cases hc with ⟨b, rfl, hlow⟩ | hh
    · rw [List.singleton_append, oneSpaceAfter]
      split
      · rename_i hb
        have hv : inner (b :: s) = inner s := by
          rw [Inner.vis_ascii hlow hs, (show ∀ b : UInt8, isHtmlSpace b = true → Inner.vis [b] = false from forall_u8 (by decide +kernel)) b hb]; rfl
        rw [hv]
        split
        · exact ih true
        · refine ⟨utf8_append (a := [32]) (utf8_byte (by decide)) (ih true).1, ?_⟩
          rw [Inner.vis_ascii (by decide) (ih true).1, show Inner.vis [32] = false from by decide]
          exact (ih true).2
      · refine ⟨utf8_append (a := [b]) (utf8_byte hlow) (ih false).1, ?_⟩
        rw [Inner.vis_ascii hlow (ih false).1, Inner.vis_ascii hlow hs, (ih false).2]
    · have hne : c ≠ [] := by rintro rfl; simp [isChar] at hc
      rw [oneSpaceAfter_copy c hh hne]
      refine ⟨utf8_char hc (ih false).1, ?_⟩
      rw [Inner.vis_char hc (ih false).1, Inner.vis_char hc hs, (ih false).2]

theorem clean_ws {d : Bytes} (hd : Clean d) : Clean (replaceWs d) := by
  rw [replaceWs_eq, oneSpace]
  obtain ⟨h1, h2⟩ := oneSpaceAfter_inner d hd.1.1 false
  refine hd.keeps (Inner.Keeps.eq h1 h2) ?_
  intro hm
  rcases oneSpaceAfter_mem d false 7 hm with hm | hm
  · exact hd.2 hm
  · simp at hm

theorem clean_part {a b c : Bytes} (h : Clean (a ++ b ++ c)) (ha : Utf8 a) (hb : Utf8 b) (hc : Utf8 c) : Clean b := by
  refine ⟨⟨hb, ?_⟩, fun hm => h.2 (by simp [hm])⟩
  have := h.1.2
  rw [Inner.vis_append hc, Inner.vis_append hb] at this
  exact fun hm => this (by simp [hm])

theorem clean_tail {d : Bytes} (hd : Clean d) (hs : d.head? = some SP) : Clean d.tail := by
  cases d with
  | nil => simp at hs
  | cons b d =>
    simp only [List.head?_cons, Option.some.injEq] at hs
    subst hs
    exact clean_part (a := [SP]) (c := []) (by simpa using hd) (utf8_byte (by decide)) (utf8_suffix (a := [SP]) hd.1.1 (utf8_byte (by decide))) utf8_nil

theorem clean_suffix {d : Bytes} (hd : Clean d) : Clean (trimSuffix d) := by
  rw [trimSuffix]
  split
  · rename_i hs
    have hne : d ≠ [] := by rintro rfl; simp at hs
    rw [List.getLast?_eq_some_getLast hne, Option.some.injEq] at hs
    have e := List.dropLast_concat_getLast hne
    rw [hs] at e
    have hu : Utf8 d.dropLast := utf8_prefix (b := [SP]) (by rw [e]; exact hd.1.1) (utf8_byte (by decide))
    exact clean_part (a := []) (c := [SP]) (by rw [List.nil_append, e]; exact hd) utf8_nil hu (utf8_byte (by decide))
  · exact hd

theorem clean_text : TextOK Clean := ⟨fun _ => clean_ws, fun _ => clean_tail, fun _ => clean_suffix⟩

theorem clean_spaces (a b : Nat) {d : Bytes} (hd : Clean d) : Clean (List.replicate a SP ++ d ++ List.replicate b SP) := by
  have hr : ∀ n, Clean (List.replicate n SP) := fun n => clean_ascii (fun x hx => by rw [(List.mem_replicate.1 hx).2]; decide)
    (fun hx => absurd (List.mem_replicate.1 hx).2 (by decide))
  exact ((hr a).append hd).append (hr b)

theorem ok_removed {K : Kinds} : (∀ n, ∀ t, ok K t n → ok K t (removeIn isRemoved n)) ∧
    (∀ ns, okL K ns → okL K (removeInL isRemoved ns) ∧ (ns = [] → removeInL isRemoved ns = [])) := by
  apply induct
  · intro d t hd; exact hd
  · intro d t hd; trivial
  · intro d t hd; trivial
  · intro cs ih t hd; exact ⟨hd.1, (ih hd.2).1⟩
  · intro n a cs ih t hd
    exact ⟨hd.1, hd.2.1, fun hv => (ih hd.2.2.2).2 (hd.2.2.1 hv), (ih hd.2.2.2).1⟩
  · intro _; exact ⟨trivial, fun _ => rfl⟩
  · intro n ns ih1 ih2 hd
    refine ⟨?_, by simp⟩
    rw [removeInL]
    split
    · exact (ih2 hd.2).1
    · exact ⟨ih1 false hd.1, (ih2 hd.2).1⟩

theorem ok_merged {K : Kinds} (hR : ∀ a b, K.R a → K.R b → K.R (a ++ b)) : (∀ n, ∀ t, ok K t n → ok K t (mergeText n)) ∧
    (∀ ns, okL K ns → ∀ p, (∀ d, p = some d → K.R d) → okL K (mergeTextGo p ns) ∧ (ns = [] → p = none → mergeTextGo p ns = [])) := by
  apply induct
  · intro d t hd; exact hd
  · intro d t hd; trivial
  · intro d t hd; trivial
  · intro cs ih t hd
    exact ⟨hd.1, (ih hd.2 none (by simp)).1⟩
  · intro n a cs ih t hd
    have := ih hd.2.2.2 none (by simp)
    exact ⟨hd.1, hd.2.1, fun hv => this.2 (hd.2.2.1 hv) rfl, this.1⟩
  · intro _ p hp
    cases p with
    | none => exact ⟨trivial, fun _ _ => rfl⟩
    | some d => exact ⟨⟨hp d rfl, trivial⟩, by simp⟩
  · intro n ns ih1 ih2 hd p hp
    have hf : okL K (flush p) := by
      cases p with
      | none => trivial
      | some d => exact ⟨hp d rfl, trivial⟩
    have i2 := ih2 hd.2 none (by simp)
    have other : ∀ m, ok K false m → okL K (flush p ++ m :: mergeTextGo none ns) := fun m hm => okL_append.2 ⟨hf, hm, i2.1⟩
    refine ⟨?_, by simp⟩
    cases n with
    | text d =>
      cases p with
      | none => exact (ih2 hd.2 (some d) (fun _ he => by cases he; exact hd.1)).1
      | some p => exact (ih2 hd.2 (some (p ++ d)) (fun _ he => by cases he; exact hR _ _ (hp p rfl) hd.1)).1
    | comment d => cases p <;> exact other _ (ih1 false hd.1)
    | doctype d => cases p <;> exact other _ (ih1 false hd.1)
    | document ks => cases p <;> exact other _ (ih1 false hd.1)
    | elem n a ks => cases p <;> exact other _ (ih1 false hd.1)

theorem leafOK2 : LeafOK (kinds2 np) where
  strong := ⟨fun _ => by decide, id⟩
  span := ⟨fun _ => by decide, id⟩
  code := ⟨fun _ => by decide, id⟩
  br := fun _ => by decide
  none := fun p hp => by simp at hp
  quote1 := clean_ascii (by decide) (by decide)
  quote2 := clean_ascii (by decide) (by decide)

theorem handlePreRender_ok2 (T : NameTables) (doc : Node) (t : Bool) (hd : ok (kinds2 np) t doc) : ok (kinds2 np) t (handlePreRender T doc) := by
  simp only [handlePreRender]
  have nv : ∀ (m : Bytes → Bool) (n : Bytes), m n = true → ¬ (kinds2 np).V n := fun _ _ _ => id
  have h1 := (ok_rename (K := kinds2 np) T (fun _ => by decide) id).1 doc t hd
  have h2 := ok_redundant bothBoldOrItalic _ t h1
  have h3 := ok_merge isBoldOrItalic id (nv _) _ t h2
  have h4 := (ok_emptyCode (K := kinds2 np)).1 _ t h3
  have h5 := (ok_swap (K := kinds2 np) isInlineCode isPre (nv _) (nv _)).1 _ t h4
  have h6 := ok_merge isInlineCode id (nv _) _ t h5
  have h7 : ok (kinds2 np) t (addSpace isBoldOrItalic isInlineCode _) :=
    (ok_mapTexts (K := kinds2 np) _ (fun k d hd => clean_spaces _ _ hd)).1 _ t h6 0
  have h8 := ok_redundant bothLink _ t h7
  have h9 := (ok_swap (K := kinds2 np) isBoldOrItalic isLink (nv _) (nv _)).1 _ t h8
  have h10 := (ok_swap (K := kinds2 np) isLink isHeading (nv _) (nv _)).1 _ t h9
  have h11 := ok_leafAlternatives leafOK2 _ t h10
  exact (ok_moveListItems (K := kinds2 np) (fun _ => by decide) id leafOK2.none id id).1 _ t h11

theorem preRender_ok2 (E : Env) {doc : Node} (hroot : isRemoved doc.name = false) (h0 : ok (kinds2 np) true doc) : ok (kinds2 np) true (preRender E doc) := by
  have h1 := ok_removed.1 doc true h0
  have h2 := (ok_merged (K := kinds2 np) fun a b => Clean.append).1 _ true h1
  have h3 := handlePreRender_ok2 E.tables _ true h2
  have h5 : ok (kinds2 np) true (strikePreRender E (handlePreRender E.tables (mergeText (removeIn isRemoved doc)))) := by
    rw [strikePreRender]
    split
    · exact ok_merge isStrike id (fun _ _ => id) _ true (ok_redundant bothStrike _ true h3)
    · exact h3
  have h4 := ok_collapse (Collapse.baseFuncs (Render.isBlock E)) clean_text _ true h5
  simp only [preRender, preRenderRemove, hroot, Bool.false_eq_true, if_false]
  split
  · exact h4
  · exact ok_listEnd.1 _ true h4 []

/-! ## Code -/

theorem attr_clean {a : List (Bytes × Bytes)} (ha : ∀ p ∈ a, Clean p.2) (key : Bytes) (n : Bytes) (cs : List Node) :
    Clean (Node.attrOr key [] (.elem n a cs)) := by
  rw [Node.attrOr, Node.attr?]
  cases e : a.find? fun x => x.1 == key with
  | none => exact clean_ascii (by simp) (by simp)
  | some p => exact ha p (List.mem_of_find?_eq_some e)

theorem mem_dropFirst {b : UInt8} (old : Bytes) : ∀ s : Bytes, b ∈ dropFirst old s → b ∈ s
  | [], hb => by rw [dropFirst] at hb; exact hb
  | x :: s, hb => by
    rw [dropFirst] at hb
    split at hb
    · exact List.mem_of_mem_drop hb
    · rcases List.mem_cons.1 hb with e | hb
      · simp [e]
      · exact List.mem_cons_of_mem _ (mem_dropFirst old s hb)

theorem mem_split {b c : UInt8} : ∀ (s : Bytes) (l : Bytes), l ∈ splitOn c s → b ∈ l → b ∈ s := by
  intro s
  have e := join_split c s
  intro l hl hb
  rw [← e]
  generalize splitOn c s = ls at hl
  induction ls with
  | nil => simp at hl
  | cons x ls ih =>
    cases ls with
    | nil => simp at hl; subst hl; simpa [joinWith] using hb
    | cons y ls =>
      rw [joinWith]
      rcases List.mem_cons.1 hl with rfl | hl
      · simp [hb]
      · exact List.mem_append_right _ (List.mem_cons_of_mem _ (ih hl))
      · simp

theorem bell_language {cls : Bytes} (hc : 7 ∉ cls) : 7 ∉ codeLanguage cls := by
  rw [codeLanguage]
  split
  · simp
  · rename_i part hp
    intro hm
    exact hc (mem_split cls part (List.mem_of_find?_eq_some hp) (mem_dropFirst _ _ (mem_dropFirst _ _ hm)))

theorem code_clean : (∀ n, ∀ t, ok (kinds2 np) t n → Clean (codeText n) ∧ ∀ info, 7 ∉ info → 7 ∉ codeInfo info n) ∧
    (∀ ns, okL (kinds2 np) ns → Clean (codeTextL ns) ∧ ∀ info, 7 ∉ info → 7 ∉ codeInfoL info ns) := by
  have hn : Clean [] := clean_ascii (by simp) (by simp)
  apply induct
  · intro d t hd; exact ⟨hd, fun info hi => hi⟩
  · intro d t _; exact ⟨hn, fun info hi => hi⟩
  · intro d t _; exact ⟨hn, fun info hi => hi⟩
  · intro cs ih t hd; exact ih hd.2
  · intro n a cs ih t hd
    have hd2 : ∀ p ∈ a, Clean p.2 := hd.2.1
    refine ⟨?_, ?_⟩
    · rw [codeText]
      split
      · exact hn
      split
      · exact (clean_ascii (s := [NL]) (by decide) (by decide)).append (ih hd.2.2.2).1
      · exact (ih hd.2.2.2).1
    · intro info hi
      have h2 : 7 ∉ (if (n = b!"code" ∨ n = b!"pre") ∧ info = [] then codeLanguage (Node.attrOr b!"class" [] (.elem n a cs)) else info) := by
        split
        · exact bell_language (attr_clean hd2 _ _ _).2
        · exact hi
      rw [codeInfo]
      split
      · exact h2
      · exact (ih hd.2.2.2).2 _ h2
  · intro _; exact ⟨hn, fun info hi => hi⟩
  · intro n ns ih1 ih2 hd
    refine ⟨?_, ?_⟩
    · rw [codeTextL]; exact (ih1 false hd.1).1.append (ih2 hd.2).1
    · intro info hi
      rw [codeInfoL]
      exact (ih2 hd.2).2 _ ((ih1 false hd.1).2 info hi)

/-! ## Rendering -/

/-- What the induction needs of the configuration. -/
structure EnvTidy (E : Env) : Prop where
  ok : EnvOk E
  em : 7 ∉ E.cfg.emDelimiter ∧ Plain E.cfg.emDelimiter
  strong : 7 ∉ E.cfg.strongDelimiter ∧ Plain E.cfg.strongDelimiter
  rule : Clean E.cfg.horizontalRule
  bullet : Clean E.cfg.bulletListMarker
  fence : E.cfg.codeBlockFence.headD 0 < 128 ∧ Inner.vis [E.cfg.codeBlockFence.headD 0] = true
  assemble : ∀ u, Clean u → Clean (E.assemble u)
  strike : ∀ d, E.strike = some d → 7 ∉ d ∧ Plain d

theorem tidy_fallback (n : Bytes) {x : Bytes} (hx : Tidy np x) : Tidy np (fallback E n x) := by
  rw [fallback]
  split
  · exact (tidy_nn.append hx).append tidy_nn
  · exact hx

theorem tidy_comment (d : Bytes) : Tidy np (renderComment E d) := by
  rw [renderComment]
  split
  · exact tidy_ascii (by decide) (by decide)
  · exact tidy_fallback _ tidy_nil

/-- The claim for one node. -/
def Claim2 (E : Env) (h np : Bool) (n : Node) : Prop :=
  ∀ t inside link stuck, ok (kinds h true) t n → ok (kinds2 np) t n → Fit E inside n → ∀ out, renderNode E link stuck n = some out → Tidy np out

theorem claims2 (inside link stuck : Bool) : ∀ ns : List Node, (∀ c ∈ ns, Claim2 E h np c) → okL (kinds h true) ns → okL (kinds2 np) ns → FitL E inside ns →
    (∀ out, renderL E link stuck ns = some out → Tidy np out) ∧
    ∀ outs, renderEach E link stuck ns = some outs → ∀ x ∈ outs, Tidy np x
  | [], _, _, _, _ => ⟨by intro out e; cases e; exact tidy_nil, by intro outs e; cases e; simp⟩
  | n :: ns, hc, hn, hn2, hf => by
    have i1 := hc n (by simp) false inside link stuck hn.1 hn2.1 hf.1
    obtain ⟨i2, i3⟩ := claims2 inside link stuck ns (fun c hm => hc c (by simp [hm])) hn.2 hn2.2 hf.2
    constructor
    · intro out e
      rw [renderL, Option.bind_eq_some_iff] at e
      obtain ⟨x, e1, e2⟩ := e
      rw [Option.map_eq_some_iff] at e2
      obtain ⟨y, e2, rfl⟩ := e2
      exact (i1 x e1).append (i2 y e2)
    · intro outs e
      rw [renderEach, Option.bind_eq_some_iff] at e
      obtain ⟨x, e1, e2⟩ := e
      rw [Option.map_eq_some_iff] at e2
      obtain ⟨y, e2, rfl⟩ := e2
      intro z hz
      rcases List.mem_cons.1 hz with rfl | hz
      · exact i1 z e1
      · exact i3 y e2 z hz

theorem elem_claim2 (hE : EnvTidy E) (hm : E.mode = .smart ∨ h = true) {n : Bytes} {a : List (Bytes × Bytes)} {cs : List Node}
    (ih : ∀ x ∈ nodesL cs, Claim2 E h np x) : Claim2 E h np (.elem n a cs) := by
  intro t inside lk stuck hn hn2 ho
  have hA : ∀ p ∈ a, Clean p.2 := hn2.2.1
  have hN : np = true → n ≠ b!"pre" := hn2.1
  obtain ⟨hnb, ho⟩ := ho
  have hch : ∀ c ∈ cs, Claim2 E h np c := fun c hc => ih c (nodesL_mem hc (by rw [TableNodes.nodes_eq]; simp))
  obtain ⟨hL, hEach⟩ := claims2 (flagIn isNarrow (struck E) inside n) lk (stuck || isProblematicParent n) cs hch hn.2.2.2 hn2.2.2.2 ho
  have hL' := (claims2 (flagIn isNarrow (struck E) inside n) true (stuck || isProblematicParent n) cs hch hn.2.2.2 hn2.2.2.2 ho).1
  have hun : ∀ s, Tidy np s → Tidy np (unEscapeContent E.mode (handlers E) s) := fun s hs => tidy_un _ _ hs
  have hfb : ∀ (m : Bytes) out, (renderL E lk (stuck || isProblematicParent n) cs).map (fallback E m) = some out → Tidy np out := by
    intro m out e
    rw [Option.map_eq_some_iff] at e
    obtain ⟨x, e, rfl⟩ := e
    exact tidy_fallback _ (hL x e)
  intro out e
  rw [renderNode] at e
  by_cases h1 : isBoldOrItalic n = true
  · rw [if_pos h1, Option.map_eq_some_iff] at e
    obtain ⟨x, e, rfl⟩ := e
    have hd : 7 ∉ delimiterOf E n ∧ Plain (delimiterOf E n) := by
      rw [delimiterOf]
      split
      · exact hE.strong
      · rename_i hb
        rw [isBoldOrItalic, Bool.or_eq_true] at h1
        rw [if_pos (h1.resolve_left hb)]
        exact hE.em
    exact tidy_delimited hd.2 hd.1 (hL x e)
  rw [if_neg h1] at e
  by_cases h2 : n = b!"hr"
  · rw [if_pos h2] at e
    cases e
    exact (tidy_nn.append hE.rule.tidy).append tidy_nn
  rw [if_neg h2] at e
  by_cases h3 : n = b!"br"
  · rw [if_pos h3] at e
    cases e
    exact tidy_ascii (by decide) (by decide)
  rw [if_neg h3] at e
  by_cases h4 : n = b!"ul" ∨ n = b!"ol"
  · rw [if_pos h4, Option.map_eq_some_iff] at e
    obtain ⟨xs, e, rfl⟩ := e
    exact tidy_list hun hE.bullet.tidy _ (hEach xs e)
  rw [if_neg h4] at e
  have hcode := code_has.1 (.elem n a cs) t hn
  have hcode2 := code_clean.1 (.elem n a cs) t hn2
  by_cases h5 : n = b!"pre"
  · rw [if_pos h5] at e
    cases e
    have : np = false := by
      cases np with
      | false => rfl
      | true => exact absurd h5 (hN rfl)
    subst this
    exact tidy_blockCode hE.fence (hcode.2 [] utf8_nil) (hcode2.2 [] (by simp)) hcode2.1
  rw [if_neg h5] at e
  by_cases h6 : DomUtils.isInlineCode n = true
  · rw [if_pos h6] at e
    cases e
    exact tidy_inlineCode hcode2.1
  rw [if_neg h6] at e
  by_cases h7 : n = b!"blockquote"
  · rw [if_pos h7, Option.map_eq_some_iff] at e
    obtain ⟨x, e, rfl⟩ := e
    exact tidy_blockquote (hL x e)
  rw [if_neg h7] at e
  by_cases h8 : isHeading n = true
  · rw [if_pos h8, Option.bind_eq_some_iff] at e
    obtain ⟨x, e1, e2⟩ := e
    have hs : struck E n = false := by rw [struck, heading_not_strike n h8, Bool.and_false]
    obtain ⟨x', e3, -, he⟩ := (claims rel_true (flagIn isNarrow (struck E) inside n) lk (stuck || isProblematicParent n) cs
      (fun c hc => (render_claim hE.ok rel_true hm).2 cs c (nodesL_mem hc (by rw [TableNodes.nodes_eq]; simp))) hn.2.2.2 ho
      (fun x _ _ _ => tableOk_true x)).1
    rw [e1] at e3
    cases e3
    exact tidy_heading (hL x e1) (he (by rw [flagIn, hs, narrow_heading n h8]; simp)) e2
  rw [if_neg h8] at e
  by_cases h9 : n = b!"img"
  · rw [if_pos h9, Option.map_eq_some_iff] at e
    obtain ⟨x, e, rfl⟩ := e
    rw [renderImage]
    cases ei : image E.assemble (Node.attrOr b!"src" [] (.elem n a cs)) (Node.attrOr b!"title" [] (.elem n a cs)) (Node.attrOr b!"alt" [] (.elem n a cs)) with
    | none => exact tidy_fallback _ (hL x e)
    | some img => exact tidy_image hE.assemble (attr_clean hA _ _ _) (attr_clean hA _ _ _) (attr_clean hA _ _ _) ei
  rw [if_neg h9] at e
  by_cases h10 : n = b!"a"
  · rw [if_pos h10, Option.bind_eq_some_iff] at e
    obtain ⟨ins, e4, e⟩ := e
    rw [Option.map_eq_some_iff] at e
    obtain ⟨x, e, rfl⟩ := e
    rw [renderLink]
    split
    case isFalse => exact tidy_fallback _ (hL x e)
    cases el : Commonmark.link (E.cfg.linkEmptyHrefBehavior = b!"skip") (E.cfg.linkEmptyContentBehavior = b!"skip")
        (E.assemble (trimSpace (Node.attrOr b!"href" [] (.elem n a cs)))) (Node.attrOr b!"title" [] (.elem n a cs)) ins with
    | none => exact tidy_fallback _ (hL x e)
    | some l =>
      have hh := attr_clean hA b!"href" n cs
      exact tidy_link (hE.assemble _ (hh.keeps (Inner.keeps_trimSpace hh.1.1) fun hm => hh.2 (mem_trimSpace hm))) (attr_clean hA _ _ _) (hL' ins e4) el
  rw [if_neg h10] at e
  by_cases h11 : isStrike n = true
  · rw [if_pos h11] at e
    cases es : E.strike with
    | none => rw [es] at e; exact hfb n out e
    | some d =>
      rw [es] at e
      simp only [Option.map_eq_some_iff] at e
      obtain ⟨x, e, rfl⟩ := e
      exact tidy_delimited (hE.strike d es).2 (hE.strike d es).1 (hL x e)
  rw [if_neg h11] at e
  by_cases h12 : n = b!"table"
  · rw [if_pos h12] at e
    cases et : E.table with
    | none => rw [et] at e; exact hfb n out e
    | some cfg =>
      rw [et] at e
      simp only at e
      have hat : hasProblematicChild (.elem n a cs) = false → ∀ z ∈ below [] (.elem n a cs),
          ∃ o, renderAt E lk (stuck || isProblematicParent n) z.1 cs = some o ∧ Tidy np o := by
        intro hp z hz
        obtain ⟨st', e5⟩ := TableNodes.render_at (E := E) (link := lk) (cs := cs) hz (stuck || isProblematicParent n)
        rw [e5]
        have hzm : z.2 ∈ nodesL cs := by
          rw [← TableNodes.below_snd.2 cs [] 0]
          exact List.mem_map_of_mem hz
        obtain ⟨t', ht', ht2⟩ : ∃ t', ok (kinds h true) t' z.2 ∧ ok (kinds2 np) t' z.2 := by
          obtain ⟨t1, k1⟩ := ok_nodes.2 cs hn.2.2.2 z.2 hzm
          obtain ⟨t2, k2⟩ := ok_nodes.2 cs hn2.2.2.2 z.2 hzm
          refine ⟨true, ?_, ?_⟩
          · cases t1 with
            | false => exact ok_top k1
            | true => exact k1
          · cases t2 with
            | false => exact ok_top k2
            | true => exact k2
        have hfit : Fit E true z.2 := by
          refine fit_harmless.1 z.2 ?_ true
          intro x hx
          have hxm := nodes_trans.2 cs z.2 hzm x hx
          rw [← TableNodes.below_snd.2 cs [] 0, List.mem_map] at hxm
          obtain ⟨y, hy, rfl⟩ := hxm
          have hpy : ¬ _ := (List.any_eq_false.1 hp) y hy
          rw [Bool.or_eq_true, not_or] at hpy
          have h1 : isHeading y.2.name = false := by simpa using hpy.1
          have h2 : ¬ (y.2.name ∈ [b!"table", b!"hr", b!"ul", b!"ol", b!"blockquote"]) := by simpa using hpy.2
          simp only [List.mem_cons, not_or] at h2
          rw [isBad, h1]
          simp [h2]
        obtain ⟨o, eo, -⟩ := (render_claim (h := h) hE.ok rel_true hm).2 cs z.2 hzm t' true lk st' ht' hfit (fun x _ _ _ => tableOk_true x)
        exact ⟨o, eo, ih z.2 hzm t' true lk st' ht' ht2 hfit o eo⟩
      rw [Option.bind_eq_some_iff] at e
      obtain ⟨r, e6, e7⟩ := e
      cases r with
      | none => exact hfb n out e7
      | some o =>
        cases e7
        exact tidy_renderTable hun cfg stuck _ hat e6
  rw [if_neg h12] at e
  by_cases h13 : n = b!"tr" ∧ E.table.isSome = true
  · rw [if_pos h13, Option.map_eq_some_iff] at e
    obtain ⟨x, e, rfl⟩ := e
    exact (tidy_nn.append (hL x e)).append tidy_nn
  rw [if_neg h13] at e
  exact hfb n out e

theorem render_claim2 (hE : EnvTidy E) (hm : E.mode = .smart ∨ h = true) :
    (∀ n, ∀ x ∈ nodes n, Claim2 E h np x) ∧ (∀ ns, ∀ x ∈ nodesL ns, Claim2 E h np x) := by
  apply induct
  · intro d x hx
    rw [nodes, List.mem_singleton] at hx
    subst hx
    intro t inside lk stuck _ hd _ out e
    rw [renderNode] at e
    cases e
    exact tidy_text _ _ hd
  · intro d x hx
    rw [nodes, List.mem_singleton] at hx
    subst hx
    intro t inside lk stuck _ _ _ out e
    rw [renderNode] at e
    cases e
    exact tidy_comment d
  · intro d x hx
    rw [nodes, List.mem_singleton] at hx
    subst hx
    intro t inside lk stuck _ _ _ out e
    rw [renderNode] at e
    cases e
    exact tidy_fallback _ tidy_nil
  · intro cs ih x hx
    rcases List.mem_cons.1 hx with rfl | hx
    · intro t inside lk stuck hn hn2 ho out e
      rw [renderNode, Option.map_eq_some_iff] at e
      obtain ⟨x, e, rfl⟩ := e
      exact tidy_fallback _ ((claims2 inside lk stuck cs (fun c hc => ih c (nodesL_mem hc (by rw [TableNodes.nodes_eq]; simp))) hn.2 hn2.2 ho).1 x e)
    · exact ih x hx
  · intro n a cs ih x hx
    rcases List.mem_cons.1 hx with rfl | hx
    · exact elem_claim2 hE hm ih
    · exact ih x hx
  · intro x hx; simp [nodesL] at hx
  · intro n ns ih1 ih2 x hx
    rcases List.mem_append.1 hx with hx | hx
    · exact ih1 x hx
    · exact ih2 x hx

/-! ## Documents -/

/-- The conditions on a document give those on the tree. -/
theorem document_ok {doc : Node} (hp : Page doc) (hc : ∀ i ∈ items [] doc, (∀ d, i.what = .text d → Clean d) ∧ ∀ n a, i.what = .elem n a → (∀ p ∈ a, Clean p.2) ∧ (np = true → n ≠ b!"pre")) :
    ok (kinds2 np) true doc := by
  have key : (∀ n, ∀ anc t, ok (kinds false false) t n → (∀ i ∈ items anc n, (∀ d, i.what = .text d → Clean d) ∧
        ∀ n a, i.what = .elem n a → (∀ p ∈ a, Clean p.2) ∧ (np = true → n ≠ b!"pre")) → ok (kinds2 np) t n) ∧
      (∀ ns, ∀ anc, okL (kinds false false) ns → (∀ i ∈ itemsL anc ns, (∀ d, i.what = .text d → Clean d) ∧
        ∀ n a, i.what = .elem n a → (∀ p ∈ a, Clean p.2) ∧ (np = true → n ≠ b!"pre")) → okL (kinds2 np) ns) := by
    apply induct
    · intro d anc t _ hi; exact (hi ⟨anc, .text d⟩ (by simp [items])).1 d rfl
    · intro d anc t _ hi; trivial
    · intro d anc t _ hi; trivial
    · intro cs ih anc t h0 hi
      exact ⟨h0.1, ih _ h0.2 fun i hm => hi i (by rw [items]; exact List.mem_cons_of_mem _ hm)⟩
    · intro n a cs ih anc t h0 hi
      have h1 := (hi ⟨anc, .elem n a⟩ (by simp [items])).2 n a rfl
      exact ⟨h1.2, h1.1, fun hv => hv.elim, ih _ h0.2.2.2 fun i hm => hi i (by rw [items]; exact List.mem_cons_of_mem _ hm)⟩
    · intro anc _ _; trivial
    · intro n ns ih1 ih2 anc h0 hi
      exact ⟨ih1 anc false h0.1 fun i hm => hi i (by simp [itemsL, hm]), ih2 anc h0.2 fun i hm => hi i (by simp [itemsL, hm])⟩
  exact key.1 doc [] true (page_ok (h := false) hp (by simp)) hc

/-- What is rendered for a document. -/
theorem render_tidy (hE : EnvTidy E) {doc : Node} (hp : Page doc) (hm : E.mode = .smart ∨ ∀ i ∈ items [] doc, ∀ d, i.what = .text d → 35 ∉ d)
    (hc : ∀ i ∈ items [] doc, (∀ d, i.what = .text d → Clean d) ∧ ∀ n a, i.what = .elem n a → (∀ p ∈ a, Clean p.2) ∧ (np = true → n ≠ b!"pre"))
    {out : Bytes} (e : renderNode E false false (preRender E doc) = some out) : Tidy np out := by
  have key : ∀ h : Bool, (h = true → ∀ i ∈ items [] doc, ∀ d, i.what = .text d → 35 ∉ d) → (E.mode = .smart ∨ h = true) → Tidy np out := by
    intro h hh hm
    obtain ⟨h1, -, h3⟩ := preRender_ok E hp hh
    have hroot : isRemoved doc.name = false := by
      rw [← Bool.not_eq_true, isRemoved_iff]
      exact hp.root
    exact (render_claim2 hE hm).1 (preRender E doc) _ (by rw [TableNodes.nodes_eq]; simp) true false false false h1 (preRender_ok2 E hroot (document_ok hp hc))
      (placed_fit.1 _ false h3) out e
  rcases hm with hm | hm
  · exact key false (by simp) (Or.inl hm)
  · exact key true (fun _ => hm) (Or.inr rfl)

end Verif.Edge
