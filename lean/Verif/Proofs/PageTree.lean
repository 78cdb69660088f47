import Verif.Spec.Page
import Verif.Proofs.Calm
import Verif.Proofs.Collapse
import Verif.Proofs.Trim
import Verif.Proofs.PageRich
/-!
# Pages of blocks: the tree after the pre-render handlers
-/

namespace Verif.Page
open Verif Verif.Spec Verif.DomUtils Verif.Render Verif.Calm

/-- Induction over blocks. -/
theorem induct {P : Block → Prop} {Q : List Block → Prop} {R : List (List Block) → Prop}
    (text : ∀ t, P (.text t)) (run : ∀ f r, P (.run f r)) (paragraph : ∀ t, P (.paragraph t)) (rich : ∀ f r, P (.rich f r)) (heading : ∀ n t, P (.heading n t))
    (richHeading : ∀ n f r, P (.richHeading n f r)) (rule : P .rule)
    (code : ∀ l c, P (.code l c)) (group : ∀ n bs, Q bs → P (.group n bs)) (quote : ∀ bs, Q bs → P (.quote bs))
    (list : ∀ k g is, R is → P (.list k g is)) (nil : Q []) (cons : ∀ b bs, P b → Q bs → Q (b :: bs))
    (nil' : R []) (cons' : ∀ i is, Q i → R is → R (i :: is)) : (∀ b, P b) ∧ (∀ bs, Q bs) ∧ (∀ is, R is) :=
  ⟨fun b => Block.rec (motive_1 := P) (motive_2 := Q) (motive_3 := R) text run paragraph rich heading richHeading rule code
      (fun n bs h => group n bs h) (fun bs h => quote bs h) (fun k g is h => list k g is h) nil (fun b bs h1 h2 => cons b bs h1 h2) nil' (fun i is h1 h2 => cons' i is h1 h2) b,
   fun b => Block.rec_1 (motive_1 := P) (motive_2 := Q) (motive_3 := R) text run paragraph rich heading richHeading rule code
      (fun n bs h => group n bs h) (fun bs h => quote bs h) (fun k g is h => list k g is h) nil (fun b bs h1 h2 => cons b bs h1 h2) nil' (fun i is h1 h2 => cons' i is h1 h2) b,
   fun b => Block.rec_2 (motive_1 := P) (motive_2 := Q) (motive_3 := R) text run paragraph rich heading richHeading rule code
      (fun n bs h => group n bs h) (fun bs h => quote bs h) (fun k g is h => list k g is h) nil (fun b bs h1 h2 => cons b bs h1 h2) nil' (fun i is h1 h2 => cons' i is h1 h2) b⟩

theorem level_cases {n : Nat} (h1 : 1 ≤ n) (h6 : n ≤ 6) : n = 1 ∨ n = 2 ∨ n = 3 ∨ n = 4 ∨ n = 5 ∨ n = 6 := by omega

/-- The name of an element. -/
def tagOf : Block → Bytes
  | .text _ => b!"#text"
  | .run _ _ => b!"#text"
  | .paragraph _ => b!"p"
  | .rich _ _ => b!"p"
  | .heading n _ => [104, UInt8.ofNat (48 + n)]
  | .richHeading n _ _ => [104, UInt8.ofNat (48 + n)]
  | .rule => b!"hr"
  | .code _ _ => b!"pre"
  | .group n _ => n
  | .quote _ => b!"blockquote"
  | .list k _ _ => k.tag

/-- The names of the elements that occur. -/
def blockNames : List Bytes := [b!"p", b!"h1", b!"h2", b!"h3", b!"h4", b!"h5", b!"h6", b!"hr", b!"pre", b!"ul", b!"ol", b!"li", b!"html", b!"body",
  b!"blockquote"]
  ++ groupNames

theorem tag_mem {bullet b} (h : Block.OK bullet b) (ht : b.isText = false) : tagOf b ∈ blockNames ∧ tagOf b ≠ b!"html" ∧ tagOf b ≠ b!"body" := by
  cases b with
  | text t => simp [Block.isText] at ht
  | run f r => simp [Block.isText] at ht
  | paragraph t => rw [tagOf]; decide
  | rich f r => rw [tagOf]; decide
  | heading n t =>
    rw [Block.OK] at h
    rw [tagOf]
    rcases level_cases h.1 h.2.1 with rfl | rfl | rfl | rfl | rfl | rfl <;> decide
  | richHeading n f r =>
    rw [Block.OK] at h
    rw [tagOf]
    rcases level_cases h.1 h.2.1 with rfl | rfl | rfl | rfl | rfl | rfl <;> decide
  | rule => decide
  | code l c => rw [tagOf]; decide
  | group n bs =>
    rw [Block.OK] at h
    have : ∀ m ∈ groupNames, m ∈ blockNames ∧ m ≠ b!"html" ∧ m ≠ b!"body" := by decide
    exact this _ h.1
  | quote bs => rw [tagOf]; decide
  | list k g is => rw [tagOf]; cases k <;> (rw [ListKind.tag]; decide)

theorem gap_ws {gap : Bytes} (h : ∀ b ∈ gap, isHtmlSpace b = true) : AllWhitespace gap := by
  induction gap with
  | nil => exact AllWhitespace.nil
  | cons b gap ih =>
    have h1 := h b (by simp)
    have hb : [b] ∈ whitespace := by
      revert h1
      exact forall_u8 (P := fun b => isHtmlSpace b = true → [b] ∈ whitespace) (by decide +kernel) b
    exact AllWhitespace.append (AllWhitespace.word hb) (ih fun b hb => h b (by simp [hb]))

theorem alike_left {a : Node} (h : inlNode a = false) (b : Node) : alike a b = false := by
  cases a with
  | elem n at' cs =>
    simp only [inlNode] at h
    rw [alike, List.any_eq_false]
    intro m hm
    have : m n = false := by
      cases e : m n with
      | false => rfl
      | true => rw [kinds_inl m hm n e] at h; cases h
    simp [kindNode, this]
  | _ => simp [alike, kinds, kindNode]

theorem alike_comm (a b : Node) : alike a b = alike b a := by
  simp only [alike, kinds, List.any_cons, List.any_nil, Bool.and_comm]

theorem alike_right {b : Node} (h : inlNode b = false) (a : Node) : alike a b = false := by rw [alike_comm, alike_left h]

theorem apart_items (gap : Bytes) (is : List (List Block)) : apart (htmlItems gap is) = true := by
  have h1 : ∀ t b, alike (.text t) b = false := fun t b => alike_left rfl b
  have h2 : ∀ t b, alike b (.text t) = false := fun t b => alike_right rfl b
  induction is with
  | nil => simp [htmlItems, apart]
  | cons i is ih =>
    rw [htmlItems]
    cases is with
    | nil => simp [htmlItems, apart, textNode, h1, h2]
    | cons j is =>
      rw [htmlItems] at ih ⊢
      rw [apart, apart, ih]
      simp [h1, h2, textNode]

theorem calm_of {n : Bytes} {a cs} (h1 : isRemoved n = false) (h2 : n ≠ b!"span") (h3 : n ≠ b!"#document") (h4 : isInl n = false)
    (h5 : (getStructure n ≠ .leaf ∧ getStructure n ≠ .inline) ∨ ∀ c ∈ cs, leafChild c = true)
    (h6 : (n ≠ b!"ul" ∧ n ≠ b!"ol") ∨ ∀ c ∈ cs, isLi c = true ∨ isEmptyText c = true) (h7 : apart cs = true) (h8 : calmL cs = true) :
    calm (.elem n a cs) = true := by
  have h4' := h4
  simp only [isInl, Bool.or_eq_false_iff] at h4'
  rw [calm, calmElem, h8, h7, h1, h4, h4'.1.1.1, h4'.1.1.2, h4'.2]
  simp [h2, h3]
  constructor
  · rcases h5 with h5 | h5
    · left; exact h5
    · right; exact h5
  · rcases h6 with h6 | h6
    · left; simpa using h6
    · right; exact h6

theorem emph_names : ∀ n ∈ [b!"strong", b!"b", b!"em", b!"i"], isRemoved n = false ∧ n ≠ b!"span" ∧ n ≠ b!"#document" ∧ isInl n = true ∧
    n ≠ b!"ul" ∧ n ≠ b!"ol" ∧ isListName n = false ∧ n ≠ b!"li" ∧ n ≠ b!"hr" ∧ n ≠ b!"br" ∧ n ≠ b!"code" ∧ n ≠ b!"pre" ∧ n ∉ Collapse.voidElements := by
  decide

theorem calmElem_code {t : Bytes} (ht : t ≠ []) : calmElem b!"code" [.text t] = true := by
  have e1 : oneText [Node.text t] = true := by simp [oneText, ht]
  have e2 : [Node.text t].all leafChild = true := by simp [leafChild]
  have e3 : apart [Node.text t] = true := rfl
  have e4 : isRemoved b!"code" = false ∧ isBoldOrItalic b!"code" = false := by decide
  rw [calmElem, e1, e2, e3, e4.1, e4.2]
  simp

/-- What is known of the kind of an element. -/
theorem inl_kind {st ctx v1 v2} {i : Inl} (h : Inl.OK st ctx v1 v2 i) : kindNode isBoldOrItalic i.html = i.isEmph ∧
    kindNode DomUtils.isInlineCode i.html = i.isCode ∧ kindNode isStrike i.html = false ∧ kindNode isLink i.html = i.isLink := by
  cases i with
  | emph name f r =>
    rw [Inl.OK] at h
    have key : ∀ n ∈ [b!"strong", b!"b", b!"em", b!"i"], isBoldOrItalic n = true ∧ DomUtils.isInlineCode n = false ∧ isStrike n = false ∧ isLink n = false := by
      decide
    simpa [Inl.html, kindNode, Inl.isEmph, Inl.isCode, Inl.isLink] using key name h.1.tag
  | code c => simp only [Inl.html, kindNode, Inl.isEmph, Inl.isCode, Inl.isLink]; decide
  | link a b f r => simp only [Inl.html, kindNode, Inl.isEmph, Inl.isCode, Inl.isLink]; decide
  | image a b c => simp only [Inl.html, kindNode, Inl.isEmph, Inl.isCode, Inl.isLink]; decide

theorem inl_leaf {st ctx v1 v2} {i : Inl} (h : Inl.OK st ctx v1 v2 i) : leafChild i.html = true := by
  cases i with
  | emph name f r =>
    rw [Inl.OK] at h
    obtain ⟨-, -, -, h4, -⟩ := emph_names name h.1.tag
    simp [Inl.html, leafChild, h4]
  | code c => rw [Inl.html, leafChild, show isInl b!"code" = true from by decide]; rfl
  | link href title f r => rw [Inl.html, leafChild, show isInl b!"a" = true from by decide]; rfl
  | image src title alt => simp [Inl.html, leafChild]

theorem textNodes_leaf (t : Bytes) : ∀ c ∈ textNodes t, leafChild c = true := by
  rw [textNodes]
  split <;> simp [leafChild]

theorem rest_leaf {st} : ∀ (rest : List (Inl × Bytes)) {ctx : List Around} {v1 : Bytes}, RestOK st ctx v1 rest → ∀ c ∈ htmlRest rest, leafChild c = true
  | [], _, _, _ => by simp [htmlRest]
  | (i, t) :: rest, ctx, v1, h => by
    intro c hc
    rw [htmlRest] at hc
    rcases List.mem_cons.1 hc with rfl | hc
    · exact inl_leaf h.head.elem
    · rcases List.mem_append.1 hc with hc | hc
      · exact textNodes_leaf t c hc
      · exact rest_leaf rest h.head.next c hc

theorem content_leaf {st} {first : Bytes} {rest : List (Inl × Bytes)} {ctx : List Around} {v1 : Bytes} (h : RestOK st ctx v1 rest) :
    ∀ c ∈ textNodes first ++ htmlRest rest, leafChild c = true := by
  intro c hc
  rcases List.mem_append.1 hc with hc | hc
  · exact textNodes_leaf first c hc
  · exact rest_leaf rest h c hc

theorem inl_html (i : Inl) : textNode i.html = false := by cases i <;> (rw [Inl.html]; rfl)

theorem inl_alike {st ctx v1 v2 v1' v2'} {i j : Inl} (h : Inl.OK st ctx v1 v2 i) (h' : Inl.OK st ctx v1' v2' j)
    (h1 : (i.isEmph && j.isEmph) = false) (h2 : (i.isCode && j.isCode) = false) : alike i.html j.html = false := by
  obtain ⟨a1, a2, a3, -⟩ := inl_kind h
  obtain ⟨b1, b2, b3, -⟩ := inl_kind h'
  simp [alike, kinds, a1, a2, a3, b1, b2, h1, h2]

theorem text_apart (t : Bytes) {ns : List Node} (h : apart ns = true) (h0 : ns.head?.any textNode = false) : apart (.text t :: ns) = true := by
  cases ns with
  | nil => rfl
  | cons n ns =>
    simp at h0
    rw [apart, h, alike_left rfl, h0]; simp

theorem apart_text (t : Bytes) {n : Node} {ns : List Node} (h : apart (.text t :: ns) = true) (h0 : textNode n = false) : apart (n :: .text t :: ns) = true := by
  rw [apart, h, alike_right rfl, h0]; rfl

theorem rest_head_text (rest : List (Inl × Bytes)) : (htmlRest rest).head?.any textNode = false := by
  cases rest with
  | nil => rw [htmlRest]; rfl
  | cons x rest => obtain ⟨i, t⟩ := x; rw [htmlRest]; exact inl_html i

theorem rest_apart {st} : ∀ (rest : List (Inl × Bytes)) {ctx : List Around} {v1 : Bytes}, RestOK st ctx v1 rest → apart (htmlRest rest) = true
  | [], _, _, _ => by rw [htmlRest]; rfl
  | (i, t) :: rest, ctx, v1, h => by
    have ih := rest_apart rest h.head.next
    rw [htmlRest, textNodes]
    split
    · rename_i ht
      cases rest with
      | nil => rw [htmlRest]; rfl
      | cons x rest =>
        obtain ⟨j, t'⟩ := x
        have := h.head.apart (by subst ht; rfl) _ rfl
        have ha := inl_alike h.head.elem h.head.next.head.elem this.1 this.2
        rw [htmlRest] at ih ⊢
        rw [List.nil_append, apart, ih, ha, inl_html]; rfl
    · exact apart_text t (text_apart t ih (rest_head_text rest)) (inl_html i)

theorem content_apart {st} {first : Bytes} {rest : List (Inl × Bytes)} {ctx : List Around} {v1 : Bytes} (h : RestOK st ctx v1 rest) :
    apart (textNodes first ++ htmlRest rest) = true := by
  rw [textNodes]
  split
  · exact rest_apart rest h
  · exact text_apart first (rest_apart rest h) (rest_head_text rest)

theorem allWhitespace_oneSpaceAfter {t : Bytes} (h : AllWhitespace t) : ∀ p, AllWhitespace (oneSpaceAfter p t) := by
  obtain ⟨ws, hw, rfl⟩ := h
  induction ws with
  | nil => intro p; exact AllWhitespace.nil
  | cons w ws ih =>
    intro p
    have ih := ih fun w hw' => hw w (by simp [hw'])
    rw [List.flatten_cons, Collapse.oneSpaceAfter_append]
    refine AllWhitespace.append ?_ (ih _)
    have key : ∀ w ∈ whitespace, ∀ p, oneSpaceAfter p w = [] ∨ oneSpaceAfter p w ∈ whitespace := by decide
    rcases key w (hw w (by simp)) p with e | e
    · rw [e]; exact AllWhitespace.nil
    · exact AllWhitespace.word e

theorem leading_blank {t : Bytes} (h : AllWhitespace t) (ht : t ≠ []) : ¬ NoLeadingWhitespace t := by
  obtain ⟨ws, hw, rfl⟩ := h
  cases ws with
  | nil => exact absurd rfl ht
  | cons w ws => intro hl; exact hl w (hw w (by simp)) ⟨ws.flatten, rfl⟩

theorem trailing_blank {t : Bytes} (h : AllWhitespace t) (ht : t ≠ []) : ¬ NoTrailingWhitespace t := by
  obtain ⟨ws, hw, rfl⟩ := h
  rcases List.eq_nil_or_concat ws with e | ⟨ws', w, e⟩
  · subst e; exact absurd rfl ht
  · subst e; intro hl; exact hl w (hw w (by simp)) ⟨ws'.flatten, by simp⟩

theorem not_blank_leading {t : Bytes} (ht : t ≠ []) (h : NoLeadingWhitespace (oneSpace t)) : isEmptyText (.text t) = false := by
  cases e : isEmptyText (.text t) with
  | false => rfl
  | true =>
    simp [isEmptyText, trimSpace_nil_iff] at e
    exact absurd h (leading_blank (allWhitespace_oneSpaceAfter e false) (oneSpace_ne ht))

theorem not_blank_trailing {t : Bytes} (ht : t ≠ []) (h : NoTrailingWhitespace (oneSpace t)) : isEmptyText (.text t) = false := by
  cases e : isEmptyText (.text t) with
  | false => rfl
  | true =>
    simp [isEmptyText, trimSpace_nil_iff] at e
    exact absurd h (trailing_blank (allWhitespace_oneSpaceAfter e false) (oneSpace_ne ht))

theorem html_last : ∀ {rest : List (Inl × Bytes)} {x : Inl × Bytes}, rest.getLast? = some x →
    (htmlRest rest).getLast? = some (if x.2 = [] then x.1.html else .text x.2)
  | [], x, h => by simp at h
  | [(i, t)], x, h => by
    obtain rfl : (i, t) = x := by simpa using h
    rw [htmlRest, htmlRest, textNodes]
    split <;> simp
  | (i, t) :: y :: rest, x, h => by
    have ih := html_last (rest := y :: rest) (x := x) (by simpa using h)
    rw [htmlRest, List.getLast?_cons, List.getLast?_append, ih]
    simp

theorem isEmptyText_html (i : Inl) : isEmptyText i.html = false := by cases i <;> (rw [Inl.html]; rfl)

theorem content_ends {st} {ctx : List Around} {v1 v2 name first : Bytes} {rest : List (Inl × Bytes)} {ctx' : List Around} {v1' : Bytes}
    (h : EmphOK st ctx v1 name first rest v2) (hin : InnerOK first rest) (hr : RestOK st ctx' v1' rest) : calmEnds (textNodes first ++ htmlRest rest) = true := by
  have h1 : ((textNodes first ++ htmlRest rest).head?.any (kindNode DomUtils.isInlineCode)) = false := by
    rw [textNodes]
    split
    · rename_i hf
      cases rest with
      | nil => simp [htmlRest]
      | cons x rest =>
        obtain ⟨i, t⟩ := x
        rw [htmlRest]
        simpa [(inl_kind hr.head.elem).2.1] using h.code_first hf _ rfl
    · rfl
  have h2 : ((textNodes first ++ htmlRest rest).getLast?.any (kindNode DomUtils.isInlineCode)) = false := by
    rcases List.eq_nil_or_concat rest with e | ⟨rs, x, e⟩
    · subst e
      rw [htmlRest, textNodes]
      split <;> rfl
    · rw [List.concat_eq_append] at e
      have hl : rest.getLast? = some x := by rw [e]; simp
      rw [List.getLast?_append, html_last hl]
      simp only [Option.some_or, Option.any_some]
      split
      · rename_i hx
        obtain ⟨v, hv⟩ : ∃ v, Inl.OK st ctx' v (seenText x.2 []) x.1 := by
          subst e
          clear h hin hl h1
          induction rs generalizing v1' with
          | nil => exact ⟨v1', hr.head.elem⟩
          | cons y rs ih => exact ih hr.head.next
        rw [(inl_kind hv).2.1]
        exact h.code_last x hl hx
      · rfl
  rw [calmEnds, h1, h2]
  simp only [Bool.not_false, Bool.true_and]
  by_cases hf : first = []
  · subst hf
    rw [textNodes, if_pos rfl]
    cases rest with
    | nil => exact absurd (hin.nonempty) (by simp)
    | cons x rest =>
      obtain ⟨i, t⟩ := x
      rw [htmlRest, List.nil_append, List.filter_cons, isEmptyText_html]
      simp only [Bool.not_false, if_true]
      cases rest with
      | nil =>
        by_cases ht : t = []
        · subst ht
          rw [htmlRest, textNodes, if_pos rfl]
          simp only [List.append_nil, List.filter_nil]
          rw [(inl_kind hr.head.elem).2.2.2, h.no_link rfl _ rfl rfl]; rfl
        · rw [htmlRest, textNodes, if_neg ht, List.append_nil, List.filter_cons, not_blank_trailing ht (by simpa [lastText] using hin.trailing)]
          rfl
      | cons y rest =>
        obtain ⟨j, t'⟩ := y
        rw [List.filter_append, htmlRest, List.filter_cons, isEmptyText_html]
        simp only [Bool.not_false, if_true]
        split
        · rename_i he
          have := congrArg List.length he
          simp at this
        · rfl
  · rw [textNodes, if_neg hf, List.cons_append, List.filter_cons, not_blank_leading hf hin.leading]
    simp only [Bool.not_false, if_true]
    split
    · rename_i he
      rw [← (List.cons.inj he).1]; rfl
    · rfl

theorem content_nonempty {first : Bytes} {rest : List (Inl × Bytes)} (h : InnerOK first rest) : (textNodes first ++ htmlRest rest).isEmpty = false := by
  rcases h.nonempty with h | h
  · rw [textNodes, if_neg h]; rfl
  · cases rest with
    | nil => exact absurd rfl h
    | cons x rest => obtain ⟨i, t⟩ := x; rw [htmlRest]; simp

mutual
theorem inl_calm {st} : (i : Inl) → ∀ {ctx : List Around} {v1 v2 : Bytes}, Inl.OK st ctx v1 v2 i → calm i.html = true
  | .emph name f r => by
    intro h
    rw [Inl.OK] at h
    obtain ⟨h1, h2, h3, h4, h5, h6, -⟩ := emph_names name h.1.tag
    have key : ∀ n ∈ [b!"strong", b!"b", b!"em", b!"i"], DomUtils.isInlineCode n = false ∧ isStrike n = false := by decide
    have hk := key name h.1.tag
    have e1 := content_nonempty h.2.1
    have e2 : (textNodes f ++ htmlRest r).all leafChild = true := List.all_eq_true.2 (content_leaf h.2.2.2)
    have e3 := content_ends h.1 h.2.1 h.2.2.2
    have e4 := rest_calm r h.2.2.2
    have e5 : calmL (textNodes f) = true := by rw [textNodes]; split <;> rfl
    rw [Inl.html, calm, calmL_append, e4, e5, calmElem, h1, e1, e2, e3, content_apart h.2.2.2, hk.1, hk.2]
    simp [h2, h3, h5, h6]
  | .code c => by
    intro h
    rw [Inl.OK] at h
    rw [Inl.html, calm, calmElem_code h.nonempty]; rfl
  | .link href title f r => by
    intro h
    rw [Inl.OK] at h
    have e0 : isRemoved b!"a" = false ∧ DomUtils.isInlineCode b!"a" = false ∧ isStrike b!"a" = false ∧ isBoldOrItalic b!"a" = false := by decide
    have e1 := content_nonempty h.2.2.2.1
    have e2 : (textNodes f ++ htmlRest r).all leafChild = true := List.all_eq_true.2 (content_leaf h.2.2.2.2.2)
    have e4 := rest_calm r h.2.2.2.2.2
    have e5 : calmL (textNodes f) = true := by rw [textNodes]; split <;> rfl
    rw [Inl.html, calm, calmL_append, e4, e5, calmElem, e1, e2, content_apart h.2.2.2.2.2, e0.1, e0.2.1, e0.2.2.1, e0.2.2.2]
    simp
  | .image src title alt => by
    intro _
    have e : calmElem b!"img" [] = true := by decide
    rw [Inl.html, calm, e]; rfl

theorem rest_calm {st} : (rest : List (Inl × Bytes)) → ∀ {ctx : List Around} {v1 : Bytes}, RestOK st ctx v1 rest → calmL (htmlRest rest) = true
  | [] => by intro _; rw [htmlRest]; rfl
  | (i, t) :: rest => by
    intro h
    have e5 : calmL (textNodes t) = true := by rw [textNodes]; split <;> rfl
    rw [htmlRest, calmL, calmL_append, inl_calm i h.head.elem, rest_calm rest h.head.next, e5]; rfl
end

theorem rich_apart {st f r} (h : RichOK st f r) : apart (textNodes f ++ htmlRest r) = true := content_apart h.elements

theorem rich_calm {st f r} (h : RichOK st f r) : calmL (textNodes f ++ htmlRest r) = true := by
  have e5 : calmL (textNodes f) = true := by rw [textNodes]; split <;> rfl
  rw [calmL_append, rest_calm r h.elements, e5]; rfl

/-! Elements of the same kind are not in each other. -/

/-- The elements around, as far as they are known from `ctx`. -/
structure Known (st : Style) (ctx : List Around) (anc : List Bytes) : Prop where
  emph : ∀ n ∈ [b!"strong", b!"b", b!"em", b!"i"], anc.any (bothBoldOrItalic n) = true → st.around n ∈ ctx
  link : anc.any (bothLink b!"a") = true → .bracket ∈ ctx

theorem both_around (st : Style) : ∀ n ∈ [b!"strong", b!"b", b!"em", b!"i"], ∀ m ∈ [b!"strong", b!"b", b!"em", b!"i"], bothBoldOrItalic n m = true →
    st.around n = st.around m := by
  have key : ∀ n ∈ [b!"strong", b!"b", b!"em", b!"i"], ∀ m ∈ [b!"strong", b!"b", b!"em", b!"i"], bothBoldOrItalic n m = true →
    (n ∈ strongNames ↔ m ∈ strongNames) := by decide
  intro n hn m hm h
  simp only [Style.around, Style.delim, key n hn m hm h]

theorem Known.of_blocks {st : Style} {anc : List Bytes} (h : ∀ n ∈ anc, isInl n = false) : Known st [] anc := by
  constructor
  · intro n _ ha
    rw [List.any_eq_true] at ha
    obtain ⟨m, hm, e⟩ := ha
    have := h m hm
    simp only [isInl, isBoldOrItalic, Bool.or_eq_false_iff] at this
    simp [bothBoldOrItalic, this.1.1.1.1, this.1.1.1.2] at e
  · intro ha
    rw [List.any_eq_true] at ha
    obtain ⟨m, hm, e⟩ := ha
    have := h m hm
    simp only [isInl, Bool.or_eq_false_iff] at this
    simp [bothLink, this.1.2] at e

theorem Known.emph_cons {st : Style} {ctx : List Around} {anc : List Bytes} (h : Known st ctx anc) {name : Bytes} (hn : name ∈ [b!"strong", b!"b", b!"em", b!"i"]) :
    Known st (st.around name :: ctx) (name :: anc) := by
  constructor
  · intro n hn' ha
    rw [List.any_cons, Bool.or_eq_true] at ha
    rcases ha with ha | ha
    · rw [both_around st n hn' name hn ha]; simp
    · exact List.mem_cons_of_mem _ (h.emph n hn' ha)
  · intro ha
    have key : ∀ m ∈ [b!"strong", b!"b", b!"em", b!"i"], bothLink b!"a" m = false := by decide
    rw [List.any_cons, key name hn, Bool.false_or] at ha
    exact List.mem_cons_of_mem _ (h.link ha)

theorem Known.link_cons {st : Style} {ctx : List Around} {anc : List Bytes} (h : Known st ctx anc) : Known st (.bracket :: ctx) (b!"a" :: anc) := by
  constructor
  · intro n hn' ha
    have key : ∀ m ∈ [b!"strong", b!"b", b!"em", b!"i"], bothBoldOrItalic m b!"a" = false := by decide
    rw [List.any_cons, key n hn', Bool.false_or] at ha
    exact List.mem_cons_of_mem _ (h.emph n hn' ha)
  · intro _; simp

/-- The three kinds. -/
def onceAll (anc : List Bytes) (ns : List Node) : Prop :=
  onceL bothBoldOrItalic anc ns = true ∧ onceL bothLink anc ns = true ∧ onceL bothStrike anc ns = true

theorem onceAll_append {anc : List Bytes} {a b : List Node} : onceAll anc (a ++ b) ↔ onceAll anc a ∧ onceAll anc b := by
  simp only [onceAll, onceL_append, Bool.and_eq_true]; grind

theorem onceAll_text (anc : List Bytes) (t : Bytes) : onceAll anc [.text t] := ⟨rfl, rfl, rfl⟩

theorem onceAll_textNodes (anc : List Bytes) (t : Bytes) : onceAll anc (textNodes t) := by
  rw [textNodes]; split
  · exact ⟨rfl, rfl, rfl⟩
  · exact onceAll_text anc t

/-- An element that is not of one of the kinds. -/
theorem onceAll_block {anc : List Bytes} {n : Bytes} {a : List (Bytes × Bytes)} {cs : List Node} (hn : bothBoldOrItalic n n = false ∧ bothLink n n = false ∧ bothStrike n n = false)
    (h : onceAll (n :: anc) cs) : onceAll anc [.elem n a cs] := by
  simp only [onceAll, onceL, once, hn.1, hn.2.1, hn.2.2, h.1, h.2.1, h.2.2]
  simp

mutual
theorem inl_once {st} : (i : Inl) → ∀ {ctx : List Around} {v1 v2 : Bytes}, Inl.OK st ctx v1 v2 i → ∀ {anc : List Bytes}, Known st ctx anc → onceAll anc [i.html]
  | .emph name f r => by
    intro h anc hk
    rw [Inl.OK] at h
    have key : ∀ n ∈ [b!"strong", b!"b", b!"em", b!"i"], bothLink n n = false ∧ bothStrike n n = false := by decide
    have hn := key name h.1.tag
    have hb : anc.any (bothBoldOrItalic name) = false := by
      cases e : anc.any (bothBoldOrItalic name) with
      | false => rfl
      | true => exact absurd (hk.emph name h.1.tag e) h.1.once
    have hc : onceAll (name :: anc) (textNodes f ++ htmlRest r) :=
      onceAll_append.2 ⟨onceAll_textNodes _ _, rest_once r h.2.2.2 (hk.emph_cons h.1.tag)⟩
    rw [Inl.html]
    simp only [onceAll, onceL, once, hn.1, hn.2, hb, hc.1, hc.2.1, hc.2.2]
    simp
  | .code c => by
    intro h anc hk
    rw [Inl.html]
    exact onceAll_block (by decide) (onceAll_text _ _)
  | .link href title f r => by
    intro h anc hk
    rw [Inl.OK] at h
    have hn : bothBoldOrItalic b!"a" b!"a" = false ∧ bothStrike b!"a" b!"a" = false := by decide
    have hb : anc.any (bothLink b!"a") = false := by
      cases e : anc.any (bothLink b!"a") with
      | false => rfl
      | true => exact absurd (hk.link e) h.2.2.1
    have hc : onceAll (b!"a" :: anc) (textNodes f ++ htmlRest r) :=
      onceAll_append.2 ⟨onceAll_textNodes _ _, rest_once r h.2.2.2.2.2 hk.link_cons⟩
    rw [Inl.html]
    simp only [onceAll, onceL, once, hn.1, hn.2, hb, hc.1, hc.2.1, hc.2.2]
    simp
  | .image src title alt => by
    intro h anc hk
    rw [Inl.html]
    exact onceAll_block (by decide) ⟨rfl, rfl, rfl⟩

theorem rest_once {st} : (rest : List (Inl × Bytes)) → ∀ {ctx : List Around} {v1 : Bytes}, RestOK st ctx v1 rest → ∀ {anc : List Bytes}, Known st ctx anc → onceAll anc (htmlRest rest)
  | [] => by intro _ anc _; rw [htmlRest]; exact ⟨rfl, rfl, rfl⟩
  | (i, t) :: rest => by
    intro h anc hk
    rw [htmlRest, ← List.singleton_append, onceAll_append, onceAll_append]
    exact ⟨inl_once i h.head.elem hk, onceAll_textNodes _ _, rest_once rest h.head.next hk⟩
end

theorem rich_once {st f r} (h : RichOK st f r) {anc : List Bytes} (ha : ∀ n ∈ anc, isInl n = false) : onceAll anc (textNodes f ++ htmlRest r) :=
  onceAll_append.2 ⟨onceAll_textNodes _ _, rest_once r h.elements (Known.of_blocks ha)⟩

/-- A block with an element of its own. -/
theorem html_block {bullet b} (h : Block.OK bullet b) (ht : b.isText = false) : ∃ n, b.html = [n] ∧ inlNode n = false ∧ textNode n = false := by
  have := tag_mem h ht
  have key : ∀ m ∈ blockNames, isInl m = false := by decide
  have := key _ this.1
  cases b with
  | text t => simp [Block.isText] at ht
  | run f r => simp [Block.isText] at ht
  | _ => exact ⟨_, by rw [Block.html], by simpa [inlNode, tagOf] using this, rfl⟩

theorem html_apart {bullet b} (h : Block.OK bullet b) : apart b.html = true := by
  cases ht : b.isText with
  | false =>
    obtain ⟨n, e, -⟩ := html_block h ht
    rw [e]; rfl
  | true =>
    cases b with
    | text t => rfl
    | run f r => rw [Block.OK] at h; rw [Block.html]; exact rich_apart h
    | _ => simp [Block.isText] at ht

theorem apart_cons {n : Node} (h1 : inlNode n = false) (h2 : textNode n = false) (b : List Node) : apart (n :: b) = apart b := by
  cases b with
  | nil => rfl
  | cons c b => rw [apart, alike_left h1, h2]; simp

theorem apart_snoc {n : Node} (h1 : inlNode n = false) (h2 : textNode n = false) (b : List Node) :
    ∀ a : List Node, apart (a ++ n :: b) = (apart a && apart b)
  | [] => by rw [List.nil_append, apart_cons h1 h2]; rfl
  | [x] => by rw [List.cons_append, List.nil_append, apart.eq_3, apart_cons h1 h2, alike_right h1, h2]; simp [apart]
  | x :: y :: a => by
    have ih := apart_snoc h1 h2 b (y :: a)
    rw [List.cons_append] at ih
    rw [List.cons_append, List.cons_append, apart, ih, apart]; simp only [Bool.and_assoc]

theorem apart_html {bullet} : ∀ bs : List Block, BlocksOK bullet bs → textsApart bs = true → apart (htmlL bs) = true
  | [], _, _ => by simp [htmlL, apart]
  | [b], h, _ => by rw [BlocksOK] at h; simpa [htmlL] using html_apart h.1
  | a :: b :: bs, h, ht => by
    rw [BlocksOK] at h
    simp only [textsApart, Bool.and_eq_true] at ht
    have ih := apart_html (b :: bs) h.2 ht.2
    rw [htmlL]
    cases ha : a.isText with
    | false =>
      obtain ⟨n, e, g1, g2⟩ := html_block h.1 ha
      rw [e, List.cons_append, List.nil_append, apart_cons g1 g2, ih]
    | true =>
      rw [BlocksOK] at h
      obtain ⟨n, e, g1, g2⟩ := html_block h.2.1 (by have := ht.1; simpa [ha] using this)
      rw [htmlL, e, List.cons_append, List.nil_append] at ih ⊢
      rw [apart_cons g1 g2] at ih
      rw [apart_snoc g1 g2, ih, html_apart h.1]; rfl

theorem calm_single {n : Node} (h : calm n = true) : calmL [n] = true := by rw [calmL, h]; rfl

theorem calm_html {bullet} : (∀ b : Block, Block.OK bullet b → calmL b.html = true) ∧
    (∀ bs : List Block, BlocksOK bullet bs → calmL (htmlL bs) = true) ∧
    (∀ is : List (List Block), ItemsOK bullet is → ∀ gap, (∀ b ∈ gap, isHtmlSpace b = true) → calmL (htmlItems gap is) = true ∧
      ∀ c ∈ htmlItems gap is, isLi c = true ∨ isEmptyText c = true) := by
  apply induct
  · intro t _; simp [Block.html, calmL, calm]
  · intro f r h
    rw [Block.OK] at h
    rw [Block.html]
    exact rich_calm h
  · intro t _
    rw [Block.html]
    exact calm_single <| calm_of (by decide) (by decide) (by decide) (by decide) (.inl (by decide)) (.inl (by decide)) (by simp [apart]) (by simp [calmL, calm])
  · intro f r h
    rw [Block.OK] at h
    rw [Block.html]
    exact calm_single (calm_of (by decide) (by decide) (by decide) (by decide) (.inl (by decide)) (.inl (by decide)) (rich_apart h) (rich_calm h))
  · intro n t h
    rw [Block.OK] at h
    rw [Block.html]
    have hl : ∀ c ∈ [Node.text t], leafChild c = true := by simp [leafChild]
    rcases level_cases h.1 h.2.1 with rfl | rfl | rfl | rfl | rfl | rfl <;>
      exact calm_single <| calm_of (by decide) (by decide) (by decide) (by decide) (.inr hl) (.inl (by decide)) (by simp [apart]) (by simp [calmL, calm])
  · intro n f r h
    rw [Block.OK] at h
    rw [Block.html]
    have hl : ∀ c ∈ textNodes f ++ htmlRest r, leafChild c = true := by
      intro c hc
      rcases List.mem_append.1 hc with hc | hc
      · exact textNodes_leaf f c hc
      · exact rest_leaf r h.2.2.1.elements c hc
    rcases level_cases h.1 h.2.1 with rfl | rfl | rfl | rfl | rfl | rfl <;>
      exact calm_single <| calm_of (by decide) (by decide) (by decide) (by decide) (.inr hl) (.inl (by decide)) (rich_apart h.2.2.1) (rich_calm h.2.2.1)
  · intro _; decide
  · intro l c h
    rw [Block.OK] at h
    rw [Block.html]
    have hc := h.nonempty
    refine calm_single <| calm_of (by decide) (by decide) (by decide) (by decide) (.inr (by simp [leafChild]; decide)) (.inl (by decide)) (by simp [apart]) ?_
    simp only [calmL, calm, Bool.and_true]
    exact calmElem_code hc
  · intro n bs ih h
    rw [Block.OK] at h
    rw [Block.html]
    have key : ∀ m ∈ groupNames, isRemoved m = false ∧ m ≠ b!"span" ∧ m ≠ b!"#document" ∧ isInl m = false ∧
      (getStructure m ≠ .leaf ∧ getStructure m ≠ .inline) ∧ (m ≠ b!"ul" ∧ m ≠ b!"ol") := by decide
    obtain ⟨k1, k2, k3, k4, k5, k6⟩ := key n h.1
    exact calm_single <| calm_of k1 k2 k3 k4 (.inl k5) (.inl k6) (apart_html bs h.2.2 h.2.1) (ih h.2.2)
  · intro bs ih h
    rw [Block.OK] at h
    rw [Block.html]
    exact calm_single <| calm_of (by decide) (by decide) (by decide) (by decide) (.inl (by decide)) (.inl (by decide)) (apart_html bs h.2.1 h.1) (ih h.2.1)
  · intro k g is ih h
    rw [Block.OK] at h
    rw [Block.html]
    have := ih h.2.2.2 g h.1
    cases k with
    | bullet => exact calm_single <| calm_of (by decide) (by decide) (by decide) (by decide) (.inl (by decide)) (.inr this.2) (apart_items g is) this.1
    | ordered s =>
      rw [ListKind.tag]
      exact calm_single <| calm_of (by decide) (by decide) (by decide) (by decide) (.inl (by decide)) (.inr this.2) (apart_items g is) this.1
  · intro _; rfl
  · intro b bs h1 h2 h
    rw [BlocksOK] at h
    rw [htmlL, calmL_append, h1 h.1, h2 h.2]; rfl
  · intro _ gap hg
    simp [htmlItems, calmL, calm, isEmptyText, trimSpace_nil_iff, gap_ws hg]
  · intro i is h1 h2 h gap hg
    rw [ItemsOK] at h
    obtain ⟨g1, g2⟩ := h2 h.2.2 gap hg
    have e : calm (.elem b!"li" [] (htmlL i)) = true :=
      calm_of (by decide) (by decide) (by decide) (by decide) (.inl (by decide)) (.inl (by decide)) (apart_html i h.2.1 h.1) (h1 h.2.1)
    refine ⟨by rw [htmlItems, calmL, calmL, e, g1, calm]; rfl, ?_⟩
    intro c hc
    rw [htmlItems] at hc
    rcases List.mem_cons.1 hc with rfl | hc
    · right; simp [isEmptyText, trimSpace_nil_iff, gap_ws hg]
    · rcases List.mem_cons.1 hc with rfl | hc
      · left; simp [isLi]
      · exact g2 c hc

theorem not_both : ∀ n ∈ blockNames, isInl n = false ∧ bothBoldOrItalic n n = false ∧ bothLink n n = false ∧ bothStrike n n = false := by decide

theorem once_elem {n : Bytes} {a : List (Bytes × Bytes)} {cs : List Node} (hn : n ∈ blockNames)
    (h : ∀ anc : List Bytes, (∀ n ∈ anc, isInl n = false) → onceAll anc cs) {anc : List Bytes} (ha : ∀ n ∈ anc, isInl n = false) : onceAll anc [.elem n a cs] := by
  refine onceAll_block (not_both n hn).2 (h _ ?_)
  intro m hm
  rcases List.mem_cons.1 hm with rfl | hm
  · exact (not_both m hn).1
  · exact ha m hm

theorem once_html {bullet} : (∀ b : Block, Block.OK bullet b → ∀ anc, (∀ n ∈ anc, isInl n = false) → onceAll anc b.html) ∧
    (∀ bs : List Block, BlocksOK bullet bs → ∀ anc, (∀ n ∈ anc, isInl n = false) → onceAll anc (htmlL bs)) ∧
    (∀ is : List (List Block), ItemsOK bullet is → ∀ gap, ∀ anc, (∀ n ∈ anc, isInl n = false) → onceAll anc (htmlItems gap is)) := by
  apply induct
  · intro t _ anc _; rw [Block.html]; exact onceAll_text _ _
  · intro f r h anc ha
    rw [Block.OK] at h
    rw [Block.html]
    exact rich_once h ha
  · intro t h anc ha
    have hm := tag_mem h rfl
    rw [tagOf] at hm
    rw [Block.html]; exact once_elem hm.1 (fun anc _ => onceAll_text anc _) ha
  · intro f r h anc ha
    have hm := tag_mem h rfl
    rw [tagOf] at hm
    rw [Block.OK] at h
    rw [Block.html]; exact once_elem hm.1 (fun anc ha => rich_once h ha) ha
  · intro n t h anc ha
    have hm := tag_mem h rfl
    rw [tagOf] at hm
    rw [Block.html]; exact once_elem hm.1 (fun anc _ => onceAll_text anc _) ha
  · intro n f r h anc ha
    have hm := tag_mem h rfl
    rw [tagOf] at hm
    rw [Block.OK] at h
    rw [Block.html]; exact once_elem hm.1 (fun anc ha => rich_once h.2.2.1 ha) ha
  · intro _ anc ha; rw [Block.html]; exact once_elem (by decide) (fun _ _ => ⟨rfl, rfl, rfl⟩) ha
  · intro l c h anc ha
    rw [Block.html]
    exact once_elem (by decide) (fun anc _ => onceAll_block (by decide) (onceAll_text _ _)) ha
  · intro n bs ih h anc ha
    have hm := tag_mem h rfl
    rw [tagOf] at hm
    rw [Block.OK] at h
    rw [Block.html]; exact once_elem hm.1 (ih h.2.2) ha
  · intro bs ih h anc ha
    rw [Block.OK] at h
    rw [Block.html]; exact once_elem (by decide) (ih h.2.1) ha
  · intro k g is ih h anc ha
    have hm := tag_mem h rfl
    rw [tagOf] at hm
    rw [Block.OK] at h
    rw [Block.html]; exact once_elem hm.1 (ih h.2.2.2 g) ha
  · intro _ anc _; rw [htmlL]; exact ⟨rfl, rfl, rfl⟩
  · intro b bs h1 h2 h anc ha
    rw [BlocksOK] at h
    rw [htmlL]; exact onceAll_append.2 ⟨h1 h.1 anc ha, h2 h.2 anc ha⟩
  · intro _ gap anc _; rw [htmlItems]; exact onceAll_text _ _
  · intro i is h1 h2 h gap anc ha
    rw [ItemsOK] at h
    have e : htmlItems gap (i :: is) = [.text gap] ++ ([.elem b!"li" [] (htmlL i)] ++ htmlItems gap is) := by rw [htmlItems]; rfl
    rw [e, onceAll_append, onceAll_append]
    exact ⟨onceAll_text _ _, once_elem (by decide) (h1 h.2.1) ha, h2 h.2.2 gap anc ha⟩

/-! ## Collapsing white space -/

/-- The text with single spaces and without one in front. -/
def lead (t : Bytes) : Bytes := if (oneSpace t).head? = some 32 then (oneSpace t).tail else oneSpace t

theorem oneSpaceAfter_head : ∀ t : Bytes, (oneSpaceAfter true t).head? ≠ some 32 := by
  intro t
  induction t with
  | nil => simp [oneSpaceAfter]
  | cons b t ih =>
    rw [oneSpaceAfter]
    split
    · simpa using ih
    · rename_i hb
      simp
      rintro rfl
      exact hb rfl

theorem lead_head (t : Bytes) : (lead t).head? ≠ some 32 := by
  rw [lead]
  split
  · rename_i h
    cases t with
    | nil => simp [oneSpace, oneSpaceAfter]
    | cons b t =>
      rw [oneSpace, oneSpaceAfter] at h ⊢
      split
      · simpa using oneSpaceAfter_head t
      · rename_i hb
        rw [if_neg hb] at h
        simp at h
        subst h
        exact absurd rfl hb
  · assumption

theorem shown_eq (t : Bytes) : shown t = Collapse.trimSuffix (lead t) := rfl

theorem shown_nil (t : Bytes) : shown t = [] ↔ lead t = [] := by
  rw [shown_eq, Collapse.trimSuffix]
  split
  · rename_i h
    have hh := lead_head t
    generalize lead t = l at h hh
    match l with
    | [] => simp
    | [b] => simp at h hh; exact absurd h hh
    | b :: c :: l => simp
  · rfl

mutual
/-- Is there no text in an element? -/
def silent : Inl → Bool
  | .emph _ first rest => first.isEmpty && silentRest rest
  | .code _ => false
  | .link _ _ first rest => first.isEmpty && silentRest rest
  | .image _ _ _ => true
/-- The same for elements with texts behind them. -/
def silentRest : List (Inl × Bytes) → Bool
  | [] => true
  | (i, t) :: rest => silent i && (t.isEmpty && silentRest rest)
end

/-- A list is what the walk comes to next. -/
def startsList (next : Bool) : List Block → Bool
  | [] => next
  | .text t :: bs => if shown t = [] then startsList next bs else false
  | .run f r :: bs => if shownFirst f = [] ∧ silentRest r = true then startsList next bs else false
  | .paragraph t :: bs => if shown t = [] then startsList next bs else false
  | .rich f r :: bs => if shownFirst f = [] ∧ silentRest r = true then startsList next bs else false
  | .heading _ _ :: _ => false
  | .richHeading _ f r :: bs => if shownFirst f = [] ∧ silentRest r = true then startsList next bs else false
  | .rule :: _ => false
  | .code _ _ :: _ => false
  | .list _ _ _ :: _ => true
  | .group _ cs :: bs => startsList (startsList next bs) cs
  | .quote cs :: bs => startsList (startsList next bs) cs

/-- The text node with a text, if it is not blank. -/
def textIf (f : Bytes → Bytes) (t : Bytes) : List Node := if shown t = [] then [] else [.text (f t)]

/-- The last text of a paragraph after (a part of) the pre-render handlers, if `f` is what happens to a text that is alone. -/
def lastOf (f : Bytes → Bytes) (t : Bytes) : Bytes := (f (97 :: t)).tail

mutual
/-- An element in a paragraph after the pre-render handlers. -/
def treeInl : Inl → Node
  | .emph name first rest => .elem name [] (textNodes (oneSpace first) ++ treeIn rest)
  | .code c => .elem b!"code" [] [.text c]
  | .link href title first rest => .elem b!"a" ((b!"href", href) :: attrIf b!"title" title) (textNodes (oneSpace first) ++ treeIn rest)
  | .image src title alt => .elem b!"img" ((b!"src", src) :: (attrIf b!"title" title ++ attrIf b!"alt" alt)) []
/-- Elements with texts behind them, in an element. -/
def treeIn : List (Inl × Bytes) → List Node
  | [] => []
  | (i, t) :: rest => treeInl i :: (textNodes (oneSpace t) ++ treeIn rest)
end

/-- Elements with texts behind them, in a block. -/
def treeRest (f : Bytes → Bytes) : List (Inl × Bytes) → List Node
  | [] => []
  | [(i, t)] => treeInl i :: (if t = [] then [] else [.text (lastOf f t)])
  | (i, t) :: rest => treeInl i :: (textNodes (oneSpace t) ++ treeRest f rest)

mutual
/-- A block after (a part of) the pre-render handlers: `f` is applied to the texts, `mark` says whether the comments after lists are there, `next`
that a list follows. -/
def tree (f : Bytes → Bytes) (mark next : Bool) : Block → List Node
  | .text t => textIf f t
  | .run first rest => textNodes (shownFirst first) ++ treeRest f rest
  | .paragraph t => [.elem b!"p" [] (textIf f t)]
  | .rich first rest => [.elem b!"p" [] (textNodes (shownFirst first) ++ treeRest f rest)]
  | .heading n t => [.elem [104, UInt8.ofNat (48 + n)] [] (textIf f t)]
  | .richHeading n first rest => [.elem [104, UInt8.ofNat (48 + n)] [] (textNodes (shownFirst first) ++ treeRest f rest)]
  | .rule => [.elem b!"hr" [] []]
  | .code lang c =>
    [.elem b!"pre" [] [.elem b!"code" (if lang = [] then [] else [(b!"class", b!"language-" ++ lang)]) [.text c]]]
  | .group n bs => [.elem n [] (treeL f mark next bs)]
  | .quote bs => [.elem b!"blockquote" [] (treeL f mark next bs)]
  | .list k _ items => .elem k.tag k.attrs (treeItems f mark items) :: if mark && next then [.comment listEndComment] else []
/-- The same for blocks. -/
def treeL (f : Bytes → Bytes) (mark next : Bool) : List Block → List Node
  | [] => []
  | b :: bs => tree f mark (startsList next bs) b ++ treeL f mark next bs
/-- The same for the items of a list. -/
def treeItems (f : Bytes → Bytes) (mark : Bool) : List (List Block) → List Node
  | [] => []
  | i :: is => .elem b!"li" [] (treeL f mark false i) :: treeItems f mark is
end

/-- The names of the elements in paragraphs. -/
def inlineNames : List Bytes := [b!"strong", b!"b", b!"em", b!"i", b!"code", b!"a", b!"img"]

/-- The elements of a page are blocks, and those in paragraphs are not. -/
def BlockNames (E : Env) : Prop := (∀ n ∈ blockNames, E.tables.isBlock n = true) ∧ ∀ n ∈ inlineNames, E.tables.isBlock n = false

theorem isBlock_name {E : Env} (hE : BlockNames E) {n : Bytes} (h : n ∈ blockNames) : isBlock E n = true := by
  have key : ∀ m ∈ blockNames, isRemoved m = false := by decide
  rw [isBlock, key n h, hE.1 n h]; rfl

theorem isBlock_inline {E : Env} (hE : BlockNames E) {n : Bytes} (h : n ∈ inlineNames) : isBlock E n = false := by
  have key : ∀ m ∈ inlineNames, isRemoved m = false := by decide
  rw [isBlock, key n h, hE.2 n h]; rfl

section
variable {E : Env} (hE : BlockNames E)
include hE

theorem visit_block (s : Collapse.Vars) {n : Bytes} (h : n ∈ blockNames) :
    Collapse.visit (Collapse.baseFuncs (isBlock E)) s n = ⟨none, false⟩ := by
  rw [Collapse.visit, if_pos]
  simp [Collapse.baseFuncs, isBlock_name hE h]

theorem before_block (x : Collapse.Next) {n : Bytes} (h : n ∈ blockNames) :
    Collapse.before (Collapse.baseFuncs (isBlock E)) x n = .block := by
  rw [Collapse.before, if_pos]
  simp [Collapse.baseFuncs, isBlock_name hE h]

theorem first_elem (s : Collapse.Vars) {n : Bytes} (h : n ∈ blockNames) (hp : n ≠ b!"pre") (a : List (Bytes × Bytes)) (cs : List Node) :
    Collapse.first (Collapse.baseFuncs (isBlock E)) s (.elem n a cs) =
      ([.elem n a (Collapse.firstL (Collapse.baseFuncs (isBlock E)) ⟨none, false⟩ cs).1], ⟨none, false⟩) := by
  have hc : n ≠ b!"code" := by rintro rfl; revert h; decide
  rw [Collapse.first, if_neg (by simp [Collapse.baseFuncs, hp, hc])]
  simp only [visit_block hE _ h]

theorem first_elemL (s : Collapse.Vars) {n : Bytes} (h : n ∈ blockNames) (hp : n ≠ b!"pre") (a : List (Bytes × Bytes)) (cs : List Node) :
    Collapse.firstL (Collapse.baseFuncs (isBlock E)) s [.elem n a cs] =
      ([.elem n a (Collapse.firstL (Collapse.baseFuncs (isBlock E)) ⟨none, false⟩ cs).1], ⟨none, false⟩) := by
  rw [Collapse.firstL, first_elem hE s h hp, Collapse.firstL]; rfl

theorem second_elem (x : Collapse.Next) {n : Bytes} (h : n ∈ blockNames) (hp : n ≠ b!"pre") (a : List (Bytes × Bytes)) (cs : List Node) :
    Collapse.second (Collapse.baseFuncs (isBlock E)) x (.elem n a cs) =
      ([.elem n a (Collapse.secondL (Collapse.baseFuncs (isBlock E)) .block cs).1], .block) := by
  have hc : n ≠ b!"code" := by rintro rfl; revert h; decide
  rw [Collapse.second, if_neg (by simp [Collapse.baseFuncs, hp, hc])]
  simp only [before_block hE _ h]

omit hE in
theorem firstText_lead (t : Bytes) : ∃ s, Collapse.firstText ⟨none, false⟩ t = (textIf lead t, s) := by
  rw [Collapse.firstText]
  simp only [Collapse.replaceWs_eq, true_or, true_and]
  have e : (if (oneSpace t).head? = some 32 then (oneSpace t).tail else oneSpace t) = lead t := rfl
  rw [textIf]
  simp only [e, shown_nil]
  by_cases h : lead t = []
  · exact ⟨⟨none, false⟩, by rw [if_pos h, if_pos h]⟩
  · exact ⟨_, by rw [if_neg h, if_neg h]⟩

omit hE in
theorem firstText_blank {t : Bytes} (h : lead t = []) : Collapse.firstText ⟨none, false⟩ t = ([], ⟨none, false⟩) := by
  rw [Collapse.firstText]
  simp only [Collapse.replaceWs_eq, true_or, true_and]
  have e : (if (oneSpace t).head? = some 32 then (oneSpace t).tail else oneSpace t) = lead t := rfl
  simp only [e]
  rw [if_pos h]

omit hE in
theorem lead_gap {gap : Bytes} (h : ∀ b ∈ gap, isHtmlSpace b = true) : lead gap = [] := by
  have key : ∀ g : Bytes, (∀ b ∈ g, isHtmlSpace b = true) → oneSpaceAfter true g = [] := by
    intro g
    induction g with
    | nil => intro _; rfl
    | cons b g ih =>
      intro h
      rw [oneSpaceAfter, if_pos (h b (by simp)), if_pos rfl]
      exact ih fun b hb => h b (by simp [hb])
  cases gap with
  | nil => rfl
  | cons b g =>
    have : oneSpace (b :: g) = [32] := by
      rw [oneSpace, oneSpaceAfter, if_pos (h b (by simp)), if_neg (by simp), key g fun b hb => h b (by simp [hb])]
    rw [lead, this]; rfl

omit hE in
theorem lastOf_lead (t : Bytes) : lastOf lead t = oneSpace t := by
  have : oneSpace (97 :: t) = 97 :: oneSpace t := by rw [oneSpace, oneSpaceAfter, if_neg (by decide)]; rfl
  rw [lastOf, lead, this]; rfl

omit hE in
theorem trimSuffix_cons (t : Bytes) : Collapse.trimSuffix (97 :: t) = 97 :: Collapse.trimSuffix t := by
  cases t with
  | nil => rfl
  | cons b t => rw [Collapse.trimSuffix, Collapse.trimSuffix, List.getLast?_cons_cons]; split <;> rfl

omit hE in
theorem lastOf_shown (t : Bytes) : lastOf shown t = shownLast t := by
  have : oneSpace (97 :: t) = 97 :: oneSpace t := by rw [oneSpace, oneSpaceAfter, if_neg (by decide)]; rfl
  rw [lastOf, shown_eq, lead, this, if_neg (by simp), trimSuffix_cons]; rfl

omit hE in
theorem firstL_append (f : Collapse.DomFuncs) (s : Collapse.Vars) (a b : List Node) :
    Collapse.firstL f s (a ++ b) = ((Collapse.firstL f s a).1 ++ (Collapse.firstL f (Collapse.firstL f s a).2 b).1,
      (Collapse.firstL f (Collapse.firstL f s a).2 b).2) := by
  induction a generalizing s with
  | nil => simp [Collapse.firstL]
  | cons c a ih => simp [Collapse.firstL, ih]

/-- Behind an element of a paragraph. -/
def Behind (s : Collapse.Vars) : Prop := s.prev = some false ∨ s = ⟨none, true⟩

omit hE in
theorem leading_head {t : Bytes} (h : NoLeadingWhitespace t) : t.head? ≠ some 32 := by
  intro hh
  cases t with
  | nil => cases hh
  | cons b r =>
    simp at hh; subst hh
    exact h [32] (by decide) ⟨r, rfl⟩

omit hE in
theorem trailing_last {t : Bytes} (h : NoTrailingWhitespace t) : t.getLast? ≠ some 32 := by
  intro hh
  rcases List.eq_nil_or_concat t with he | ⟨r, b, he⟩
  · rw [he] at hh; cases hh
  · rw [List.concat_eq_append] at he
    rw [he] at hh; simp at hh; subst hh
    exact h [32] (by decide) ⟨r, he.symm⟩

omit hE in
theorem lastText_cons (first : Bytes) (i : Inl) (t : Bytes) (rest : List (Inl × Bytes)) : lastText first ((i, t) :: rest) = lastText t rest := by
  rw [lastText, lastText, List.getLast?_cons]
  cases rest.getLast? <;> rfl

omit hE in
/-- A text that becomes one with single spaces. -/
theorem first_seen {t : Bytes} (s : Collapse.Vars) (hs : Behind s ∨ (oneSpace t).head? ≠ some 32) :
    ∃ s', Collapse.firstL (Collapse.baseFuncs (isBlock E)) s (textNodes t) = (textNodes (oneSpace t), s') ∧
      (t = [] → s' = s) ∧ (t ≠ [] → (oneSpace t).getLast? ≠ some 32 → Behind s') := by
  rw [textNodes]
  by_cases ht : t = []
  · subst ht; exact ⟨s, rfl, fun _ => rfl, fun h => absurd rfl h⟩
  · rw [if_neg ht, textNodes, if_neg (oneSpace_ne ht), Collapse.firstL, Collapse.firstL, Collapse.first, Collapse.firstText]
    simp only [Collapse.replaceWs_eq]
    have e3 : (if (s.prev = none ∨ s.prev = some true) ∧ s.keep = false ∧ (oneSpace t).head? = some 32 then (oneSpace t).tail
        else oneSpace t) = oneSpace t := by
      apply if_neg
      rintro ⟨h1, h2, h3⟩
      rcases hs with (hs | hs) | hs
      · rw [hs] at h1; simp at h1
      · rw [hs] at h2; cases h2
      · exact hs h3
    simp only [e3, if_neg (oneSpace_ne ht)]
    exact ⟨_, rfl, fun h => absurd h ht, fun _ h => .inl (by simp [h])⟩

theorem visit_inline {n : Bytes} (hn : n ∈ inlineNames) (h1 : n ≠ b!"br") (h2 : n ≠ b!"code") (h3 : n ≠ b!"pre") (h4 : n ∉ Collapse.voidElements)
    (s : Collapse.Vars) : Collapse.visit (Collapse.baseFuncs (isBlock E)) s n = if s.prev.isSome then { s with keep := false } else s := by
  rw [Collapse.visit, if_neg (by simp [Collapse.baseFuncs, isBlock_inline hE hn, h1]), if_neg (by simp [Collapse.baseFuncs, h2, h3, h4])]

theorem first_content {n : Bytes} {a : List (Bytes × Bytes)} {first : Bytes} {rest : List (Inl × Bytes)} (hn : n ∈ inlineNames) (h1 : n ≠ b!"br") (h2 : n ≠ b!"code")
    (h3 : n ≠ b!"pre") (h4 : n ∉ Collapse.voidElements) (ht : InnerOK first rest)
    (hr : rest ≠ [] → ∀ s, ∃ s', Collapse.firstL (Collapse.baseFuncs (isBlock E)) s (htmlRest rest) = (treeIn rest, s') ∧ Behind s') (s : Collapse.Vars) :
    ∃ s', Collapse.first (Collapse.baseFuncs (isBlock E)) s (.elem n a (textNodes first ++ htmlRest rest)) =
      ([.elem n a (textNodes (oneSpace first) ++ treeIn rest)], s') ∧ Behind s' := by
  have hb : ∀ s, Behind s → Behind (Collapse.visit (Collapse.baseFuncs (isBlock E)) s n) := by
    intro s hs
    rw [visit_inline hE hn h1 h2 h3 h4]
    rcases hs with hs | hs
    · left; rw [hs]; simp
    · right; subst hs; rfl
  obtain ⟨s1, e1, -, g2⟩ := first_seen (E := E) (t := first) (Collapse.visit (Collapse.baseFuncs (isBlock E)) s n) (.inr (leading_head ht.leading))
  rw [Collapse.first, if_neg (by simp [Collapse.baseFuncs, h2, h3])]
  simp only [firstL_append, e1]
  by_cases h0 : rest = []
  · subst h0
    have hf : first ≠ [] := by simpa using ht.nonempty
    refine ⟨Collapse.visit (Collapse.baseFuncs (isBlock E)) s1 n, ?_, hb _ (g2 hf (trailing_last (by simpa [lastText] using ht.trailing)))⟩
    simp only [htmlRest, treeIn, Collapse.firstL]
  · obtain ⟨s2, e2, g⟩ := hr h0 s1
    exact ⟨_, by rw [e2], hb _ g⟩

mutual
theorem first_inl {st} : (i : Inl) → ∀ {ctx : List Around} {v1 v2 : Bytes}, Inl.OK st ctx v1 v2 i → ∀ s : Collapse.Vars,
    ∃ s', Collapse.first (Collapse.baseFuncs (isBlock E)) s i.html = ([treeInl i], s') ∧ Behind s'
  | .emph name f r => by
    intro h s
    rw [Inl.OK] at h
    obtain ⟨-, -, -, -, -, -, -, -, -, h9, h10, h11, h12⟩ := emph_names name h.1.tag
    rw [Inl.html, treeInl]
    exact first_content hE (by have := h.1.tag; simp [inlineNames] at this ⊢; grind) h9 h10 h11 h12 h.2.1
      (fun h0 => first_in r h.2.2.2 h0 (by have := h.2.1.trailing; rw [lastText] at this ⊢; cases e : r.getLast? with
        | none => exact absurd (List.getLast?_eq_none_iff.1 e) h0
        | some x => rw [e] at this; exact this)) s
  | .code c => by
    intro h s
    refine ⟨⟨none, true⟩, ?_, .inr rfl⟩
    rw [Inl.html, treeInl, Collapse.first, if_pos (by simp [Collapse.baseFuncs]), Collapse.visit,
      if_neg (by simp [Collapse.baseFuncs, isBlock_inline hE (n := b!"code") (by decide)]), if_pos (by simp [Collapse.baseFuncs])]
  | .link href title f r => by
    intro h s
    rw [Inl.OK] at h
    rw [Inl.html, treeInl]
    exact first_content hE (by decide) (by decide) (by decide) (by decide) (by decide) h.2.2.2.1
      (fun h0 => first_in r h.2.2.2.2.2 h0 (by have := h.2.2.2.1.trailing; rw [lastText] at this ⊢; cases e : r.getLast? with
        | none => exact absurd (List.getLast?_eq_none_iff.1 e) h0
        | some x => rw [e] at this; exact this)) s
  | .image src title alt => by
    intro h s
    refine ⟨⟨none, true⟩, ?_, .inr rfl⟩
    have hv : ∀ s, Collapse.visit (Collapse.baseFuncs (isBlock E)) s b!"img" = ⟨none, true⟩ := by
      intro s
      rw [Collapse.visit, if_neg (by simp [Collapse.baseFuncs, isBlock_inline hE (n := b!"img") (by decide)]), if_pos]
      simp [Collapse.baseFuncs, Collapse.voidElements]
    rw [Inl.html, treeInl, Collapse.first, if_neg (by simp [Collapse.baseFuncs])]
    simp only [hv, Collapse.firstL]

theorem first_in {st} : (rest : List (Inl × Bytes)) → ∀ {ctx : List Around} {v1 : Bytes}, RestOK st ctx v1 rest → rest ≠ [] →
    NoTrailingWhitespace (oneSpace (lastText [] rest)) → ∀ s : Collapse.Vars,
    ∃ s', Collapse.firstL (Collapse.baseFuncs (isBlock E)) s (htmlRest rest) = (treeIn rest, s') ∧ Behind s'
  | [] => by intro _ h; exact absurd rfl h
  | (i, t) :: rest => by
    intro h _ ht s
    rw [lastText_cons] at ht
    obtain ⟨s1, e1, hb⟩ := first_inl i h.head.elem s
    obtain ⟨s2, e2, g1, g2⟩ := first_seen (E := E) (t := t) s1 (.inl hb)
    rw [htmlRest, treeIn, Collapse.firstL, e1]
    simp only [firstL_append, e2]
    by_cases h0 : rest = []
    · subst h0
      refine ⟨s2, by simp only [htmlRest, treeIn, Collapse.firstL]; rfl, ?_⟩
      by_cases h1 : t = []
      · rw [g1 h1]; exact hb
      · exact g2 h1 (trailing_last (by simpa [lastText] using ht))
    · obtain ⟨s3, e3, g3⟩ := first_in rest h.head.next h0 (by
        rw [lastText] at ht ⊢
        cases e : rest.getLast? with
        | none => exact absurd (List.getLast?_eq_none_iff.1 e) h0
        | some x => rw [e] at ht; exact ht) s2
      exact ⟨s3, by rw [e3]; rfl, g3⟩
end

theorem first_rest {st} : ∀ (rest : List (Inl × Bytes)) {ctx : List Around} {v1 : Bytes}, RestOK st ctx v1 rest → ∀ s,
    (Collapse.firstL (Collapse.baseFuncs (isBlock E)) s (htmlRest rest)).1 = treeRest lead rest
  | [], _, _, _, _ => by rw [htmlRest]; rfl
  | [(i, t)], ctx, v1, h, s => by
    obtain ⟨s1, e1, hb⟩ := first_inl hE i h.head.elem s
    obtain ⟨s2, e2, -⟩ := first_seen (E := E) (t := t) s1 (.inl hb)
    rw [htmlRest, htmlRest, List.append_nil, Collapse.firstL, e1]
    simp only [e2, treeRest]
    by_cases ht : t = []
    · subst ht; rfl
    · rw [textNodes, if_neg (oneSpace_ne ht), if_neg ht, lastOf_lead]; rfl
  | (i, t) :: y :: rest, ctx, v1, h, s => by
    obtain ⟨s1, e1, hb⟩ := first_inl hE i h.head.elem s
    obtain ⟨s2, e2, -⟩ := first_seen (E := E) (t := t) s1 (.inl hb)
    rw [htmlRest, Collapse.firstL, e1]
    simp only [firstL_append, e2, first_rest (y :: rest) h.head.next s2, treeRest]
    rfl

omit hE in
theorem second_seen {t : Bytes} {n : Collapse.Next} (hn : n = .other ∨ n = .block ∧ t.getLast? ≠ some 32) (f : Collapse.DomFuncs) :
    Collapse.secondL f n (textNodes t) = (textNodes t, if t = [] then n else .other) := by
  rw [textNodes]
  split
  · rfl
  · rcases hn with rfl | ⟨rfl, hn⟩
    · rfl
    · simp [Collapse.secondL, Collapse.second, Collapse.trimSuffix, hn]

omit hE in
theorem secondL_append (f : Collapse.DomFuncs) (n : Collapse.Next) (a b : List Node) :
    Collapse.secondL f n (a ++ b) = ((Collapse.secondL f (Collapse.secondL f n b).2 a).1 ++ (Collapse.secondL f n b).1,
      (Collapse.secondL f (Collapse.secondL f n b).2 a).2) := by
  induction a with
  | nil => simp [Collapse.secondL]
  | cons c a ih => simp [Collapse.secondL, ih]

theorem second_content {m : Bytes} {a : List (Bytes × Bytes)} {first : Bytes} {rest : List (Inl × Bytes)} (hm : m ∈ inlineNames) (h1 : m ≠ b!"br") (h2 : m ≠ b!"code")
    (h3 : m ≠ b!"pre") (h4 : m ∉ Collapse.voidElements) (ht : InnerOK first rest) {n : Collapse.Next} (hn : n ≠ .stop)
    (hr : rest ≠ [] → Collapse.secondL (Collapse.baseFuncs (isBlock E)) n (treeIn rest) = (treeIn rest, .other)) :
    Collapse.second (Collapse.baseFuncs (isBlock E)) n (.elem m a (textNodes (oneSpace first) ++ treeIn rest)) =
      ([.elem m a (textNodes (oneSpace first) ++ treeIn rest)], .other) := by
  have hv : ∀ s, Collapse.before (Collapse.baseFuncs (isBlock E)) s m = s := by
    intro s
    rw [Collapse.before, if_neg (by simp [Collapse.baseFuncs, isBlock_inline hE hm, h1]), if_neg (by simp [Collapse.baseFuncs, h2, h3, h4])]
  rw [Collapse.second, if_neg (by simp [Collapse.baseFuncs, h2, h3])]
  simp only [hv, secondL_append]
  by_cases h0 : rest = []
  · subst h0
    have hf : first ≠ [] := by simpa using ht.nonempty
    have hn' : n = .other ∨ n = .block ∧ (oneSpace first).getLast? ≠ some 32 := by
      cases n with
      | block => exact .inr ⟨rfl, trailing_last (by simpa [lastText] using ht.trailing)⟩
      | stop => exact absurd rfl hn
      | other => exact .inl rfl
    simp only [treeIn, Collapse.secondL, second_seen hn', if_neg (oneSpace_ne hf)]
  · simp only [hr h0, second_seen (n := .other) (.inl rfl), ite_self]

mutual
theorem second_inl {st} : (i : Inl) → ∀ {ctx : List Around} {v1 v2 : Bytes}, Inl.OK st ctx v1 v2 i → ∀ {n : Collapse.Next}, n ≠ .stop →
    Collapse.second (Collapse.baseFuncs (isBlock E)) n (treeInl i) = ([treeInl i], .other)
  | .emph name f r => by
    intro h n hn
    rw [Inl.OK] at h
    obtain ⟨-, -, -, -, -, -, -, -, -, h9, h10, h11, h12⟩ := emph_names name h.1.tag
    rw [treeInl]
    exact second_content hE (by have := h.1.tag; simp [inlineNames] at this ⊢; grind) h9 h10 h11 h12 h.2.1 hn
      (fun h0 => second_in r h.2.2.2 h0 (by have := h.2.1.trailing; rw [lastText] at this ⊢; cases e : r.getLast? with
        | none => exact absurd (List.getLast?_eq_none_iff.1 e) h0
        | some x => rw [e] at this; exact this) hn)
  | .code c => by
    intro h n hn
    rw [treeInl, Collapse.second, if_pos (by simp [Collapse.baseFuncs]), Collapse.before,
      if_neg (by simp [Collapse.baseFuncs, isBlock_inline hE (n := b!"code") (by decide)]), if_pos (by simp [Collapse.baseFuncs])]
  | .link href title f r => by
    intro h n hn
    rw [Inl.OK] at h
    rw [treeInl]
    exact second_content hE (by decide) (by decide) (by decide) (by decide) (by decide) h.2.2.2.1 hn
      (fun h0 => second_in r h.2.2.2.2.2 h0 (by have := h.2.2.2.1.trailing; rw [lastText] at this ⊢; cases e : r.getLast? with
        | none => exact absurd (List.getLast?_eq_none_iff.1 e) h0
        | some x => rw [e] at this; exact this) hn)
  | .image src title alt => by
    intro h n hn
    have hv : ∀ s, Collapse.before (Collapse.baseFuncs (isBlock E)) s b!"img" = .other := by
      intro s
      rw [Collapse.before, if_neg (by simp [Collapse.baseFuncs, isBlock_inline hE (n := b!"img") (by decide)]), if_pos]
      simp [Collapse.baseFuncs, Collapse.voidElements]
    rw [treeInl, Collapse.second, if_neg (by simp [Collapse.baseFuncs])]
    simp only [hv, Collapse.secondL]

theorem second_in {st} : (rest : List (Inl × Bytes)) → ∀ {ctx : List Around} {v1 : Bytes}, RestOK st ctx v1 rest → rest ≠ [] →
    NoTrailingWhitespace (oneSpace (lastText [] rest)) → ∀ {n : Collapse.Next}, n ≠ .stop →
    Collapse.secondL (Collapse.baseFuncs (isBlock E)) n (treeIn rest) = (treeIn rest, .other)
  | [] => by intro _ h; exact absurd rfl h
  | (i, t) :: rest => by
    intro h _ ht n hn
    rw [lastText_cons] at ht
    rw [treeIn, Collapse.secondL]
    by_cases h0 : rest = []
    · subst h0
      have hn' : n = .other ∨ n = .block ∧ (oneSpace t).getLast? ≠ some 32 := by
        cases n with
        | block => exact .inr ⟨rfl, trailing_last (by simpa [lastText] using ht)⟩
        | stop => exact absurd rfl hn
        | other => exact .inl rfl
      have hn2 : (if oneSpace t = [] then n else .other) ≠ .stop := by
        split
        · exact hn
        · simp
      rw [treeIn, List.append_nil, second_seen hn']
      simp only [second_inl i h.head.elem hn2]
      rfl
    · have e := second_in rest h.head.next h0 (by
        rw [lastText] at ht ⊢
        cases e : rest.getLast? with
        | none => exact absurd (List.getLast?_eq_none_iff.1 e) h0
        | some x => rw [e] at ht; exact ht) hn
      simp only [secondL_append, e, second_seen (n := .other) (.inl rfl), ite_self, second_inl i h.head.elem (n := .other) (by simp)]
      rfl
end

theorem second_rest {st} : ∀ (rest : List (Inl × Bytes)) {ctx : List Around} {v1 : Bytes}, RestOK st ctx v1 rest → rest ≠ [] →
    Collapse.secondL (Collapse.baseFuncs (isBlock E)) .block (treeRest lead rest) = (treeRest shown rest, .other)
  | [], _, _, _, h => absurd rfl h
  | [(i, t)], ctx, v1, h, _ => by
    simp only [treeRest]
    split
    · simp [Collapse.secondL, second_inl hE i h.head.elem]
    · have : Collapse.trimSuffix (oneSpace t) = shownLast t := rfl
      simp [Collapse.secondL, Collapse.second, second_inl hE i h.head.elem, lastOf_lead, lastOf_shown, this]
  | (i, t) :: y :: rest, ctx, v1, h, _ => by
    simp only [treeRest, Collapse.secondL, secondL_append, second_rest (y :: rest) h.head.next (by simp), second_seen (n := .other) (.inl rfl), ite_self,
      second_inl hE i h.head.elem (n := .other) (by simp)]
    rfl

omit hE in
theorem first_ahead (F : Collapse.DomFuncs) (f : Bytes) :
    ∃ s', Collapse.firstL F ⟨none, false⟩ (textNodes f) = (textNodes (shownFirst f), s') := by
  by_cases hf : lead f = []
  · have h0 : shownFirst f = [] := hf
    rw [h0, textNodes]
    split
    · exact ⟨_, rfl⟩
    · refine ⟨⟨none, false⟩, ?_⟩
      simp only [Collapse.firstL, Collapse.first, firstText_blank hf]; rfl
  · have h0 : shownFirst f = lead f := rfl
    have hfn : f ≠ [] := by rintro rfl; exact hf rfl
    rw [h0, textNodes, if_neg hfn, textNodes, if_neg hf]
    have e : (if (oneSpace f).head? = some 32 then (oneSpace f).tail else oneSpace f) = lead f := rfl
    simp only [Collapse.firstL, Collapse.first, Collapse.firstText, Collapse.replaceWs_eq, true_or, true_and, e, if_neg hf]
    exact ⟨_, rfl⟩

theorem first_tree {bullet} :
    (∀ b : Block, Block.OK bullet b → ∀ s x, (b.isText = true → s = ⟨none, false⟩) →
      ∃ s', Collapse.firstL (Collapse.baseFuncs (isBlock E)) s b.html = (tree lead false x b, s') ∧ (b.isText = false → s' = ⟨none, false⟩)) ∧
    (∀ bs : List Block, BlocksOK bullet bs → textsApart bs = true → ∀ s x, ((bs.head?.any Block.isText) = true → s = ⟨none, false⟩) →
      (Collapse.firstL (Collapse.baseFuncs (isBlock E)) s (htmlL bs)).1 = treeL lead false x bs) ∧
    (∀ is : List (List Block), ItemsOK bullet is → ∀ gap, (∀ b ∈ gap, isHtmlSpace b = true) →
      (Collapse.firstL (Collapse.baseFuncs (isBlock E)) ⟨none, false⟩ (htmlItems gap is)).1 = treeItems lead false is) := by
  apply induct
  · intro t _ s x hs
    rw [hs rfl]
    obtain ⟨s', h⟩ := firstText_lead t
    exact ⟨s', by rw [Block.html, Collapse.firstL, Collapse.first, h, Collapse.firstL, tree]; simp, by simp [Block.isText]⟩
  · intro f r hok s x hs
    rw [Block.OK] at hok
    rw [hs rfl]
    obtain ⟨s', e⟩ := first_ahead (Collapse.baseFuncs (isBlock E)) f
    refine ⟨(Collapse.firstL (Collapse.baseFuncs (isBlock E)) s' (htmlRest r)).2, ?_, by simp [Block.isText]⟩
    rw [Block.html, tree, firstL_append]
    simp only [e, first_rest hE r hok.elements s']
  · intro t _ s x _
    obtain ⟨s', h⟩ := firstText_lead t
    refine ⟨_, ?_, fun _ => rfl⟩
    rw [Block.html, first_elemL hE _ (by decide) (by decide)]
    simp [Collapse.firstL, Collapse.first, h, tree]
  · intro f r hok s x _
    rw [Block.OK] at hok
    refine ⟨_, ?_, fun _ => rfl⟩
    rw [Block.html, first_elemL hE _ (by decide) (by decide), tree, firstL_append]
    obtain ⟨s', e⟩ := first_ahead (Collapse.baseFuncs (isBlock E)) f
    simp only [e, first_rest hE r hok.elements s']
  · intro n t hok s x _
    obtain ⟨s', h⟩ := firstText_lead t
    have hm := tag_mem hok rfl
    rw [tagOf] at hm
    refine ⟨_, ?_, fun _ => rfl⟩
    rw [Block.html, first_elemL hE _ hm.1 (by simp)]
    simp [Collapse.firstL, Collapse.first, h, tree]
  · intro n f r hok s x _
    have hm := tag_mem hok rfl
    rw [tagOf] at hm
    rw [Block.OK] at hok
    refine ⟨_, ?_, fun _ => rfl⟩
    rw [Block.html, first_elemL hE _ hm.1 (by simp), tree, firstL_append]
    obtain ⟨s', e⟩ := first_ahead (Collapse.baseFuncs (isBlock E)) f
    simp only [e, first_rest hE r hok.2.2.1.elements s']
  · intro _ s x _
    refine ⟨_, ?_, fun _ => rfl⟩
    rw [Block.html, first_elemL hE _ (by decide) (by decide)]
    simp [Collapse.firstL, tree]
  · intro l c _ s x _
    refine ⟨_, ?_, fun _ => rfl⟩
    rw [Block.html, Collapse.firstL, Collapse.first, if_pos (by simp [Collapse.baseFuncs]), visit_block hE _ (by decide), tree]
    rfl
  · intro n bs ih hok s x _
    have hm := tag_mem hok rfl
    rw [tagOf] at hm
    rw [Block.OK] at hok
    refine ⟨_, ?_, fun _ => rfl⟩
    rw [Block.html, first_elemL hE _ hm.1 (by rintro rfl; exact absurd hok.1 (by decide)), ih hok.2.2 hok.2.1 _ x (fun _ => rfl), tree]
  · intro bs ih hok s x _
    have hm := tag_mem hok rfl
    rw [tagOf] at hm
    rw [Block.OK] at hok
    refine ⟨_, ?_, fun _ => rfl⟩
    rw [Block.html, first_elemL hE _ hm.1 (by decide), ih hok.2.1 hok.1 _ x (fun _ => rfl), tree]
  · intro k g is ih hok s x _
    have hm := tag_mem hok rfl
    rw [tagOf] at hm
    rw [Block.OK] at hok
    refine ⟨_, ?_, fun _ => rfl⟩
    rw [Block.html, first_elemL hE _ hm.1 (by cases k <;> simp [ListKind.tag]), ih hok.2.2.2 g hok.1, tree]
    simp
  · intro _ _ s x _; rfl
  · intro b bs h1 h2 hok hap s x hs
    rw [BlocksOK] at hok
    obtain ⟨s', e1, e2⟩ := h1 hok.1 s (startsList x bs) (by simpa using hs)
    have hap' : textsApart bs = true := by cases bs with
      | nil => rfl
      | cons c bs => simp only [textsApart, Bool.and_eq_true] at hap; exact hap.2
    have := h2 hok.2 hap' s' x (by
      intro hh
      apply e2
      cases bs with
      | nil => simp at hh
      | cons c bs =>
        simp only [textsApart, Bool.and_eq_true] at hap
        have := hap.1
        simp at hh
        simpa [hh] using this)
    rw [htmlL, firstL_append, treeL]
    simp only [e1, this]
  · intro _ gap hg
    simp [htmlItems, Collapse.firstL, Collapse.first, firstText_blank (lead_gap hg), treeItems]
  · intro i is h1 h2 hok gap hg
    rw [ItemsOK] at hok
    rw [htmlItems, Collapse.firstL, Collapse.firstL, Collapse.first, firstText_blank (lead_gap hg)]
    simp only
    rw [first_elem hE _ (by decide) (by decide), h1 hok.2.1 hok.1 _ false (fun _ => rfl), treeItems]
    simp only [h2 hok.2.2 gap hg]
    rfl

omit hE in
theorem second_text (t : Bytes) (f : Collapse.DomFuncs) :
    Collapse.secondL f .block (textIf lead t) = (textIf shown t, if shown t = [] then .block else .other) := by
  rw [textIf, textIf]
  split
  · rfl
  · simp [Collapse.secondL, Collapse.second, shown_eq]

theorem second_tree {bullet} :
    (∀ b : Block, Block.OK bullet b → ∀ n x, (b.isText = true → n = .block) →
      ∃ n', Collapse.secondL (Collapse.baseFuncs (isBlock E)) n (tree lead false x b) = (tree shown false x b, n') ∧ (b.isText = false → n' = .block)) ∧
    (∀ bs : List Block, BlocksOK bullet bs → textsApart bs = true → ∀ x,
      ∃ n', Collapse.secondL (Collapse.baseFuncs (isBlock E)) .block (treeL lead false x bs) = (treeL shown false x bs, n') ∧
        ((bs.head?.any Block.isText) = false → n' = .block)) ∧
    (∀ is : List (List Block), ItemsOK bullet is → ∀ n,
      (Collapse.secondL (Collapse.baseFuncs (isBlock E)) n (treeItems lead false is)).1 = treeItems shown false is) := by
  apply induct
  · intro t _ n x hn
    rw [hn rfl, tree, tree, second_text]
    exact ⟨_, rfl, by simp [Block.isText]⟩
  · intro f r hok n x hn
    rw [Block.OK] at hok
    rw [hn rfl]
    refine ⟨(Collapse.secondL (Collapse.baseFuncs (isBlock E)) .other (textNodes (shownFirst f))).2, ?_, by simp [Block.isText]⟩
    have e : ∀ v : Bytes, (Collapse.secondL (Collapse.baseFuncs (isBlock E)) .other (textNodes v)).1 = textNodes v := by
      intro v
      rw [textNodes]
      split <;> rfl
    rw [tree, tree, secondL_append, second_rest hE r hok.elements hok.nonempty]
    simp only [e]
  · intro t _ n x _
    refine ⟨_, ?_, fun _ => rfl⟩
    rw [tree, tree, Collapse.secondL, Collapse.secondL, second_elem hE _ (by decide) (by decide), second_text]
    rfl
  · intro f r hok n x _
    rw [Block.OK] at hok
    refine ⟨_, ?_, fun _ => rfl⟩
    have e : ∀ v : Bytes, (Collapse.secondL (Collapse.baseFuncs (isBlock E)) .other (textNodes v)).1 = textNodes v := by
      intro v
      rw [textNodes]
      split <;> rfl
    rw [tree, tree, Collapse.secondL, Collapse.secondL, second_elem hE _ (by decide) (by decide), secondL_append,
      second_rest hE r hok.elements hok.nonempty]
    simp only [e]
    rfl
  · intro n t hok nx x _
    have hm := tag_mem hok rfl
    rw [tagOf] at hm
    refine ⟨_, ?_, fun _ => rfl⟩
    rw [tree, tree, Collapse.secondL, Collapse.secondL, second_elem hE _ hm.1 (by simp), second_text]
    rfl
  · intro n f r hok nx x _
    have hm := tag_mem hok rfl
    rw [tagOf] at hm
    rw [Block.OK] at hok
    refine ⟨_, ?_, fun _ => rfl⟩
    have e : ∀ v : Bytes, (Collapse.secondL (Collapse.baseFuncs (isBlock E)) .other (textNodes v)).1 = textNodes v := by
      intro v
      rw [textNodes]
      split <;> rfl
    rw [tree, tree, Collapse.secondL, Collapse.secondL, second_elem hE _ hm.1 (by simp), secondL_append,
      second_rest hE r hok.2.2.1.elements hok.2.2.1.nonempty]
    simp only [e]
    rfl
  · intro _ n x _
    refine ⟨_, ?_, fun _ => rfl⟩
    rw [tree, tree, Collapse.secondL, Collapse.secondL, second_elem hE _ (by decide) (by decide)]
    simp [Collapse.secondL]
  · intro l c _ n x _
    refine ⟨_, ?_, fun _ => rfl⟩
    rw [tree, tree, Collapse.secondL, Collapse.secondL, Collapse.second, if_pos (by simp [Collapse.baseFuncs]), before_block hE _ (by decide)]
    rfl
  · intro n bs ih hok nx x _
    have hm := tag_mem hok rfl
    rw [tagOf] at hm
    rw [Block.OK] at hok
    refine ⟨_, ?_, fun _ => rfl⟩
    obtain ⟨n', e, -⟩ := ih hok.2.2 hok.2.1 x
    rw [tree, tree, Collapse.secondL, Collapse.secondL, second_elem hE _ hm.1 (by rintro rfl; exact absurd hok.1 (by decide)), e]
    rfl
  · intro bs ih hok nx x _
    have hm := tag_mem hok rfl
    rw [tagOf] at hm
    rw [Block.OK] at hok
    refine ⟨_, ?_, fun _ => rfl⟩
    obtain ⟨n', e, -⟩ := ih hok.2.1 hok.1 x
    rw [tree, tree, Collapse.secondL, Collapse.secondL, second_elem hE _ hm.1 (by decide), e]
    rfl
  · intro k g is ih hok nx x _
    have hm := tag_mem hok rfl
    rw [tagOf] at hm
    rw [Block.OK] at hok
    refine ⟨_, ?_, fun _ => rfl⟩
    rw [tree, tree]
    simp only [Bool.false_and, Bool.false_eq_true, if_false]
    rw [Collapse.secondL, Collapse.secondL, second_elem hE _ hm.1 (by cases k <;> simp [ListKind.tag]), ih hok.2.2.2]
    rfl
  · intro _ _ x; exact ⟨_, rfl, fun _ => rfl⟩
  · intro b bs h1 h2 hok hap x
    rw [BlocksOK] at hok
    have hap' : textsApart bs = true := by cases bs with
      | nil => rfl
      | cons c bs => simp only [textsApart, Bool.and_eq_true] at hap; exact hap.2
    obtain ⟨n1, e1, e2⟩ := h2 hok.2 hap' x
    obtain ⟨n2, e3, e4⟩ := h1 hok.1 n1 (startsList x bs) (by
      intro hb
      apply e2
      cases bs with
      | nil => rfl
      | cons c bs =>
        simp only [textsApart, Bool.and_eq_true] at hap
        have := hap.1
        simpa [hb] using this)
    refine ⟨n2, ?_, by simpa using e4⟩
    rw [treeL, treeL, secondL_append, e1, e3]
  · intro _ n; rfl
  · intro i is h1 h2 hok n
    rw [ItemsOK] at hok
    obtain ⟨n', e, -⟩ := h1 hok.2.1 hok.1 false
    rw [treeItems, treeItems, Collapse.secondL]
    rw [second_elem hE _ (by decide) (by decide), e, h2 hok.2.2]
    rfl

/-! ## The comments after lists -/

omit hE in
theorem startsList_cons (next : Bool) (b : Block) (bs : List Block) : startsList next (b :: bs) = startsList (startsList next bs) [b] := by
  cases b <;> simp [startsList]

omit hE in
theorem next_op {n : Bytes} (h1 : isListName n = false) (h2 : n ≠ b!"li") (h3 : n ≠ b!"hr") (evs : List Ev) :
    nextIsList (.op n :: evs) = nextIsList evs := by
  rw [nextIsList, h1, if_neg (by simp), if_neg h2, if_neg h3]

omit hE in
theorem next_cl (n : Bytes) (evs : List Ev) : nextIsList (.cl n :: evs) = nextIsList evs := rfl

omit hE in
theorem eventsL_append (a b : List Node) : eventsL (a ++ b) = eventsL a ++ eventsL b := by
  induction a with
  | nil => simp [eventsL]
  | cons x a ih => simp [eventsL, ih]

omit hE in
theorem isListName_tag (k : ListKind) : isListName k.tag = true := by cases k <;> (rw [ListKind.tag]; decide)

omit hE in
theorem next_text (t : Bytes) (evs : List Ev) : nextIsList (eventsL (textNodes t) ++ evs) = (t.isEmpty && nextIsList evs) := by
  rw [textNodes]
  split
  · rename_i h; subst h; simp [eventsL]
  · rename_i h
    cases t with
    | nil => exact absurd rfl h
    | cons b t => rfl

omit hE in
theorem oneSpace_isEmpty (t : Bytes) : (oneSpace t).isEmpty = t.isEmpty := by
  cases t with
  | nil => rfl
  | cons b t =>
    have := oneSpace_ne (t := b :: t) (by simp)
    simpa using this

omit hE in
mutual
theorem next_inl {st} : (i : Inl) → ∀ {ctx : List Around} {v1 v2 : Bytes}, Inl.OK st ctx v1 v2 i → ∀ evs,
    nextIsList (events (treeInl i) ++ evs) = (silent i && nextIsList evs)
  | .emph name f r => by
    intro h evs
    rw [Inl.OK] at h
    obtain ⟨-, -, -, -, -, -, g1, g2, g3, -⟩ := emph_names name h.1.tag
    rw [treeInl, events, eventsL_append, silent]
    simp only [List.cons_append, List.append_assoc, List.nil_append]
    rw [next_op g1 g2 g3, next_text, next_in r h.2.2.2, next_cl, oneSpace_isEmpty, Bool.and_assoc]
  | .code c => by
    intro h evs
    rw [treeInl, silent]
    simp only [eventsL, events, List.append_nil, List.cons_append, List.nil_append]
    rw [next_op (by decide) (by decide) (by decide), nextIsList]; rfl
  | .link a b f r => by
    intro h evs
    rw [Inl.OK] at h
    rw [treeInl, events, eventsL_append, silent]
    simp only [List.cons_append, List.append_assoc, List.nil_append]
    rw [next_op (by decide) (by decide) (by decide), next_text, next_in r h.2.2.2.2.2, next_cl, oneSpace_isEmpty, Bool.and_assoc]
  | .image a b c => by
    intro h evs
    rw [treeInl, silent]
    simp only [eventsL, events, List.append_nil, List.cons_append, List.nil_append]
    rw [next_op (by decide) (by decide) (by decide), next_cl]; rfl
theorem next_in {st} : (rest : List (Inl × Bytes)) → ∀ {ctx : List Around} {v1 : Bytes}, RestOK st ctx v1 rest → ∀ evs,
    nextIsList (eventsL (treeIn rest) ++ evs) = (silentRest rest && nextIsList evs)
  | [] => by intro _ evs; rw [treeIn, silentRest]; rfl
  | (i, t) :: rest => by
    intro h evs
    rw [treeIn, eventsL, eventsL_append, List.append_assoc, List.append_assoc, next_inl i h.head.elem, next_text, next_in rest h.head.next, oneSpace_isEmpty,
      silentRest, Bool.and_assoc, Bool.and_assoc]
end

omit hE in
theorem next_elements {st} : (rest : List (Inl × Bytes)) → ∀ {ctx : List Around} {v1 : Bytes}, RestOK st ctx v1 rest → ∀ evs,
    nextIsList (eventsL (treeRest shown rest) ++ evs) = (silentRest rest && nextIsList evs)
  | [], _, _, _, _ => by rw [treeRest, silentRest]; rfl
  | [(i, t)], ctx, v1, h, evs => by
    simp only [treeRest]
    rw [eventsL, List.append_assoc, next_inl i h.head.elem, silentRest, silentRest]
    split
    · rename_i ht; subst ht; simp [eventsL]
    · rename_i ht
      cases t with
      | nil => exact absurd rfl ht
      | cons b t => simp [eventsL, events, nextIsList]
  | (i, t) :: y :: rest, ctx, v1, h, evs => by
    rw [treeRest, eventsL, eventsL_append, List.append_assoc, List.append_assoc, next_inl i h.head.elem, next_text, next_elements (y :: rest) h.head.next,
      oneSpace_isEmpty]
    · have : silentRest ((i, t) :: y :: rest) = (silent i && (t.isEmpty && silentRest (y :: rest))) := by rw [silentRest]
      rw [this, Bool.and_assoc, Bool.and_assoc]
    · simp

omit hE in
theorem next_rest {st} {f : Bytes} {r : List (Inl × Bytes)} (hok : RichOK st f r) (after : List Ev) :
    nextIsList (eventsL (textNodes (shownFirst f)) ++ (eventsL (treeRest shown r) ++ after)) =
      startsList (nextIsList after) [.rich f r] := by
  rw [startsList, startsList, next_text, next_elements r hok.elements]
  by_cases h0 : shownFirst f = []
  · rw [h0]
    cases silentRest r <;> simp
  · rw [if_neg (fun h => h0 h.1)]
    simp [h0]

omit hE in
theorem next_tree {bullet} :
    (∀ b : Block, Block.OK bullet b → ∀ x after, nextIsList (eventsL (tree shown false x b) ++ after) = startsList (nextIsList after) [b]) ∧
    (∀ bs : List Block, BlocksOK bullet bs → ∀ x after, nextIsList (eventsL (treeL shown false x bs) ++ after) = startsList (nextIsList after) bs) ∧
    (∀ _ : List (List Block), True) := by
  apply induct
  · intro t _ x after
    rw [tree, textIf, startsList, startsList]
    split <;> rfl
  · intro f r hok x after
    rw [Block.OK] at hok
    rw [tree, eventsL_append, List.append_assoc, next_rest hok, startsList, startsList, startsList, startsList]
  · intro t _ x after
    rw [tree, textIf, startsList, startsList]
    simp only [eventsL, events, List.append_nil, List.cons_append, List.append_assoc]
    rw [next_op (by decide) (by decide) (by decide)]
    split <;> rfl
  · intro f r hok x after
    rw [Block.OK] at hok
    rw [tree]
    simp only [eventsL, events, List.append_nil, List.cons_append, List.append_assoc, eventsL_append]
    rw [next_op (by decide) (by decide) (by decide)]
    rw [next_rest hok, List.nil_append, next_cl]
  · intro n t hok x after
    rw [Block.OK] at hok
    rw [tree, textIf, startsList, if_neg hok.2.2.1]
    simp only [eventsL, events, List.append_nil, List.cons_append, List.append_assoc]
    rw [next_op _ (by simp) _]
    · rfl
    · rcases level_cases hok.1 hok.2.1 with rfl | rfl | rfl | rfl | rfl | rfl <;> decide
    · rcases level_cases hok.1 hok.2.1 with rfl | rfl | rfl | rfl | rfl | rfl <;> decide
  · intro n f r hok x after
    rw [Block.OK] at hok
    rw [tree]
    simp only [eventsL, events, List.append_nil, List.cons_append, List.append_assoc, eventsL_append]
    rw [next_op _ (by simp) _]
    · rw [next_rest hok.2.2.1, List.nil_append, next_cl, startsList, startsList, startsList, startsList]
    · rcases level_cases hok.1 hok.2.1 with rfl | rfl | rfl | rfl | rfl | rfl <;> decide
    · rcases level_cases hok.1 hok.2.1 with rfl | rfl | rfl | rfl | rfl | rfl <;> decide
  · intro _ x after; rw [tree, startsList]; rfl
  · intro l c _ x after
    rw [tree, startsList]
    simp only [eventsL, events, List.append_nil, List.cons_append]
    rw [next_op (by decide) (by decide) (by decide), next_op (by decide) (by decide) (by decide)]
    rfl
  · intro n bs ih hok x after
    rw [Block.OK] at hok
    rw [tree, startsList, startsList]
    simp only [eventsL, events, List.append_nil, List.cons_append, List.append_assoc]
    have key : ∀ m ∈ groupNames, isListName m = false ∧ m ≠ b!"li" ∧ m ≠ b!"hr" := by decide
    obtain ⟨k1, k2, k3⟩ := key n hok.1
    rw [next_op k1 k2 k3, ih hok.2.2, List.nil_append, next_cl]
  · intro bs ih hok x after
    rw [Block.OK] at hok
    rw [tree, startsList, startsList]
    simp only [eventsL, events, List.append_nil, List.cons_append, List.append_assoc]
    rw [next_op (by decide) (by decide) (by decide), ih hok.2.1, List.nil_append, next_cl]
  · intro k g is _ hok x after
    rw [tree, startsList]
    simp only [eventsL, events, List.cons_append]
    rw [nextIsList, if_pos (isListName_tag k)]
  · intro _ x after; rw [treeL, startsList]; rfl
  · intro b bs h1 h2 hok x after
    rw [BlocksOK] at hok
    rw [treeL, eventsL_append, List.append_assoc, h1 hok.1, h2 hok.2, ← startsList_cons]
  · trivial
  · intros; trivial

omit hE in
theorem addListEnd_cons {n : Node} (h : isListName n.name = false) (after : List Ev) (ns : List Node) :
    addListEndL after (n :: ns) = addListEndIn (eventsL ns ++ after) n :: addListEndL after ns := by
  rw [addListEndL, h]; rfl

omit hE in
theorem list_text (after : List Ev) (t : Bytes) (ns : List Node) : addListEndL after (.text t :: ns) = .text t :: addListEndL after ns := by
  rw [addListEnd_cons (by rw [Node.name]; decide), addListEndIn]

omit hE in
theorem list_textNodes (after : List Ev) (t : Bytes) (ns : List Node) : addListEndL after (textNodes t ++ ns) = textNodes t ++ addListEndL after ns := by
  rw [textNodes]
  split
  · rfl
  · rw [List.cons_append, List.nil_append, list_text]; rfl

omit hE in
mutual
theorem list_inl {st} : (i : Inl) → ∀ {ctx : List Around} {v1 v2 : Bytes}, Inl.OK st ctx v1 v2 i → ∀ after ns,
    addListEndL after (treeInl i :: ns) = treeInl i :: addListEndL after ns
  | .emph n f r => by
    intro h after ns
    rw [Inl.OK] at h
    obtain ⟨-, -, -, -, -, -, g1, -⟩ := emph_names n h.1.tag
    rw [treeInl, addListEnd_cons (by rw [Node.name]; exact g1), addListEndIn, list_textNodes]
    have := list_in r h.2.2.2 (.cl n :: (eventsL ns ++ after)) []
    simp only [List.append_nil, addListEndL] at this
    rw [this]
  | .code c => by
    intro h after ns
    rw [treeInl, addListEnd_cons (by rw [Node.name]; decide), addListEndIn, addListEnd_cons (by rw [Node.name]; decide), addListEndIn]
    rfl
  | .link a b f r => by
    intro h after ns
    rw [Inl.OK] at h
    rw [treeInl, addListEnd_cons (by rw [Node.name]; decide), addListEndIn, list_textNodes]
    have := list_in r h.2.2.2.2.2 (.cl b!"a" :: (eventsL ns ++ after)) []
    simp only [List.append_nil, addListEndL] at this
    rw [this]
  | .image a b c => by
    intro h after ns
    rw [treeInl, addListEnd_cons (by rw [Node.name]; decide), addListEndIn]
    rfl
theorem list_in {st} : (rest : List (Inl × Bytes)) → ∀ {ctx : List Around} {v1 : Bytes}, RestOK st ctx v1 rest → ∀ after ns,
    addListEndL after (treeIn rest ++ ns) = treeIn rest ++ addListEndL after ns
  | [] => by intro _ after ns; rw [treeIn]; rfl
  | (i, t) :: rest => by
    intro h after ns
    rw [treeIn, List.cons_append, list_inl i h.head.elem, List.append_assoc, list_textNodes, list_in rest h.head.next, List.cons_append, List.append_assoc]
end

omit hE in
theorem list_elements {st} : ∀ (r : List (Inl × Bytes)) {ctx : List Around} {v1 : Bytes}, RestOK st ctx v1 r → ∀ after ns,
    addListEndL after (treeRest shown r ++ ns) = treeRest shown r ++ addListEndL after ns
  | [], _, _, _, _, _ => rfl
  | [(i, t)], ctx, v1, h, after, ns => by
    simp only [treeRest]
    rw [List.cons_append, list_inl i h.head.elem]
    split
    · rfl
    · rw [List.cons_append, list_text]; rfl
  | (i, t) :: y :: rest, ctx, v1, h, after, ns => by
    rw [treeRest, List.cons_append, list_inl i h.head.elem, List.append_assoc, list_textNodes, list_elements (y :: rest) h.head.next, List.cons_append, List.append_assoc]
    simp

omit hE in
theorem list_rest' {st} {f : Bytes} {r : List (Inl × Bytes)} (hok : RichOK st f r) (after : List Ev) (ns : List Node) :
    addListEndL after (textNodes (shownFirst f) ++ treeRest shown r ++ ns) = textNodes (shownFirst f) ++ treeRest shown r ++ addListEndL after ns := by
  rw [List.append_assoc, list_textNodes, list_elements r hok.elements, List.append_assoc]

omit hE in
theorem list_rest {st} {f : Bytes} {r : List (Inl × Bytes)} (hok : RichOK st f r) (after : List Ev) :
    addListEndL after (textNodes (shownFirst f) ++ treeRest shown r) = textNodes (shownFirst f) ++ treeRest shown r := by
  simpa [addListEndL] using list_rest' hok after []

omit hE in
theorem list_tree {bullet} :
    (∀ b : Block, Block.OK bullet b → ∀ x after ns, addListEndL after (tree shown false x b ++ ns) =
      tree shown true (nextIsList (eventsL ns ++ after)) b ++ addListEndL after ns) ∧
    (∀ bs : List Block, BlocksOK bullet bs → ∀ x after, addListEndL after (treeL shown false x bs) = treeL shown true (nextIsList after) bs) ∧
    (∀ is : List (List Block), ItemsOK bullet is → ∀ after, nextIsList after = false →
      addListEndL after (treeItems shown false is) = treeItems shown true is) := by
  apply induct
  · intro t _ x after ns
    rw [tree, tree, textIf]
    split
    · rfl
    · rw [List.cons_append, List.nil_append, addListEnd_cons (by rw [Node.name]; decide), addListEndIn]; rfl
  · intro f r hok x after ns
    rw [Block.OK] at hok
    rw [tree, tree, list_rest' hok]
  · intro t _ x after ns
    rw [tree, tree, textIf, List.cons_append, List.nil_append, addListEnd_cons (by rw [Node.name]; decide), addListEndIn]
    split
    · rfl
    · rw [addListEnd_cons (by rw [Node.name]; decide), addListEndIn]; rfl
  · intro f r hok x after ns
    rw [Block.OK] at hok
    rw [tree, tree, List.cons_append, List.nil_append, addListEnd_cons (by rw [Node.name]; decide), addListEndIn, list_rest hok]
    rfl
  · intro n t hok x after ns
    rw [Block.OK] at hok
    have hn : isListName [104, UInt8.ofNat (48 + n)] = false := by
      rcases level_cases hok.1 hok.2.1 with rfl | rfl | rfl | rfl | rfl | rfl <;> decide
    rw [tree, tree, textIf, List.cons_append, List.nil_append, addListEnd_cons (by rw [Node.name]; exact hn), addListEndIn]
    split
    · rfl
    · rw [addListEnd_cons (by rw [Node.name]; decide), addListEndIn]; rfl
  · intro n f r hok x after ns
    rw [Block.OK] at hok
    have hn : isListName [104, UInt8.ofNat (48 + n)] = false := by
      rcases level_cases hok.1 hok.2.1 with rfl | rfl | rfl | rfl | rfl | rfl <;> decide
    rw [tree, tree, List.cons_append, List.nil_append, addListEnd_cons (by rw [Node.name]; exact hn), addListEndIn, list_rest hok.2.2.1]
    rfl
  · intro _ x after ns
    rw [tree, tree, List.cons_append, List.nil_append, addListEnd_cons (by rw [Node.name]; decide), addListEndIn]
    rfl
  · intro l c _ x after ns
    rw [tree, tree, List.cons_append, List.nil_append, addListEnd_cons (by rw [Node.name]; decide), addListEndIn,
      addListEnd_cons (by rw [Node.name]; decide), addListEndIn, addListEnd_cons (by rw [Node.name]; decide), addListEndIn]
    rfl
  · intro n bs ih hok x after ns
    rw [Block.OK] at hok
    have key : ∀ m ∈ groupNames, isListName m = false := by decide
    rw [tree, tree, List.cons_append, List.nil_append, addListEnd_cons (by rw [Node.name]; exact key n hok.1), addListEndIn, ih hok.2.2, next_cl]
    rfl
  · intro bs ih hok x after ns
    rw [Block.OK] at hok
    rw [tree, tree, List.cons_append, List.nil_append, addListEnd_cons (by rw [Node.name]; decide), addListEndIn, ih hok.2.1, next_cl]
    rfl
  · intro k g is ih hok x after ns
    rw [Block.OK] at hok
    rw [tree, tree]
    simp only [Bool.false_and, Bool.false_eq_true, if_false, Bool.true_and]
    rw [List.cons_append, List.nil_append, addListEndL, Node.name, isListName_tag]
    cases h : nextIsList (eventsL ns ++ after) with
    | true =>
      rw [Bool.true_and, if_pos rfl, if_pos rfl, addListEndIn, ih hok.2.2.2]
      · rfl
      · rfl
    | false =>
      rw [Bool.true_and, if_neg (by simp), if_neg (by simp), addListEndIn, ih hok.2.2.2]
      · rfl
      · exact h
  · intro _ x after; rfl
  · intro b bs h1 h2 hok x after
    rw [BlocksOK] at hok
    rw [treeL, h1 hok.1, h2 hok.2, treeL, (next_tree).2.1 bs hok.2]
  · intro _ after _; rfl
  · intro i is h1 h2 hok after ha
    rw [ItemsOK] at hok
    rw [treeItems, treeItems, addListEnd_cons (by rw [Node.name]; decide), addListEndIn, h1 hok.2.1, h2 hok.2.2 _ ha]
    congr 3
    rw [next_cl]
    cases is with
    | nil => exact ha
    | cons j is => rfl

/-- The page after the pre-render handlers. -/
theorem preRender_page {bullet} (hc : E.cfg.disableListEndComment = false) {bs : List Block} (h : PageOK bullet bs) (headNodes : List Node) :
    preRender E (htmlPage headNodes bs) =
      .document [.elem b!"html" [] [.elem b!"body" [] (treeL shown true false bs)]] := by
  have hb : calm (.elem b!"body" [] (htmlL bs)) = true :=
    calm_of (by decide) (by decide) (by decide) (by decide) (.inl (by decide)) (.inl (by decide)) (apart_html bs h.2 h.1) (calm_html.2.1 bs h.2)
  have hh : calm (.elem b!"html" [] [.elem b!"body" [] (htmlL bs)]) = true :=
    calm_of (by decide) (by decide) (by decide) (by decide) (.inl (by decide)) (.inl (by decide)) rfl (by rw [calmL, hb]; rfl)
  have hL : calmL [.elem b!"html" [] [.elem b!"body" [] (htmlL bs)]] = true := by rw [calmL, hh]; rfl
  have ho : onceAll [b!"#document"] [.elem b!"html" [] [.elem b!"body" [] (htmlL bs)]] :=
    once_elem (by decide) (fun anc ha => once_elem (by decide) (once_html.2.1 bs h.2) ha) (by decide)
  have e1 : preRenderRemove isRemoved (htmlPage headNodes bs) = .document [.elem b!"html" [] [.elem b!"body" [] (htmlL bs)]] := by
    have e : removeIn isRemoved (htmlPage headNodes bs) = .document [.elem b!"html" [] [.elem b!"body" [] (htmlL bs)]] := by
      have r1 : removeInL isRemoved [.elem b!"head" [] headNodes, .elem b!"body" [] (htmlL bs)] = [.elem b!"body" [] (htmlL bs)] := by
        rw [removeInL, if_pos (by rw [Node.name]; decide), removeInL, if_neg (by rw [Node.name]; decide), removeIn_calm.1 _ hb, removeInL]
      rw [htmlPage, removeIn, removeInL, if_neg (by rw [Node.name]; decide), removeIn, r1, removeInL]
    rw [preRenderRemove, if_neg (by rw [htmlPage, Node.name]; decide), e, mergeText, (mergeText_calm.2 _ hL rfl).1]
  rw [preRender]
  simp only [e1]
  rw [handlePreRender_calm _ hL rfl ho.1 ho.2.1, strikePreRender_calm _ hL rfl ho.2.2, hc]
  have e2 : Collapse.collapse (Collapse.baseFuncs (isBlock E)) (.document [.elem b!"html" [] [.elem b!"body" [] (htmlL bs)]]) =
      .document [.elem b!"html" [] [.elem b!"body" [] (treeL shown false false bs)]] := by
    have f1 : ∀ (s : Collapse.Vars) (n : Bytes) (cs : List Node), n ∈ blockNames → n ≠ b!"pre" →
        (Collapse.firstL (Collapse.baseFuncs (isBlock E)) s [.elem n [] cs]).1 =
          [.elem n [] (Collapse.firstL (Collapse.baseFuncs (isBlock E)) ⟨none, false⟩ cs).1] := by
      intro s n cs h1 h2
      rw [Collapse.firstL, first_elem hE _ h1 h2, Collapse.firstL]
      rfl
    have f2 : ∀ (s : Collapse.Next) (n : Bytes) (cs : List Node), n ∈ blockNames → n ≠ b!"pre" →
        (Collapse.secondL (Collapse.baseFuncs (isBlock E)) s [.elem n [] cs]).1 =
          [.elem n [] (Collapse.secondL (Collapse.baseFuncs (isBlock E)) .block cs).1] := by
      intro s n cs h1 h2
      rw [Collapse.secondL, Collapse.secondL, second_elem hE _ h1 h2]
      rfl
    obtain ⟨n', e, -⟩ := (second_tree hE).2.1 bs h.2 h.1 false
    rw [Collapse.collapse, if_neg (by simp [Collapse.baseFuncs]), Collapse.children, f1 _ _ _ (by decide) (by decide),
      f1 _ _ _ (by decide) (by decide), (first_tree hE).2.1 bs h.2 h.1 _ false (fun _ => rfl), f2 _ _ _ (by decide) (by decide),
      f2 _ _ _ (by decide) (by decide), e]
  rw [e2, if_neg (by simp), addListEndComments, addListEndIn, addListEnd_cons (by rw [Node.name]; decide), addListEndIn,
    addListEnd_cons (by rw [Node.name]; decide), addListEndIn, list_tree.2.1 bs h.2]
  rfl

end

end Verif.Page
