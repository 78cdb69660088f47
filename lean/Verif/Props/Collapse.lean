import Verif.Proofs.CollapseFlow
/-!
# Properties of collapsing white space (C43-C45, C73)
-/
set_option linter.unusedSimpArgs false

namespace Verif.Props
open Verif Verif.Collapse Verif.Spec Verif.Dom

/-! ## C43 -/

/-- **C43**: each run of white space is replaced by one space. -/
theorem c43_runs (s : Bytes) : replaceWs s = oneSpace s := replaceWs_eq s

/-- **C43**: afterwards there is no white space but single spaces, and doing it twice is doing it once. -/
theorem c43_result (s : Bytes) :
    (∀ b ∈ replaceWs s, b ≠ 9 ∧ b ≠ 10 ∧ b ≠ 13) ∧ ¬ b!"  " <:+: replaceWs s ∧ replaceWs (replaceWs s) = replaceWs s := by
  have ht : Tidy false (replaceWs s) := by rw [replaceWs_eq]; exact oneSpaceAfter_tidy s false
  have hall : ∀ (t : Bytes) (p : Bool), Tidy p t → (∀ b ∈ t, b ≠ 9 ∧ b ≠ 10 ∧ b ≠ 13) ∧ ∀ l r, t ≠ l ++ 32 :: 32 :: r := by
    intro t
    induction t with
    | nil => intro p _; exact ⟨by simp, by simp⟩
    | cons x t ih =>
      intro p h
      obtain ⟨h1, h2⟩ := h
      obtain ⟨i1, i2⟩ := ih _ h2
      refine ⟨?_, ?_⟩
      · intro b hb
        rcases List.mem_cons.1 hb with rfl | hb
        · by_cases hs : isHtmlSpace b = true
          · rw [(h1 hs).1]; decide
          · refine ⟨?_, ?_, ?_⟩ <;> (rintro rfl; exact hs (by decide))
        · exact i1 b hb
      · intro l r he
        cases l with
        | nil =>
          simp at he
          obtain ⟨rfl, rfl⟩ := he
          have := (h2.1 (by decide)).2
          revert this; decide
        | cons y l =>
          simp at he
          exact i2 l r he.2
  refine ⟨(hall _ _ ht).1, ?_, ?_⟩
  · rintro ⟨l, r, h⟩
    exact (hall _ _ ht).2 l r (by rw [← h]; simp)
  · conv => lhs; rw [replaceWs_eq]
    exact tidy_oneSpaceAfter _ _ ht

/-- **C43**: no visible character is lost or added. -/
theorem c43_visible (s : Bytes) : visible (replaceWs s) = visible s := by rw [replaceWs_eq, visible_oneSpace]

example : replaceWs b!"  a \t\r\nb c \n" = b!" a b c " := by decide

/-! ## C44 -/

/-- **C44**: collapsing keeps every element and comment where it is, the content of preformatted elements as it is, and every
visible character of the other texts in its place between the elements.  (Document nodes below the root do not exist
in parsed pages.) -/
theorem c44_seen (f : DomFuncs) (doc : Node) (h : ∀ i ∈ items [] doc, i.what = .document → i.anc = []) :
    (items [] (collapse f doc)).flatMap (seen f.isPre visible) = (items [] doc).flatMap (seen f.isPre visible) :=
  collapse_seen f doc h

/-- A tree for the theorem, and what is seen of it. -/
example : (items [] (.elem b!"p" [] [.text b!" a\n ", .elem b!"b" [] [.text b!"b"]])).flatMap (seen (· = b!"pre") visible) =
    [.node ⟨[], .elem b!"p" []⟩, .char [b!"p"] 97, .node ⟨[b!"p"], .elem b!"b" []⟩, .char [b!"b", b!"p"] 98] := by decide

/-! ## C45, C73: hypotheses -/

theorem apart_of :
    (∀ n, ∀ f, (∀ x ∈ nodes n, ∀ (pre mid post : List Node) (d d' : Bytes), x.children = pre ++ .text d :: (mid ++ .text d' :: post) →
        ∃ m a cs, .elem m a cs ∈ mid) → Apart f n) ∧
    (∀ ns, ∀ f after, (∀ x ∈ nodesL ns, ∀ (pre mid post : List Node) (d d' : Bytes), x.children = pre ++ .text d :: (mid ++ .text d' :: post) →
        ∃ m a cs, .elem m a cs ∈ mid) →
      (∀ (pre mid post : List Node) (d d' : Bytes), ns = pre ++ .text d :: (mid ++ .text d' :: post) → ∃ m a cs, .elem m a cs ∈ mid) →
      (after = true → ∀ (mid post : List Node) (d : Bytes), ns = mid ++ .text d :: post → ∃ m a cs, .elem m a cs ∈ mid) →
      ApartL f after ns) := by
  apply induct
  · intro d f _; trivial
  · intro d f _; trivial
  · intro d f _; trivial
  · intro cs _ f _; trivial
  · intro n a cs ih f h _
    exact ih f false (fun x hx => h x (by simp [nodes, hx])) (h (.elem n a cs) (by simp [nodes])) (by simp)
  · intro f after _ _ _; trivial
  · intro n ns ih1 ih2 f after h1 h2 h3
    have hn : Apart f n := ih1 f fun x hx => h1 x (by simp [nodesL, hx])
    have hx : ∀ x ∈ nodesL ns, _ := fun x hx => h1 x (by simp [nodesL, hx])
    have h2' : ∀ (pre mid post : List Node) (d d' : Bytes), ns = pre ++ .text d :: (mid ++ .text d' :: post) → ∃ m a cs, .elem m a cs ∈ mid :=
      fun pre mid post d d' he => h2 (n :: pre) mid post d d' (by rw [he]; rfl)
    have h3' : (∀ m a cs, n ≠ .elem m a cs) → after = true → ∀ (mid post : List Node) (d : Bytes), ns = mid ++ .text d :: post → ∃ m a cs, .elem m a cs ∈ mid := by
      intro hne ha mid post d he
      obtain ⟨m, a, cs, hm⟩ := h3 ha (n :: mid) post d (by rw [he]; rfl)
      rcases List.mem_cons.1 hm with hm | hm
      · exact absurd hm.symm (hne m a cs)
      · exact ⟨m, a, cs, hm⟩
    cases n with
    | text d =>
      refine ⟨?_, ih2 f true hx h2' fun _ mid post d' he => ?_⟩
      · cases after with
        | false => rfl
        | true =>
          obtain ⟨m, a, cs, hm⟩ := h3 rfl [] ns d rfl
          simp at hm
      · exact h2 [] mid post d d' (by rw [he]; rfl)
    | comment d => exact ih2 f after hx h2' (h3' (by simp))
    | doctype d => exact ih2 f after hx h2' (h3' (by simp))
    | document cs => exact ih2 f after hx h2' (h3' (by simp))
    | elem m a cs => exact ⟨hn, ih2 f false hx h2' (by simp)⟩

theorem noDoc_of (f : DomFuncs) :
    (∀ n, ∀ anc, (∀ i ∈ items anc n, i.what ≠ .document) → noDoc f n) ∧
    (∀ ns, ∀ anc, (∀ i ∈ itemsL anc ns, i.what ≠ .document) → noDocL f ns) := by
  apply induct
  · intro d anc _; trivial
  · intro d anc _; trivial
  · intro d anc _; trivial
  · intro cs _ anc h; exact h ⟨anc, .document⟩ (by simp [items]) rfl
  · intro n a cs ih anc h _
    exact ih (n :: anc) fun i hi => h i (by simp [items, hi])
  · intro anc _; trivial
  · intro n ns ih1 ih2 anc h
    exact ⟨ih1 anc fun i hi => h i (by simp [itemsL, hi]), ih2 anc fun i hi => h i (by simp [itemsL, hi])⟩

theorem apart_children {doc : Node} (h : TextsApart doc) (f : DomFuncs) : ApartL f false doc.children := by
  have hsub : ∀ x ∈ nodesL doc.children, x ∈ nodes doc := by
    intro x hx; cases doc <;> simp_all [nodes, Node.children, nodesL]
  have hself : doc ∈ nodes doc := by cases doc <;> simp [nodes]
  exact apart_of.2 doc.children f false (fun x hx => h x (hsub x hx)) (h doc hself) (by simp)

/-! ## C45 -/

/-- **C45** (partial): collapsing twice is collapsing once, apart from empty texts that the second time removes.  The hypothesis is that
texts with the same parent have an element between them; without it the claim is false, see below. -/
theorem c45_twice_partial (f : DomFuncs) (doc : Node) (h : TextsApart doc) (hp : f.isPre doc.name = false) :
    collapse f (collapse f doc) = withoutEmpty f.isPre (collapse f doc) := by
  have ha := apart_children h f
  cases doc with
  | document cs =>
    simp only [Node.children, Node.name] at ha hp
    simp [collapse, hp, withoutEmpty, children_again f cs ha]
  | elem n a cs =>
    simp only [Node.children, Node.name] at ha hp
    simp [collapse, hp, withoutEmpty, children_again f cs ha]
  | text d => rfl
  | comment d => rfl
  | doctype d => rfl

/-- A preformatted element is left as it is. -/
theorem c45_pre (f : DomFuncs) (doc : Node) (hp : f.isPre doc.name = true) : collapse f doc = doc := by
  cases doc <;> simp_all [collapse, Node.name]

/-- The functions of the base plugin, with some blocks. -/
def someFuncs : DomFuncs := baseFuncs fun n => n ∈ [b!"div", b!"p"]

/-- `<div>a <img> <p>b</p></div>`: the space before the paragraph becomes an empty text, which the second time removes. -/
example : collapse someFuncs (.elem b!"div" [] [.text b!"a ", .elem b!"img" [] [], .text b!" ", .elem b!"p" [] [.text b!"b "]]) =
    .elem b!"div" [] [.text b!"a ", .elem b!"img" [] [], .text [], .elem b!"p" [] [.text b!"b"]] := by rfl

/-- After an image two texts that are neighbours (for example because the element around the second has been removed) keep both their
spaces; of two blank ones the first is removed by collapsing again. -/
theorem c45_counterexample : ∃ doc, collapse someFuncs (collapse someFuncs doc) ≠ collapse someFuncs doc ∧
    collapse someFuncs (collapse someFuncs doc) ≠ withoutEmpty someFuncs.isPre (collapse someFuncs doc) := by
  refine ⟨.elem b!"div" [] [.elem b!"img" [] [], .text b!" ", .text b!" ", .elem b!"p" [] []], ?_⟩
  have h1 : collapse someFuncs (.elem b!"div" [] [.elem b!"img" [] [], .text b!" ", .text b!" ", .elem b!"p" [] []]) =
    .elem b!"div" [] [.elem b!"img" [] [], .text b!" ", .text [], .elem b!"p" [] []] := by rfl
  have h2 : collapse someFuncs (.elem b!"div" [] [.elem b!"img" [] [], .text b!" ", .text [], .elem b!"p" [] []]) =
    .elem b!"div" [] [.elem b!"img" [] [], .text [], .elem b!"p" [] []] := by rfl
  have h3 : withoutEmpty someFuncs.isPre (.elem b!"div" [] [.elem b!"img" [] [], .text b!" ", .text [], .elem b!"p" [] []]) =
    .elem b!"div" [] [.elem b!"img" [] [], .text b!" ", .elem b!"p" [] []] := by rfl
  rw [h1, h2, h3]
  constructor <;> simp

/-! ## C73 -/

/-- **C73** (partial): the page is seen as in a browser: within a line (which ends at blocks and `br`) all texts together have single
spaces only, and a line neither begins nor ends with a space, unless there is an image or the like.  The same hypothesis as in C45. -/
theorem c73_flow_partial (f : DomFuncs) (doc : Node) (h : TextsApart doc) (hd : ∀ i ∈ items [] doc, i.what = .document → i.anc = [])
    (hp : f.isPre doc.name = false) :
    joined [] (flowL ⟨f.isBlock, f.isVoid, f.isPre⟩ (collapse f doc).children) = tidy true [] (flowL ⟨f.isBlock, f.isVoid, f.isPre⟩ doc.children) := by
  have ha := apart_children h f
  have hn := (noDoc_of f).2 _ _ (noNested_children hd)
  cases doc with
  | document cs =>
    simp only [Node.name] at hp
    simp only [collapse, hp, Bool.false_eq_true, if_false, Node.children] at *
    exact children_flow f cs ha hn
  | elem n a cs =>
    simp only [Node.name] at hp
    simp only [collapse, hp, Bool.false_eq_true, if_false, Node.children] at *
    exact children_flow f cs ha hn
  | text d => rfl
  | comment d => rfl
  | doctype d => rfl

/-- `<div> a <b> b</b><img> <i> c </i><p> d</p></div>` -/
example : tidy true [] (flowL ⟨someFuncs.isBlock, someFuncs.isVoid, someFuncs.isPre⟩ [.text b!" a ", .elem b!"b" [] [.text b!" b"], .elem b!"img" [] [],
      .text b!" ", .elem b!"i" [] [.text b!" c "], .elem b!"p" [] [.text b!" d"]]) =
    [.text b!"a b", .solid, .solid, .text b!" c", .line, .text b!"d", .line] := by decide

example : TextsApart (.elem b!"div" [] [.text b!" a ", .elem b!"b" [] [.text b!" b"], .text b!"c"]) := by
  intro x hx pre mid post d d' he
  simp [nodes, nodesL] at hx
  rcases hx with rfl | rfl | rfl | rfl | rfl
  · rcases pre with _ | ⟨p, _ | ⟨q, _ | ⟨r, pre⟩⟩⟩ <;> simp [Node.children] at he
    · rcases mid with _ | ⟨m, mid⟩ <;> simp at he
      exact ⟨_, _, _, by rw [← he.2.1]; exact List.mem_cons_self⟩
  · simp [Node.children] at he
  · rcases pre with _ | ⟨p, pre⟩ <;> simp [Node.children] at he
  · simp [Node.children] at he
  · simp [Node.children] at he

/-- After an image, two neighbouring texts show two spaces in a line. -/
theorem c73_counterexample : ∃ doc, joined [] (flowL ⟨someFuncs.isBlock, someFuncs.isVoid, someFuncs.isPre⟩ (collapse someFuncs doc).children) ≠
    tidy true [] (flowL ⟨someFuncs.isBlock, someFuncs.isVoid, someFuncs.isPre⟩ doc.children) :=
  ⟨.elem b!"div" [] [.elem b!"img" [] [], .text b!"a ", .text b!" b"], by decide⟩

end Verif.Props

/-! ## The base plugin -/

namespace Verif.Props
open Verif Verif.Collapse Verif.Spec Verif.Dom

/-- **C44** for the base plugin: the preformatted elements are `pre` and `code`. -/
theorem c44_base (isBlock : Bytes → Bool) (doc : Node) (h : ∀ i ∈ items [] doc, i.what = .document → i.anc = []) :
    (items [] (collapse (baseFuncs isBlock) doc)).flatMap (seen (fun n => n = b!"pre" || n = b!"code") visible) =
      (items [] doc).flatMap (seen (fun n => n = b!"pre" || n = b!"code") visible) :=
  c44_seen (baseFuncs isBlock) doc h

/-- **C73** for the base plugin. -/
theorem c73_base_partial (isBlock : Bytes → Bool) (doc : Node) (h : TextsApart doc) (hd : ∀ i ∈ items [] doc, i.what = .document → i.anc = [])
    (hp : doc.name ≠ b!"pre" ∧ doc.name ≠ b!"code") :
    let layout : FlowLayout := ⟨isBlock, fun n => n ∈ [b!"area", b!"base", b!"br", b!"col", b!"command", b!"embed", b!"hr", b!"img", b!"input",
      b!"keygen", b!"link", b!"meta", b!"param", b!"track", b!"wbr"], fun n => n = b!"pre" || n = b!"code"⟩
    joined [] (flowL layout (collapse (baseFuncs isBlock) doc).children) = tidy true [] (flowL layout doc.children) :=
  c73_flow_partial (baseFuncs isBlock) doc h hd (by simp [baseFuncs, hp])

end Verif.Props
