import Verif.Spec.CliConvert
import Verif.Spec.Stock
import Verif.Spec.Selectors
import Verif.Spec.Render
/-!
# Lemmas about the conversion of the command line tool
-/

namespace Verif.CliConvert
open Verif Verif.Spec Verif.CliDom

/-! ## Pages and selectors -/

mutual
/-- What is asked of the nodes below the root of a page. -/
def Fine : Node → Prop
  | .text d => Utf8 d
  | .comment _ => True
  | .doctype _ => True
  | .document _ => False
  | .elem n a cs => (∀ p ∈ a, Utf8 p.2) ∧ (n ∈ voidTags → cs = []) ∧ FineL cs
def FineL : List Node → Prop
  | [] => True
  | n :: ns => Fine n ∧ FineL ns
end

theorem fineL_append : ∀ {l m : List Node}, FineL (l ++ m) ↔ FineL l ∧ FineL m
  | [], m => by simp [FineL]
  | n :: l, m => by simp [FineL, fineL_append (l := l), and_assoc]

mutual
theorem fine_of (anc : List Bytes) (hanc : anc ≠ []) : ∀ n : Node, (∀ i ∈ items anc n, ∀ d, i.what = .text d → Utf8 d) →
    (∀ i ∈ items anc n, ∀ m a, i.what = .elem m a → ∀ p ∈ a, Utf8 p.2) → (∀ x ∈ nodes n, x.name ∈ voidTags → x.children = []) →
    (∀ i ∈ items anc n, i.what = .document → i.anc = []) → Fine n
  | .text d, h, _, _, _ => h ⟨anc, .text d⟩ (by simp [items]) d rfl
  | .comment _, _, _, _, _ => trivial
  | .doctype _, _, _, _, _ => trivial
  | .document cs, _, _, _, h => absurd (h ⟨anc, .document⟩ (by simp [items]) rfl) hanc
  | .elem n a cs, h1, h2, h3, h4 => ⟨h2 ⟨anc, .elem n a⟩ (by simp [items]) n a rfl, h3 (.elem n a cs) (by simp [nodes]),
      fineL_of (n :: anc) (by simp) cs (fun i hi => h1 i (by simp [items, hi])) (fun i hi => h2 i (by simp [items, hi]))
        (fun x hx => h3 x (by simp [nodes, hx])) (fun i hi => h4 i (by simp [items, hi]))⟩
theorem fineL_of (anc : List Bytes) (hanc : anc ≠ []) : ∀ l : List Node, (∀ i ∈ itemsL anc l, ∀ d, i.what = .text d → Utf8 d) →
    (∀ i ∈ itemsL anc l, ∀ m a, i.what = .elem m a → ∀ p ∈ a, Utf8 p.2) → (∀ x ∈ nodesL l, x.name ∈ voidTags → x.children = []) →
    (∀ i ∈ itemsL anc l, i.what = .document → i.anc = []) → FineL l
  | [], _, _, _, _ => trivial
  | n :: l, h1, h2, h3, h4 => ⟨fine_of anc hanc n (fun i hi => h1 i (by simp [itemsL, hi])) (fun i hi => h2 i (by simp [itemsL, hi]))
        (fun x hx => h3 x (by simp [nodesL, hx])) (fun i hi => h4 i (by simp [itemsL, hi])),
      fineL_of anc hanc l (fun i hi => h1 i (by simp [itemsL, hi])) (fun i hi => h2 i (by simp [itemsL, hi]))
        (fun x hx => h3 x (by simp [nodesL, hx])) (fun i hi => h4 i (by simp [itemsL, hi]))⟩
end

mutual
theorem of_fine (anc : List Bytes) : ∀ n : Node, Fine n → (∀ i ∈ items anc n, ∀ d, i.what = .text d → Utf8 d) ∧
    (∀ i ∈ items anc n, ∀ m a, i.what = .elem m a → ∀ p ∈ a, Utf8 p.2) ∧ (∀ x ∈ nodes n, x.name ∈ voidTags → x.children = []) ∧
    (∀ i ∈ items anc n, i.what = .document → i.anc = [])
  | .text d, h => by
    refine ⟨?_, ?_, ?_, ?_⟩ <;> intro i hi <;> simp only [items, nodes, List.mem_singleton] at hi <;> subst hi
    · intro d' e; cases e; exact h
    · intro _ _ e; cases e
    · intro _; rfl
    · intro e; cases e
  | .comment d, h => by
    refine ⟨?_, ?_, ?_, ?_⟩ <;> intro i hi <;> simp only [items, nodes, List.mem_singleton] at hi <;> subst hi
    · intro d' e; cases e
    · intro _ _ e; cases e
    · intro _; rfl
    · intro e; cases e
  | .doctype d, h => by
    refine ⟨?_, ?_, ?_, ?_⟩ <;> intro i hi <;> simp only [items, nodes, List.mem_singleton] at hi <;> subst hi
    · intro d' e; cases e
    · intro _ _ e; cases e
    · intro _; rfl
    · intro e; cases e
  | .document cs, h => h.elim
  | .elem n a cs, h => by
    obtain ⟨h1, h2, h3, h4⟩ := of_fineL (n :: anc) cs h.2.2
    refine ⟨?_, ?_, ?_, ?_⟩ <;> intro i hi <;> simp only [items, nodes, List.mem_cons] at hi <;> rcases hi with rfl | hi
    · intro d' e; cases e
    · exact h1 i hi
    · intro _ _ e; cases e; exact h.1
    · exact h2 i hi
    · exact h.2.1
    · exact h3 i hi
    · intro e; cases e
    · exact h4 i hi
theorem of_fineL (anc : List Bytes) : ∀ l : List Node, FineL l → (∀ i ∈ itemsL anc l, ∀ d, i.what = .text d → Utf8 d) ∧
    (∀ i ∈ itemsL anc l, ∀ m a, i.what = .elem m a → ∀ p ∈ a, Utf8 p.2) ∧ (∀ x ∈ nodesL l, x.name ∈ voidTags → x.children = []) ∧
    (∀ i ∈ itemsL anc l, i.what = .document → i.anc = [])
  | [], _ => by simp [itemsL, nodesL]
  | n :: l, h => by
    obtain ⟨a1, a2, a3, a4⟩ := of_fine anc n h.1
    obtain ⟨b1, b2, b3, b4⟩ := of_fineL anc l h.2
    refine ⟨?_, ?_, ?_, ?_⟩ <;> intro i hi <;> simp only [itemsL, nodesL, List.mem_append] at hi <;> rcases hi with hi | hi
    · exact a1 i hi
    · exact b1 i hi
    · exact a2 i hi
    · exact b2 i hi
    · exact a3 i hi
    · exact b3 i hi
    · exact a4 i hi
    · exact b4 i hi
end

/-- A page is a document with fine children, or a fine tree with a root that is not hidden. -/
theorem page_iff {doc : Node} : Page doc ↔ doc.name ∉ hiddenTags ∧ (Fine doc ∨ ∃ cs, doc = .document cs ∧ FineL cs) := by
  constructor
  · intro h
    refine ⟨h.root, ?_⟩
    cases doc with
    | text d => exact .inl (h.texts ⟨[], .text d⟩ (by simp [items]) d rfl)
    | comment d => exact .inl trivial
    | doctype d => exact .inl trivial
    | document cs =>
      refine .inr ⟨cs, rfl, fineL_of [b!"#document"] (by simp) cs ?_ ?_ ?_ ?_⟩
      · intro i hi; exact h.texts i (by simp [items, hi])
      · intro i hi; exact h.attrs i (by simp [items, hi])
      · intro i hi; exact h.void i (by simp [nodes, hi])
      · intro i hi; exact h.document i (by simp [items, hi])
    | elem n a cs =>
      refine .inl ⟨h.attrs ⟨[], .elem n a⟩ (by simp [items]) n a rfl, h.void (.elem n a cs) (by simp [nodes]), fineL_of [n] (by simp) cs ?_ ?_ ?_ ?_⟩
      · intro i hi; exact h.texts i (by simp [items, hi])
      · intro i hi; exact h.attrs i (by simp [items, hi])
      · intro i hi; exact h.void i (by simp [nodes, hi])
      · intro i hi; exact h.document i (by simp [items, hi])
  · rintro ⟨hr, h | ⟨cs, rfl, h⟩⟩
    · obtain ⟨h1, h2, h3, h4⟩ := of_fine [] doc h
      exact ⟨h1, h2, h3, h4, hr⟩
    · obtain ⟨h1, h2, h3, h4⟩ := of_fineL [b!"#document"] cs h
      refine ⟨?_, ?_, ?_, ?_, hr⟩ <;> intro i hi <;> simp only [items, nodes, List.mem_cons] at hi <;> rcases hi with rfl | hi
      · intro d' e; cases e
      · exact h1 i hi
      · intro _ _ e; cases e
      · exact h2 i hi
      · intro e; exact absurd (show b!"#document" ∈ voidTags from e) (by decide)
      · exact h3 i hi
      · intro _; rfl
      · exact h4 i hi

mutual
theorem exclude_fine (sel : Selector) (up : List Frame) : ∀ {n m : Node}, Fine n → excludeIn sel up n = some m → Fine m
  | .text d, m, h, e => by rw [excludeIn] at e; split at e <;> cases e; exact h
  | .comment d, m, h, e => by rw [excludeIn] at e; split at e <;> cases e; exact h
  | .doctype d, m, h, e => by rw [excludeIn] at e; split at e <;> cases e; exact h
  | .document cs, m, h, e => h.elim
  | .elem n a cs, m, h, e => by
    rw [excludeIn] at e; split at e <;> cases e
    exact ⟨h.1, fun hv => by rw [h.2.1 hv, excludeL], excludeL_fine sel up _ _ h.2.2⟩
theorem excludeL_fine (sel : Selector) (up : List Frame) (parent : Node) (before : List Node) : ∀ {l : List Node}, FineL l →
    FineL (excludeL sel up parent before l)
  | [], _ => by rw [excludeL]; trivial
  | c :: cs, h => by
    rw [excludeL]
    have hr := excludeL_fine sel up parent (before ++ [c]) h.2
    cases e : excludeIn sel (⟨parent, before, excludeL sel up parent (before ++ [c]) cs⟩ :: up) c with
    | none => simpa [e] using hr
    | some c' => simpa [e, FineL] using ⟨exclude_fine sel _ h.1 e, hr⟩
end

mutual
theorem pick_fine (sel : Selector) (up : List Frame) : ∀ {n : Node}, Fine n → Fine (pickIn sel up n).1 ∧ FineL (pickIn sel up n).2
  | .text d, h => by rw [pickIn]; exact ⟨h, trivial⟩
  | .comment d, h => by rw [pickIn]; exact ⟨h, trivial⟩
  | .doctype d, h => by rw [pickIn]; exact ⟨h, trivial⟩
  | .document cs, h => h.elim
  | .elem n a cs, h => by
    rw [pickIn]
    have := pickL_fine sel up (.elem n a []) [] h.2.2
    exact ⟨⟨h.1, fun hv => by rw [h.2.1 hv, pickL], this.1⟩, this.2⟩
theorem pickL_fine (sel : Selector) (up : List Frame) (parent : Node) (before : List Node) : ∀ {l : List Node}, FineL l →
    FineL (pickL sel up parent before l).1 ∧ FineL (pickL sel up parent before l).2
  | [], _ => by rw [pickL]; exact ⟨trivial, trivial⟩
  | c :: cs, h => by
    rw [pickL]
    have h1 := pick_fine sel (⟨parent, before, cs⟩ :: up) h.1
    have h2 := pickL_fine sel up parent (before ++ [c]) h.2
    split
    · exact ⟨h2.1, by simp only [List.cons_append, FineL, fineL_append]; exact ⟨h1.1, h1.2, h2.2⟩⟩
    · exact ⟨⟨h1.1, h2.1⟩, fineL_append.2 ⟨h1.2, h2.2⟩⟩
end

theorem exclude_name {sel : Selector} {up : List Frame} {n m : Node} (e : excludeIn sel up n = some m) : m.name = n.name := by
  cases n <;> rw [excludeIn] at e <;> split at e <;> cases e <;> rfl

theorem exclude_page {sel : Option Selector} {doc : Node} (h : Page doc) : Page (exclude sel doc) := by
  cases sel with
  | none => exact h
  | some sel =>
    rw [exclude]
    cases e : excludeIn sel [] doc with
    | none => exact h
    | some m =>
      rw [Option.getD_some]
      obtain ⟨hr, hf⟩ := page_iff.1 h
      refine page_iff.2 ⟨by rw [exclude_name e]; exact hr, ?_⟩
      rcases hf with hf | ⟨cs, rfl, hf⟩
      · exact .inl (exclude_fine sel [] hf e)
      · rw [excludeIn] at e; split at e <;> cases e
        exact .inr ⟨_, rfl, excludeL_fine sel [] _ _ hf⟩

theorem include_page {sel : Option Selector} {doc : Node} (h : Page doc) : Page (includeNodes sel doc) := by
  cases sel with
  | none => exact h
  | some sel =>
    rw [includeNodes]
    obtain ⟨-, hf⟩ := page_iff.1 h
    have : FineL (pickIn sel [] doc).2 := by
      rcases hf with hf | ⟨cs, rfl, hf⟩
      · exact (pick_fine sel [] hf).2
      · rw [pickIn]; exact (pickL_fine sel [] _ _ hf).2
    exact page_iff.2 ⟨by show [] ∉ hiddenTags; decide, .inl ⟨by simp, fun hv => absurd hv (by decide), this⟩⟩

theorem selectors_page {incl excl : Option Selector} {doc : Node} (h : Page doc) : Page (withSelectors incl excl doc) :=
  exclude_page (include_page h)

end Verif.CliConvert
