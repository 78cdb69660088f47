import Verif.Proofs.CharsOps
import Verif.Proofs.DomFree
import Verif.Spec.Render
/-!
# The visible characters through the steps before rendering
-/
set_option linter.unusedSimpArgs false

namespace Verif.Chars
open Verif Verif.Spec Verif.Dom Verif.DomUtils Verif.Collapse Verif.Render

/-- The visible characters of some texts. -/
def shown (l : List Bytes) : List Bytes := l.flatMap visibleChars

theorem shown_append (a b : List Bytes) : shown (a ++ b) = shown a ++ shown b := by simp [shown]
theorem shown_cons (a : Bytes) (b : List Bytes) : shown (a :: b) = visibleChars a ++ shown b := by simp [shown]
theorem shown_nil : shown [] = [] := rfl

/-- The texts are UTF-8, and without pound signs if `noHash`. -/
def TR (noHash : Bool) (d : Bytes) : Prop := Utf8 d ∧ (noHash = true → 35 ∉ d)

variable {h : Bool}

theorem htmlSpace_low : ∀ b : UInt8, isHtmlSpace b = true → b < 128 ∧ vis [b] = false := forall_u8 (by decide +kernel)
theorem htmlSpace_high : ∀ b : UInt8, 128 ≤ b → isHtmlSpace b = false := forall_u8 (by decide +kernel)

theorem oneSpaceAfter_copy : ∀ (x : Bytes), (∀ b ∈ x, 128 ≤ b) → x ≠ [] → ∀ (p : Bool) (s : Bytes),
    oneSpaceAfter p (x ++ s) = x ++ oneSpaceAfter false s := by
  intro x
  induction x with
  | nil => intro _ h; exact absurd rfl h
  | cons b x ih =>
    intro hx _ p s
    rw [List.cons_append, oneSpaceAfter, if_neg (by simp [htmlSpace_high b (hx b (by simp))])]
    by_cases h0 : x = []
    · subst h0; simp
    · rw [ih (fun y hy => hx y (by simp [hy])) h0]; simp

theorem oneSpaceAfter_chars : ∀ s, Utf8 s → ∀ p, Utf8 (oneSpaceAfter p s) ∧ visibleChars (oneSpaceAfter p s) = visibleChars s := by
  apply utf8_induct
  · intro p; exact ⟨utf8_nil, rfl⟩
  · intro c s hc hs ih p
    rcases isChar_cases hc with ⟨b, rfl, hlow⟩ | hh
    · rw [List.singleton_append, oneSpaceAfter]
      split
      · rename_i hb
        have hv : visibleChars (b :: s) = visibleChars s := by rw [vis_ascii hlow hs, (htmlSpace_low b hb).2]; rfl
        rw [hv]
        split
        · exact ih true
        · refine ⟨utf8_ascii (by decide) (ih true).1, ?_⟩
          rw [vis_ascii (by decide) (ih true).1, (ih true).2]; rfl
      · refine ⟨utf8_ascii hlow (ih false).1, ?_⟩
        rw [vis_ascii hlow (ih false).1, vis_ascii hlow hs, (ih false).2]
    · have hne : c ≠ [] := by rintro rfl; simp [isChar] at hc
      rw [oneSpaceAfter_copy c hh hne]
      refine ⟨utf8_char hc (ih false).1, ?_⟩
      rw [vis_char hc (ih false).1, vis_char hc hs, (ih false).2]

theorem oneSpaceAfter_mem : ∀ (s : Bytes) (p : Bool) (b : UInt8), b ∈ oneSpaceAfter p s → b ∈ s ∨ b = 32
  | [], p, b, hb => by simp [oneSpaceAfter] at hb
  | x :: s, p, b, hb => by
    rw [oneSpaceAfter] at hb
    split at hb
    · split at hb
      · rcases oneSpaceAfter_mem s true b hb with h | h
        · left; simp [h]
        · right; exact h
      · rcases List.mem_cons.1 hb with h | hb
        · right; exact h
        · rcases oneSpaceAfter_mem s true b hb with h | h
          · left; simp [h]
          · right; exact h
    · rcases List.mem_cons.1 hb with h | hb
      · left; simp [h]
      · rcases oneSpaceAfter_mem s false b hb with h | h
        · left; simp [h]
        · right; exact h

theorem tr_ws {d : Bytes} (hd : TR h d) : TR h (replaceWs d) ∧ visibleChars (replaceWs d) = visibleChars d := by
  rw [replaceWs_eq, oneSpace]
  have := oneSpaceAfter_chars d hd.1 false
  refine ⟨⟨this.1, ?_⟩, this.2⟩
  intro hn hm
  rcases oneSpaceAfter_mem d false 35 hm with hm | hm
  · exact hd.2 hn hm
  · simp at hm

theorem tr_tail {d : Bytes} (hd : TR h d) (hs : d.head? = some SP) : TR h d.tail ∧ visibleChars d.tail = visibleChars d := by
  cases d with
  | nil => simp at hs
  | cons b d =>
    simp only [List.head?_cons, Option.some.injEq] at hs
    subst hs
    have hu : Utf8 d := utf8_suffix (a := [SP]) hd.1 (utf8_byte (by decide))
    refine ⟨⟨hu, fun hn hm => hd.2 hn (List.mem_cons_of_mem _ hm)⟩, ?_⟩
    rw [vis_ascii (by decide) hu]; rfl

theorem tr_suffix {d : Bytes} (hd : TR h d) : TR h (trimSuffix d) ∧ visibleChars (trimSuffix d) = visibleChars d := by
  rw [trimSuffix]
  split
  · rename_i hs
    have hne : d ≠ [] := by rintro rfl; simp at hs
    rw [List.getLast?_eq_some_getLast hne, Option.some.injEq] at hs
    have e := List.dropLast_concat_getLast hne
    rw [hs] at e
    have hu : Utf8 d.dropLast := utf8_prefix (b := [SP]) (by rw [e]; exact hd.1) (utf8_byte (by decide))
    refine ⟨⟨hu, fun hn hm => hd.2 hn (List.dropLast_subset _ hm)⟩, ?_⟩
    conv => rhs; rw [← e]
    rw [vis_append (utf8_byte (by decide)), show visibleChars [SP] = [] from by decide, List.append_nil]
  · exact ⟨hd, rfl⟩

theorem tr_text : TextOK (TR h) := ⟨fun _ hd => (tr_ws hd).1, fun _ hd hs => (tr_tail hd hs).1, fun _ hd => (tr_suffix hd).1⟩

/-- The conditions on a tree before rendering: texts as above, attribute values are UTF-8, void elements are empty, and names are not
removed (if `removed`). -/
def kinds (h : Bool) (removed : Bool) : Kinds where
  N := fun n => removed = true → isRemoved n = false
  A := fun a => ∀ p ∈ a, Utf8 p.2
  R := TR h
  V := fun n => n ∈ voidTags

/-! ## Collapsing -/

theorem first_shown (f : DomFuncs) {r : Bool} :
    (∀ n, ok (kinds h r) false n → ∀ s, shown (txtsL (first f s n).1) = shown (txts n)) ∧
    (∀ ns, okL (kinds h r) ns → ∀ s, shown (txtsL (firstL f s ns).1) = shown (txtsL ns)) := by
  apply induct
  · intro d hd s
    have hd : TR h d := hd
    rw [first, firstText]
    have key : ∀ (t : Bytes) (v : Vars), visibleChars t = visibleChars d →
        shown (txtsL (if t = [] then ([], s) else ([Node.text t], v)).1) = shown (txts (.text d)) := by
      intro t v ht
      split
      · rename_i h0
        subst h0
        rw [txts, shown_cons, ← ht]; rfl
      · rw [txtsL_singleton, txts, txts, shown_cons, shown_cons, ht]
    apply key
    split
    · rename_i hc
      rw [(tr_tail (tr_ws hd).1 hc.2.2).2, (tr_ws hd).2]
    · exact (tr_ws hd).2
  · intro d hd s; rfl
  · intro d hd s; rfl
  · intro cs ih hd s; exact absurd hd.1 (by simp)
  · intro n a cs ih hd s
    rw [first]
    split
    · rw [txtsL_singleton]
    · rw [txtsL_singleton, txts, txts]
      exact ih hd.2.2.2 _
  · intro _ s; rfl
  · intro n ns ih1 ih2 hd s
    rw [firstL]
    simp only [txtsL_append, shown_append, txtsL]
    rw [ih1 hd.1, ih2 hd.2]

theorem second_shown (f : DomFuncs) {r : Bool} :
    (∀ n, ok (kinds h r) false n → ∀ x, shown (txtsL (second f x n).1) = shown (txts n)) ∧
    (∀ ns, okL (kinds h r) ns → ∀ x, shown (txtsL (secondL f x ns).1) = shown (txtsL ns)) := by
  apply induct
  · intro d hd x
    have hd : TR h d := hd
    cases x with
    | other => rw [second, txtsL_singleton]
    | block => rw [second, txtsL_singleton, txts, txts, shown_cons, shown_cons, (tr_suffix hd).2]
    | stop =>
      rw [second]
      split
      · rename_i h0
        have := (tr_suffix hd).2
        rw [h0] at this
        rw [txts, shown_cons, ← this]; rfl
      · rw [txtsL_singleton, txts, txts, shown_cons, shown_cons, (tr_suffix hd).2]
  · intro d hd x; rfl
  · intro d hd x; rfl
  · intro cs ih hd x; exact absurd hd.1 (by simp)
  · intro n a cs ih hd x
    rw [second]
    split
    · rw [txtsL_singleton]
    · rw [txtsL_singleton, txts, txts]
      exact ih hd.2.2.2 _
  · intro _ x; rfl
  · intro n ns ih1 ih2 hd x
    rw [secondL]
    simp only [txtsL_append, shown_append, txtsL]
    rw [ih1 hd.1, ih2 hd.2]

theorem collapse_shown (f : DomFuncs) {r : Bool} (n : Node) (t : Bool) (hn : ok (kinds h r) t n) : shown (txts (collapse f n)) = shown (txts n) := by
  have key : ∀ cs, okL (kinds h r) cs → shown (txtsL (Collapse.children f cs)) = shown (txtsL cs) := by
    intro cs hcs
    rw [Collapse.children, (second_shown f).2 _ ((ok_first f tr_text).2 cs hcs _).1, (first_shown f).2 _ hcs]
  cases n with
  | document cs =>
    rw [collapse]
    split
    · rfl
    · exact key cs hn.2
  | elem n a cs =>
    rw [collapse]
    split
    · rfl
    · exact key cs hn.2.2.2
  | _ => rfl

/-! ## The other steps -/

theorem listEnd_txts : (∀ n, ∀ e, txts (addListEndIn e n) = txts n) ∧ (∀ ns, ∀ e, txtsL (addListEndL e ns) = txtsL ns) := by
  apply induct
  · intro d e; rfl
  · intro d e; rfl
  · intro d e; rfl
  · intro cs ih e; exact ih _
  · intro n a cs ih e; exact ih _
  · intro e; rfl
  · intro n ns ih1 ih2 e
    rw [addListEndL]
    split
    · simp [txtsL, txts, ih1, ih2]
    · simp [txtsL, ih1, ih2]

theorem mapTexts_shown (f : Nat → Bytes → Bytes) {r : Bool} (hf : ∀ k d, TR h d → visibleChars (f k d) = visibleChars d) :
    (∀ n, ∀ t, ok (kinds h r) t n → ∀ k, shown (txts (mapTexts f k n).1) = shown (txts n)) ∧
    (∀ ns, okL (kinds h r) ns → ∀ k, shown (txtsL (mapTextsL f k ns).1) = shown (txtsL ns)) := by
  apply induct
  · intro d t hd k
    rw [mapTexts, txts, txts, shown_cons, shown_cons, hf k d hd]
  · intro d t _ k; rfl
  · intro d t _ k; rfl
  · intro cs ih t hd k; exact ih hd.2 k
  · intro n a cs ih t hd k; exact ih hd.2.2.2 k
  · intro _ k; rfl
  · intro n ns ih1 ih2 hd k
    simp only [mapTextsL, txtsL, shown_append]
    rw [ih1 false hd.1, ih2 hd.2]

theorem tr_spaces (a b : Nat) {d : Bytes} (hd : TR h d) :
    TR h (List.replicate a SP ++ d ++ List.replicate b SP) ∧ visibleChars (List.replicate a SP ++ d ++ List.replicate b SP) = visibleChars d := by
  have ha := utf8_spaces (buf := List.replicate a SP) (by simp)
  have hb := utf8_spaces (buf := List.replicate b SP) (by simp)
  refine ⟨⟨utf8_append (utf8_append ha.1 hd.1) hb.1, ?_⟩, ?_⟩
  · intro hn hm
    simp only [List.mem_append, List.mem_replicate] at hm
    rcases hm with (hm | hm) | hm
    · exact absurd hm.2 (by decide)
    · exact hd.2 hn hm
    · exact absurd hm.2 (by decide)
  · rw [vis_append hb.1, vis_append hd.1, ha.2, hb.2]; simp

theorem leaf_sublist {r : Bool} : (∀ n, ok (kinds h r) false n → ∀ l i, (txts n).Sublist (txtsL (leafAlternativesIn l i n))) ∧
    (∀ ns, okL (kinds h r) ns → ∀ l i, (txtsL ns).Sublist (txtsL (leafAlternativesL l i ns))) := by
  apply induct
  · intro d _ l i; simp [leafAlternativesIn, txtsL, txts]
  · intro d _ l i; simp [leafAlternativesIn, txtsL, txts]
  · intro d _ l i; simp [leafAlternativesIn, txtsL, txts]
  · intro cs ih hd l i; exact absurd hd.1 (by simp)
  · intro n a cs ih hd l i
    rw [leafAlternativesIn, txts]
    have hk := ih hd.2.2.2 (l || decide (getStructure n = .leaf)) (i || decide (getStructure n = .inline))
    split
    · rw [alternative]
      split
      · simpa [txtsL, txts] using hk
      split
      · simp only [txtsL, txts, List.append_nil]
        exact (hk.trans (List.sublist_append_left _ _)).trans (List.sublist_append_right _ _)
      split
      · simpa [txtsL, txts] using hk
      split
      · rename_i hn
        have : cs = [] := hd.2.2.1 (by rw [hn]; show _ ∈ voidTags; decide)
        subst this
        simp [txtsL]
      · simpa [txtsL, txts] using hk
    · simpa [txtsL, txts] using hk
  · intro _ l i; exact List.Sublist.refl _
  · intro n ns ih1 ih2 hd l i
    rw [leafAlternativesL, txtsL_append, txtsL]
    exact (ih1 hd.1 l i).append (ih2 hd.2 l i)

theorem leafAlternatives_sublist {r : Bool} (n : Node) (t : Bool) (hn : ok (kinds h r) t n) : (txts n).Sublist (txts (leafAlternatives n)) := by
  cases n with
  | document cs => exact leaf_sublist.2 cs hn.2 false false
  | text d => exact List.Sublist.refl _
  | comment d => exact List.Sublist.refl _
  | doctype d => exact List.Sublist.refl _
  | elem n a cs =>
    have := leaf_sublist.1 (.elem n a cs) hn false false
    rw [leafAlternatives_eq, txtsL_singleton] at this
    exact this

theorem shown_sublist {a b : List Bytes} (hs : a.Sublist b) : (shown a).Sublist (shown b) := by
  induction hs with
  | slnil => exact List.Sublist.refl _
  | cons x _ ih => rw [shown_cons]; exact ih.trans (List.sublist_append_right _ _)
  | cons_cons x _ ih => rw [shown_cons, shown_cons]; exact (List.Sublist.refl _).append ih

theorem shown_nonempty (l : List Bytes) : shown (l.filter fun d => !d.isEmpty) = shown l := by
  induction l with
  | nil => rfl
  | cons d l ih =>
    cases d with
    | nil => rw [List.filter_cons_of_neg (by simp), shown_cons, ih]; rfl
    | cons b d => rw [List.filter_cons_of_pos (by simp), shown_cons, shown_cons, ih]

theorem shown_solid (l : List Bytes) : shown (solid l) = shown l := by
  induction l with
  | nil => rfl
  | cons d l ih =>
    rw [solid, List.filter_cons]
    split
    · rw [shown_cons, shown_cons]
      rw [solid] at ih
      rw [ih]
    · rename_i hd
      have : trimSpace d = [] := by simpa using hd
      rw [shown_cons, trimSpace_empty this]
      exact ih

variable {r : Bool}

theorem leafOK : LeafOK (kinds h r) where
  strong := ⟨fun _ => by decide, by show ¬ _ ∈ voidTags; decide⟩
  span := ⟨fun _ => by decide, by show ¬ _ ∈ voidTags; decide⟩
  code := ⟨fun _ => by decide, by show ¬ _ ∈ voidTags; decide⟩
  br := fun _ => by decide
  none := fun p hp => by simp at hp
  quote1 := ⟨utf8_of_ascii (by decide), fun _ => by decide⟩
  quote2 := ⟨utf8_of_ascii (by decide), fun _ => by decide⟩

theorem void_cases {n : Bytes} (hn : n ∈ voidTags) : n = b!"hr" ∨ n = b!"br" ∨ n = b!"img" := by simpa [voidTags] using hn

theorem notVoid (m : Bytes → Bool) (h1 : m b!"hr" = false) (h2 : m b!"br" = false) (h3 : m b!"img" = false) (n : Bytes) (hm : m n = true) :
    ¬ (kinds h r).V n := by
  intro hv
  rcases void_cases hv with rfl | rfl | rfl
  · rw [h1] at hm; simp at hm
  · rw [h2] at hm; simp at hm
  · rw [h3] at hm; simp at hm

theorem spanV : ¬ (kinds h r).V b!"span" := leafOK.span.2

/-- `handlePreRender` keeps the conditions and the visible characters (it may add quotation marks). -/
theorem handlePreRender_ok (T : NameTables) (doc : Node) (t : Bool) (hd : ok (kinds h r) t doc) :
    ok (kinds h r) t (handlePreRender T doc) ∧ (shown (txts doc)).Sublist (shown (txts (handlePreRender T doc))) := by
  simp only [handlePreRender]
  have h1 := (ok_rename (K := kinds h r) T (fun _ => by decide) (by show ¬ _ ∈ voidTags; decide)).1 doc t hd
  have e1 := (renameFakeSpans_txts T).1 doc
  generalize renameFakeSpans T doc = d1 at *
  have h2 := ok_redundant bothBoldOrItalic d1 t h1
  have e2 := removeRedundant_txts bothBoldOrItalic d1
  generalize removeRedundant bothBoldOrItalic d1 = d2 at *
  have h3 := ok_merge isBoldOrItalic spanV (notVoid _ (by decide) (by decide) (by decide)) d2 t h2
  have e3 := mergeAdjacent_txts isBoldOrItalic mergeOK_boldItalic d2
  generalize mergeAdjacent isBoldOrItalic d2 = d3 at *
  have h4 := (ok_emptyCode (K := kinds h r)).1 d3 t h3
  have e4 := congrArg shown (removeEmptyCode_txts.1 d3)
  rw [shown_nonempty, shown_nonempty] at e4
  generalize removeEmptyCode d3 = d4 at *
  have h5 := (ok_swap (K := kinds h r) isInlineCode isPre (notVoid _ (by decide) (by decide) (by decide)) (notVoid _ (by decide) (by decide) (by decide))).1 d4 t h4
  have e5 := (swapTags_txts isInlineCode isPre).1 d4
  generalize swapTags isInlineCode isPre d4 = d5 at *
  have h6 := ok_merge isInlineCode spanV (notVoid _ (by decide) (by decide) (by decide)) d5 t h5
  have e6 := mergeAdjacent_txts isInlineCode mergeOK_code d5
  generalize mergeAdjacent isInlineCode d5 = d6 at *
  have h7 : ok (kinds h r) t (addSpace isBoldOrItalic isInlineCode d6) :=
    (ok_mapTexts (K := kinds h r) _ (fun k d hd => (tr_spaces _ _ hd).1)).1 d6 t h6 0
  have e7 : shown (txts (addSpace isBoldOrItalic isInlineCode d6)) = shown (txts d6) :=
    (mapTexts_shown (r := r) _ (fun k d hd => (tr_spaces _ _ hd).2)).1 d6 t h6 0
  generalize addSpace isBoldOrItalic isInlineCode d6 = d7 at *
  have h8 := ok_redundant bothLink d7 t h7
  have e8 := removeRedundant_txts bothLink d7
  generalize removeRedundant bothLink d7 = d8 at *
  have h9 := (ok_swap (K := kinds h r) isBoldOrItalic isLink (notVoid _ (by decide) (by decide) (by decide)) (notVoid _ (by decide) (by decide) (by decide))).1 d8 t h8
  have e9 := (swapTags_txts isBoldOrItalic isLink).1 d8
  generalize swapTags isBoldOrItalic isLink d8 = d9 at *
  have h10 := (ok_swap (K := kinds h r) isLink isHeading (notVoid _ (by decide) (by decide) (by decide)) (notVoid _ (by decide) (by decide) (by decide))).1 d9 t h9
  have e10 := (swapTags_txts isLink isHeading).1 d9
  generalize swapTags isLink isHeading d9 = d10 at *
  have h11 := ok_leafAlternatives leafOK d10 t h10
  have e11 := shown_sublist (leafAlternatives_sublist d10 t h10)
  generalize leafAlternatives d10 = d11 at *
  have h12 := (ok_moveListItems (K := kinds h r) (fun _ => by decide) (by show ¬ _ ∈ voidTags; decide) leafOK.none (by show ¬ _ ∈ voidTags; decide)
    (by show ¬ _ ∈ voidTags; decide)).1 d11 t h11
  have e12 := congrArg shown (moveListItems_solid.1 d11)
  rw [shown_solid, shown_solid] at e12
  refine ⟨h12, ?_⟩
  rw [e12, ← e1, ← e2, ← e3, ← e4, ← e5, ← e6, ← e7, ← e8, ← e9, ← e10]
  exact e11

/-! ## Removing -/

mutual
/-- The texts that are left when elements are removed. -/
def kept : Node → List Bytes
  | .text d => [d]
  | .elem _ _ cs => keptL cs
  | .document cs => keptL cs
  | .comment _ => []
  | .doctype _ => []
def keptL : List Node → List Bytes
  | [] => []
  | n :: ns => (if isRemoved n.name then [] else kept n) ++ keptL ns
end

theorem remove_txts : (∀ n, txts (removeIn isRemoved n) = kept n) ∧ (∀ ns, txtsL (removeInL isRemoved ns) = keptL ns) := by
  apply induct
  · intro d; rfl
  · intro d; rfl
  · intro d; rfl
  · intro cs ih; exact ih
  · intro n a cs ih; exact ih
  · rfl
  · intro n ns ih1 ih2
    rw [removeInL, keptL]
    split
    · rw [ih2]; rfl
    · rw [txtsL, ih1, ih2]

theorem isRemoved_text : isRemoved b!"#text" = false := by decide

theorem isRemoved_iff (n : Bytes) : isRemoved n = true ↔ n ∈ hiddenTags := by
  simp only [isRemoved, List.contains_iff_mem]
  rw [show baseRemoves = hiddenTags from rfl]

/-- The texts among some nodes that are not inside a hidden element. -/
def outer (l : List Item) : List Bytes := (l.filter fun i => i.anc.all (· ∉ hiddenTags)).filterMap fun i => i.what.text?

theorem outer_append (a b : List Item) : outer (a ++ b) = outer a ++ outer b := by simp [outer]

theorem outer_hidden (l : List Item) (hl : ∀ i ∈ l, i.anc.all (· ∉ hiddenTags) = false) : outer l = [] := by
  rw [outer, List.filter_eq_nil_iff.2]
  · rfl
  · intro i hi
    rw [hl i hi]; simp

theorem outer_elem (anc : List Bytes) (n : Bytes) (a) (l : List Item) : outer (⟨anc, .elem n a⟩ :: l) = outer l := by
  rw [outer, outer, List.filter_cons]
  split
  · rw [List.filterMap_cons]; rfl
  · rfl

theorem kept_items :
    (∀ n, ∀ anc, anc.all (· ∉ hiddenTags) = true → outer (items anc n) = if isRemoved n.name then [] else kept n) ∧
    (∀ ns, ∀ anc, anc.all (· ∉ hiddenTags) = true → outer (itemsL anc ns) = keptL ns) := by
  apply induct
  · intro d anc ha
    rw [Node.name, isRemoved_text]
    simp only [items, outer, List.filter_cons, ha, if_true, List.filter_nil, List.filterMap_cons, What.text?, List.filterMap_nil]
    rfl
  · intro d anc ha
    simp [items, outer, List.filter_cons, ha, What.text?, kept]
  · intro d anc ha
    simp [items, outer, List.filter_cons, ha, What.text?, kept]
  · intro cs ih anc ha
    have hd : isRemoved b!"#document" = false := by decide
    rw [Node.name, hd, items]
    have := ih (b!"#document" :: anc) (by rw [List.all_cons, ha]; decide)
    have e : outer (⟨anc, .document⟩ :: itemsL (b!"#document" :: anc) cs) = outer (itemsL (b!"#document" :: anc) cs) := by
      rw [outer, outer, List.filter_cons]
      split
      · rw [List.filterMap_cons]; rfl
      · rfl
    rw [e, this]; rfl
  · intro n a cs ih anc ha
    rw [items, outer_elem, Node.name, kept]
    cases hr : isRemoved n with
    | true =>
      rw [if_pos rfl]
      apply outer_hidden
      intro i hi
      obtain ⟨p, hp⟩ := items_anc.2 cs (n :: anc) i hi
      rw [hp, List.all_append, List.all_cons]
      have hn := (isRemoved_iff n).1 hr
      simp [hn]
    | false =>
      rw [if_neg (by simp)]
      refine ih (n :: anc) ?_
      rw [List.all_cons, ha]
      have : n ∉ hiddenTags := fun hn => by rw [(isRemoved_iff n).2 hn] at hr; simp at hr
      simp [this]
  · intro anc _; rfl
  · intro n ns ih1 ih2 anc ha
    rw [itemsL, outer_append, ih1 anc ha, ih2 anc ha, keptL]

theorem ok_remove : (∀ n, ∀ t, ok (kinds h false) t n → isRemoved n.name = false → ok (kinds h true) t (removeIn isRemoved n)) ∧
    (∀ ns, okL (kinds h false) ns → okL (kinds h true) (removeInL isRemoved ns) ∧ (ns = [] → removeInL isRemoved ns = [])) := by
  apply induct
  · intro d t hd _; exact hd
  · intro d t hd _; trivial
  · intro d t hd _; trivial
  · intro cs ih t hd _; exact ⟨hd.1, (ih hd.2).1⟩
  · intro n a cs ih t hd hn
    exact ⟨fun _ => hn, hd.2.1, fun hv => (ih hd.2.2.2).2 (hd.2.2.1 hv), (ih hd.2.2.2).1⟩
  · intro _; exact ⟨trivial, fun _ => rfl⟩
  · intro n ns ih1 ih2 hd
    refine ⟨?_, by simp⟩
    rw [removeInL]
    cases hr : isRemoved n.name with
    | true => rw [if_pos rfl]; exact (ih2 hd.2).1
    | false => rw [if_neg (by simp)]; exact ⟨ih1 false hd.1 hr, (ih2 hd.2).1⟩

theorem tr_append {a b : Bytes} (ha : TR h a) (hb : TR h b) : TR h (a ++ b) :=
  ⟨utf8_append ha.1 hb.1, fun hn hm => (List.mem_append.1 hm).elim (ha.2 hn) (hb.2 hn)⟩

theorem ok_mergeText : (∀ n, ∀ t, ok (kinds h r) t n → ok (kinds h r) t (mergeText n) ∧ shown (txts (mergeText n)) = shown (txts n)) ∧
    (∀ ns, okL (kinds h r) ns → ∀ p, (∀ d, p = some d → TR h d) → okL (kinds h r) (mergeTextGo p ns) ∧
      shown (txtsL (mergeTextGo p ns)) = shown p.toList ++ shown (txtsL ns) ∧ (ns = [] → p = none → mergeTextGo p ns = [])) := by
  apply induct
  · intro d t hd; exact ⟨hd, rfl⟩
  · intro d t hd; exact ⟨trivial, rfl⟩
  · intro d t hd; exact ⟨trivial, rfl⟩
  · intro cs ih t hd
    have := ih hd.2 none (by simp)
    exact ⟨⟨hd.1, this.1⟩, this.2.1⟩
  · intro n a cs ih t hd
    have := ih hd.2.2.2 none (by simp)
    exact ⟨⟨hd.1, hd.2.1, fun hv => this.2.2 (hd.2.2.1 hv) rfl, this.1⟩, this.2.1⟩
  · intro _ p hp
    cases p with
    | none => exact ⟨trivial, rfl, fun _ _ => rfl⟩
    | some d => exact ⟨⟨hp d rfl, trivial⟩, by simp [mergeTextGo, flush, txtsL, txts, shown], by simp⟩
  · intro n ns ih1 ih2 hd p hp
    have hf : okL (kinds h r) (flush p) ∧ txtsL (flush p) = p.toList := by
      cases p with
      | none => exact ⟨trivial, rfl⟩
      | some d => exact ⟨⟨hp d rfl, trivial⟩, rfl⟩
    have i2 := ih2 hd.2 none (by simp)
    have other : ∀ m, (ok (kinds h r) false m ∧ shown (txts m) = shown (txts n)) →
        okL (kinds h r) (flush p ++ m :: mergeTextGo none ns) ∧
        shown (txtsL (flush p ++ m :: mergeTextGo none ns)) = shown p.toList ++ shown (txtsL (n :: ns)) := by
      rintro m ⟨hm1, hm2⟩
      refine ⟨okL_append.2 ⟨hf.1, hm1, i2.1⟩, ?_⟩
      rw [txtsL_append, hf.2, txtsL, txtsL, shown_append, shown_append, shown_append, hm2, i2.2.1]
      rfl
    refine ⟨?_, ?_, by simp⟩
    · cases n with
      | text d =>
        cases p with
        | none => exact (ih2 hd.2 (some d) (fun _ he => by cases he; exact hd.1)).1
        | some p => exact (ih2 hd.2 (some (p ++ d)) (fun _ he => by cases he; exact tr_append (hp p rfl) hd.1)).1
      | comment d => cases p <;> exact (other _ (ih1 false hd.1)).1
      | doctype d => cases p <;> exact (other _ (ih1 false hd.1)).1
      | document ks => cases p <;> exact (other _ (ih1 false hd.1)).1
      | elem n a ks => cases p <;> exact (other _ (ih1 false hd.1)).1
    · cases n with
      | text d =>
        cases p with
        | none =>
          rw [mergeTextGo, (ih2 hd.2 (some d) (fun _ he => by cases he; exact hd.1)).2.1]
          simp [txtsL, txts, shown]
        | some p =>
          rw [mergeTextGo, (ih2 hd.2 (some (p ++ d)) (fun _ he => by cases he; exact tr_append (hp p rfl) hd.1)).2.1]
          have hu : Utf8 d := hd.1.1
          simp [txtsL, txts, shown, vis_append hu]
      | comment d => cases p <;> exact (other _ (ih1 false hd.1)).2
      | doctype d => cases p <;> exact (other _ (ih1 false hd.1)).2
      | document ks => cases p <;> exact (other _ (ih1 false hd.1)).2
      | elem n a ks => cases p <;> exact (other _ (ih1 false hd.1)).2

/-! ## All steps before rendering -/

theorem page_ok {doc : Node} (hp : Page doc) (hh : h = true → ∀ i ∈ items [] doc, ∀ d, i.what = .text d → 35 ∉ d) :
    ok (kinds h false) true doc := by
  have key : (∀ n, ∀ anc t, (∀ i ∈ items anc n, (∀ d, i.what = .text d → TR h d) ∧ (∀ n a, i.what = .elem n a → ∀ p ∈ a, Utf8 p.2) ∧
        (i.what = .document → i.anc = anc ∧ t = true ∧ anc = [])) → (∀ x ∈ nodes n, x.name ∈ voidTags → x.children = []) → ok (kinds h false) t n) ∧
      (∀ ns, ∀ anc, (∀ i ∈ itemsL anc ns, (∀ d, i.what = .text d → TR h d) ∧ (∀ n a, i.what = .elem n a → ∀ p ∈ a, Utf8 p.2) ∧
        i.what ≠ .document) → (∀ x ∈ nodesL ns, x.name ∈ voidTags → x.children = []) → okL (kinds h false) ns) := by
    apply induct
    · intro d anc t hi _; exact (hi ⟨anc, .text d⟩ (by simp [items])).1 d rfl
    · intro d anc t hi _; trivial
    · intro d anc t hi _; trivial
    · intro cs ih anc t hi hv
      have h0 := (hi ⟨anc, .document⟩ (by simp [items])).2.2 rfl
      refine ⟨h0.2.1, ih (b!"#document" :: anc) ?_ (fun x hx => hv x (by simp [nodes, hx]))⟩
      intro i hm
      have := hi i (by simp [items, hm])
      refine ⟨this.1, this.2.1, ?_⟩
      intro he
      obtain ⟨p, hp⟩ := items_anc.2 cs _ i hm
      have h3 := (this.2.2 he).1
      rw [hp] at h3
      have := congrArg List.length h3
      simp at this
      omega
    · intro n a cs ih anc t hi hv
      refine ⟨fun hf => by simp at hf, (hi ⟨anc, .elem n a⟩ (by simp [items])).2.1 n a rfl, ?_, ih (n :: anc) ?_ (fun x hx => hv x (by simp [nodes, hx]))⟩
      · intro hvn
        exact hv (.elem n a cs) (by simp [nodes]) hvn
      · intro i hm
        have := hi i (by simp [items, hm])
        refine ⟨this.1, this.2.1, ?_⟩
        intro he
        obtain ⟨p, hp⟩ := items_anc.2 cs _ i hm
        have h3 := (this.2.2 he).1
        rw [hp] at h3
        have := congrArg List.length h3
        simp at this
        omega
    · intro anc _ _; trivial
    · intro n ns ih1 ih2 anc hi hv
      refine ⟨ih1 anc false ?_ (fun x hx => hv x (by simp [nodesL, hx])), ih2 anc (fun i hm => hi i (by simp [itemsL, hm])) (fun x hx => hv x (by simp [nodesL, hx]))⟩
      intro i hm
      have := hi i (by simp [itemsL, hm])
      exact ⟨this.1, this.2.1, fun he => absurd he this.2.2⟩
  refine key.1 doc [] true ?_ hp.void
  intro i hi
  exact ⟨fun d hd => ⟨hp.texts i hi d hd, fun hf => hh hf i hi d hd⟩, fun n a hn => hp.attrs i hi n a hn, fun he => ⟨hp.document i hi he, rfl, rfl⟩⟩

/-- The elements whose content is between delimiters of the strikethrough plugin. -/
def struck (E : Env) (n : Bytes) : Bool := E.strike.isSome && isStrike n

/-- The tree has no block inside of a heading or inline element, except between such delimiters. -/
def Placed (E : Env) (inside : Bool) (n : Node) : Prop := Free isBlockName isNarrow (struck E) inside n

theorem mergeOK_strike : MergeOK isStrike := by constructor <;> decide

theorem strike_ok (E : Env) (doc : Node) (t : Bool) (hd : ok (kinds h r) t doc) (ho : Outside isBlockName isNarrow false doc) :
    ok (kinds h r) t (strikePreRender E doc) ∧ txts (strikePreRender E doc) = txts doc ∧ Placed E false (strikePreRender E doc) := by
  rw [strikePreRender]
  split
  · rename_i hs
    have h2 := ok_redundant bothStrike doc t hd
    have o2 := redundant_outside bothStrike doc false ho
    have f2 := (outside_free (free := struck E)).1 _ _ o2
    refine ⟨ok_merge isStrike spanV (notVoid _ (by decide) (by decide) (by decide)) _ t h2, ?_, ?_⟩
    · rw [mergeAdjacent_txts isStrike mergeOK_strike, removeRedundant_txts]
    · refine free_merge isStrike (fun n hn => by rw [struck, hs, hn]; rfl) ?_ (fun d => by rw [Node.name]; decide) _ false f2
      rintro d (rfl | rfl | rfl) <;> decide
  · exact ⟨hd, rfl, outside_free.1 _ _ ho⟩

/-- Before rendering, the tree satisfies the conditions and has all visible characters of the page. -/
theorem preRender_ok (E : Env) {doc : Node} (hp : Page doc) (hh : h = true → ∀ i ∈ items [] doc, ∀ d, i.what = .text d → 35 ∉ d) :
    ok (kinds h true) true (preRender E doc) ∧ (pageChars doc).Sublist (shown (txts (preRender E doc))) ∧
    Placed E false (preRender E doc) := by
  have h0 := page_ok hp hh
  have hroot : isRemoved doc.name = false := by
    rw [← Bool.not_eq_true, isRemoved_iff]
    exact hp.root
  have h1 := ok_remove.1 doc true h0 hroot
  have e1 := remove_txts.1 doc
  have e0 : pageChars doc = shown (kept doc) := by
    have := kept_items.1 doc [] rfl
    rw [hroot, if_neg (by simp)] at this
    rw [pageChars, pageTexts, ← this]
    rfl
  have h2 := ok_mergeText.1 _ true h1
  have h3 := handlePreRender_ok E.tables _ true h2.1
  have o3 := handlePreRender_outside E.tables (mergeText (removeIn isRemoved doc))
  obtain ⟨h5, e5, o5⟩ := strike_ok E _ true h3.1 o3
  have h4 := ok_collapse (Collapse.baseFuncs (Render.isBlock E)) tr_text _ true h5
  have e4 := collapse_shown (Collapse.baseFuncs (Render.isBlock E)) _ true h5
  have o4 := collapse_free (Collapse.baseFuncs (Render.isBlock E)) _ false o5
  have hs : (pageChars doc).Sublist (shown (txts (collapse (Collapse.baseFuncs (Render.isBlock E))
      (strikePreRender E (handlePreRender E.tables (mergeText (removeIn isRemoved doc))))))) := by
    rw [e4, e5, e0, ← e1, ← h2.2]; exact h3.2
  simp only [preRender, preRenderRemove, hroot, Bool.false_eq_true, if_false]
  split
  · exact ⟨h4, hs, o4⟩
  · refine ⟨ok_listEnd.1 _ true h4 [], ?_, listEnd_free.1 _ false o4 []⟩
    rw [addListEndComments, listEnd_txts.1]
    exact hs

end Verif.Chars
