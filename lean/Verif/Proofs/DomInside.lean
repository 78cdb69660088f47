import Verif.Proofs.DomAll
/-!
# What is not inside of what, through the later steps of the normalisation
-/

namespace Verif.Dom
open Verif Verif.DomUtils Verif.Spec

mutual
/-- No element that is `bad` is inside of one that is `closed` (`f`: the tree itself is inside of one). -/
def Outside (bad closed : Bytes → Bool) (f : Bool) : Node → Prop
  | .elem n _ cs => (f = true → bad n = false) ∧ OutsideL bad closed (f || closed n) cs
  | .document cs => OutsideL bad closed f cs
  | _ => True
def OutsideL (bad closed : Bytes → Bool) (f : Bool) : List Node → Prop
  | [] => True
  | n :: ns => Outside bad closed f n ∧ OutsideL bad closed f ns
end

variable {bad closed : Bytes → Bool}

theorem outside_mono : (∀ n, ∀ f g : Bool, (g = true → f = true) → Outside bad closed f n → Outside bad closed g n) ∧
    (∀ ns, ∀ f g : Bool, (g = true → f = true) → OutsideL bad closed f ns → OutsideL bad closed g ns) := by
  apply induct
  · intro d f g _ _; trivial
  · intro d f g _ _; trivial
  · intro d f g _ _; trivial
  · intro cs ih f g h hn; exact ih f g h hn
  · intro n a cs ih f g h hn
    refine ⟨fun hg => hn.1 (h hg), ih _ _ ?_ hn.2⟩
    cases f <;> cases g <;> simp_all
  · intro f g _ _; trivial
  · intro n ns ih1 ih2 f g h hn; exact ⟨ih1 f g h hn.1, ih2 f g h hn.2⟩

theorem outsideL_append (f : Bool) : ∀ a b : List Node, OutsideL bad closed f (a ++ b) ↔ OutsideL bad closed f a ∧ OutsideL bad closed f b
  | [], b => by simp [OutsideL]
  | x :: a, b => by simp [OutsideL, outsideL_append f a b, and_assoc]

theorem outsideL_mem (f : Bool) : ∀ l : List Node, OutsideL bad closed f l ↔ ∀ x ∈ l, Outside bad closed f x
  | [] => by simp [OutsideL]
  | x :: a => by simp [OutsideL, outsideL_mem f a]

/-- The same in terms of the nodes with their surroundings. -/
theorem outside_items (hd : closed b!"#document" = false) :
    (∀ n, ∀ anc, Outside bad closed (anc.any closed) n ↔
      ∀ i ∈ items anc n, ∀ k a, i.what = .elem k a → bad k = true → i.anc.any closed = false) ∧
    (∀ ns, ∀ anc, OutsideL bad closed (anc.any closed) ns ↔
      ∀ i ∈ itemsL anc ns, ∀ k a, i.what = .elem k a → bad k = true → i.anc.any closed = false) := by
  apply induct
  · intro d anc; simp [Outside, items]
  · intro d anc; simp [Outside, items]
  · intro d anc; simp [Outside, items]
  · intro cs ih anc
    have := ih (b!"#document" :: anc)
    rw [List.any_cons, hd, Bool.false_or] at this
    rw [Outside, this]
    simp [items]
  · intro n a cs ih anc
    have := ih (n :: anc)
    rw [List.any_cons, Bool.or_comm] at this
    rw [Outside, this, items]
    constructor
    · intro h i hi k a' hk hb
      rcases List.mem_cons.1 hi with rfl | hi
      · simp at hk
        obtain ⟨rfl, rfl⟩ := hk
        cases hc : anc.any closed with
        | false => rfl
        | true => rw [h.1 hc] at hb; simp at hb
      · exact h.2 i hi k a' hk hb
    · intro h
      refine ⟨fun hc => ?_, fun i hi => h i (by simp [hi])⟩
      cases hb : bad n with
      | false => rfl
      | true =>
        have := h ⟨anc, .elem n a⟩ (by simp) n a rfl hb
        rw [hc] at this
        simp at this
  · intro anc; simp [OutsideL, itemsL]
  · intro n ns ih1 ih2 anc
    rw [OutsideL, ih1, ih2, itemsL]
    simp only [List.mem_append]
    constructor
    · rintro ⟨h1, h2⟩ i (hi | hi)
      · exact h1 i hi
      · exact h2 i hi
    · intro h
      exact ⟨fun i hi => h i (.inl hi), fun i hi => h i (.inr hi)⟩

/-! ## Swapping tags, if an element that is `bad` is `closed` itself -/

theorem outside_blank (f : Bool) (c : Node) (h : isEmptyText c = true) : Outside bad closed f c := by
  cases c <;> simp_all [isEmptyText, Outside]

theorem swap_outside {p : Bytes → Bool} (outer inner : Bytes → Bool) :
    (∀ n, ∀ f, Outside p p f n → Outside p p f (swapTags outer inner n)) ∧
    (∀ ns, ∀ f, OutsideL p p f ns → OutsideL p p f (swapTagsL outer inner ns)) := by
  apply induct
  · intro d f h; exact h
  · intro d f h; exact h
  · intro d f h; exact h
  · intro cs ih f h; exact ih f h
  · intro n a cs ih f h
    rw [swapTags]
    split
    · rename_i n' a' ks heq
      split
      · have hm : Node.elem n' a' ks ∈ cs := by
          have : Node.elem n' a' ks ∈ cs.filter fun c => !isEmptyText c := by rw [heq]; simp
          exact (List.mem_filter.1 this).1
        have hc := (outsideL_mem _ cs).1 h.2 _ hm
        refine ⟨?_, ?_⟩
        · intro hf
          have := hc.1 (by rw [hf]; rfl)
          exact this
        · rw [outsideL_mem]
          intro x hx
          rw [List.mem_map] at hx
          obtain ⟨c, hc1, rfl⟩ := hx
          split
          · rename_i hb; exact outside_blank _ c hb
          · refine ⟨?_, ?_⟩
            · intro hf
              cases hff : f with
              | true => exact h.1 hff
              | false =>
                rw [hff, Bool.false_or] at hf
                cases hn : p n with
                | false => rfl
                | true =>
                  have := hc.1 (by rw [hn]; simp)
                  rw [this] at hf; simp at hf
            · have := hc.2
              rw [Bool.or_assoc, Bool.or_comm (p n), ← Bool.or_assoc] at this
              exact this
      · exact ⟨h.1, ih _ h.2⟩
    · exact ⟨h.1, ih _ h.2⟩
  · intro f h; exact h
  · intro n ns ih1 ih2 f h; exact ⟨ih1 f h.1, ih2 f h.2⟩

/-! ## Alternatives for blocks -/

theorem alternative_outside (hstrong : bad b!"strong" = false) (hbr : bad b!"br" = false) (hspan : bad b!"span" = false) (hcode : bad b!"code" = false)
    (cstrong : closed b!"strong" = false) (cspan : closed b!"span" = false) (ccode : closed b!"code" = false)
    (f : Bool) (n : Bytes) (a : List (Bytes × Bytes)) (cs : List Node) (h : OutsideL bad closed f cs) :
    OutsideL bad closed f (alternative n a cs) := by
  rw [alternative]
  split
  · simp [OutsideL, Outside, hstrong, hbr, cstrong, h]
  split
  · simp [OutsideL, Outside, hspan, cspan, h]
  split
  · simp [OutsideL, Outside, hcode, ccode, h]
  split
  · simp [OutsideL]
  · simp [OutsideL, Outside, hspan, cspan, h]

theorem leaf_outsideOf (hstrong : bad b!"strong" = false) (hbr : bad b!"br" = false) (hspan : bad b!"span" = false) (hcode : bad b!"code" = false)
    (cstrong : closed b!"strong" = false) (cspan : closed b!"span" = false) (ccode : closed b!"code" = false) :
    (∀ n, ∀ f l i, Outside bad closed f n → OutsideL bad closed f (leafAlternativesIn l i n)) ∧
    (∀ ns, ∀ f l i, OutsideL bad closed f ns → OutsideL bad closed f (leafAlternativesL l i ns)) := by
  apply induct
  · intro d f l i h; exact ⟨h, trivial⟩
  · intro d f l i h; exact ⟨h, trivial⟩
  · intro d f l i h; exact ⟨h, trivial⟩
  · intro cs ih f l i h; exact ⟨ih f l i h, trivial⟩
  · intro n a cs ih f l i h
    rw [leafAlternativesIn]
    have hk := ih (f || closed n) (l || decide (getStructure n = .leaf)) (i || decide (getStructure n = .inline)) h.2
    split
    · exact alternative_outside hstrong hbr hspan hcode cstrong cspan ccode f n a _ (outside_mono.2 _ _ f (by intro hf; rw [hf]; rfl) hk)
    · exact ⟨⟨h.1, hk⟩, trivial⟩
  · intro f l i h; exact h
  · intro n ns ih1 ih2 f l i h
    rw [leafAlternativesL, outsideL_append]
    exact ⟨ih1 f l i h.1, ih2 f l i h.2⟩

/-! ## Moving list items -/

theorem moveItemsGo_outside (f : Bool) (hbad : f = true → bad b!"li" = false) (hcl : closed b!"li" = false) :
    ∀ (cs : List Node) (cur : Option (List (Bytes × Bytes) × List Node × List Node)),
      (∀ a ks bl, cur = some (a, ks, bl) → OutsideL bad closed f ks ∧ OutsideL bad closed f bl) → OutsideL bad closed f cs →
      OutsideL bad closed f (moveItemsGo cur cs)
  | [], none, _, _ => by simp [moveItemsGo, OutsideL]
  | [], some (a, ks, bl), h, _ => by
    have := h a ks bl rfl
    rw [moveItemsGo]
    exact ⟨⟨hbad, by rw [hcl, Bool.or_false]; exact this.1⟩, this.2⟩
  | c :: cs, cur, h, hcs => by
    have hcur : OutsideL bad closed f (match (generalizing := false) cur with | none => [] | some (a, ks, blanks) => .elem b!"li" a ks :: blanks) := by
      rcases cur with _ | ⟨a, ks, bl⟩
      · trivial
      · have := h a ks bl rfl
        exact ⟨⟨hbad, by rw [hcl, Bool.or_false]; exact this.1⟩, this.2⟩
    rw [moveItemsGo_cons]
    split
    · rw [outsideL_append]
      refine ⟨hcur, moveItemsGo_outside f hbad hcl cs _ ?_ hcs.2⟩
      intro a ks bl he
      rename_i hli
      cases c with
      | elem n a' ks' =>
        simp only [Option.some.injEq, Prod.mk.injEq] at he
        obtain ⟨rfl, rfl, rfl⟩ := he
        have hn : n = b!"li" := by simpa [isLi] using hli
        have := hcs.1.2
        rw [hn, hcl, Bool.or_false] at this
        exact ⟨this, trivial⟩
      | _ => simp [isLi] at hli
    split
    · split
      · exact ⟨hcs.1, moveItemsGo_outside f hbad hcl cs none (by simp) hcs.2⟩
      · rename_i a ks bl
        have := h a ks bl rfl
        refine moveItemsGo_outside f hbad hcl cs _ ?_ hcs.2
        intro a' ks' bl' he
        simp only [Option.some.injEq, Prod.mk.injEq] at he
        obtain ⟨rfl, rfl, rfl⟩ := he
        exact ⟨this.1, (outsideL_append f bl [c]).2 ⟨this.2, hcs.1, trivial⟩⟩
    · split
      · refine moveItemsGo_outside f hbad hcl cs _ ?_ hcs.2
        intro a' ks' bl' he
        simp only [Option.some.injEq, Prod.mk.injEq] at he
        obtain ⟨rfl, rfl, rfl⟩ := he
        exact ⟨⟨hcs.1, trivial⟩, trivial⟩
      · rename_i a ks bl
        have := h a ks bl rfl
        refine moveItemsGo_outside f hbad hcl cs _ ?_ hcs.2
        intro a' ks' bl' he
        simp only [Option.some.injEq, Prod.mk.injEq] at he
        obtain ⟨rfl, rfl, rfl⟩ := he
        exact ⟨(outsideL_append f ks [c]).2 ⟨this.1, hcs.1, trivial⟩, this.2⟩

/-- A list is `bad` if a list item is. -/
theorem moveListItems_outside (hl : bad b!"li" = true → bad b!"ul" = true ∧ bad b!"ol" = true) (hcl : closed b!"li" = false)
    (hul : closed b!"ul" = false) (hol : closed b!"ol" = false) :
    (∀ n, ∀ f, Outside bad closed f n → Outside bad closed f (moveListItems n)) ∧
    (∀ ns, ∀ f, OutsideL bad closed f ns → OutsideL bad closed f (moveListItemsL ns)) := by
  apply induct
  · intro d f h; exact h
  · intro d f h; exact h
  · intro d f h; exact h
  · intro cs ih f h; exact ih f h
  · intro n a cs ih f h
    rw [moveListItems]
    refine ⟨h.1, ?_⟩
    split
    · rename_i hn
      refine moveItemsGo_outside _ ?_ hcl _ none (by simp) (ih _ h.2)
      intro hf
      cases hb : bad b!"li" with
      | false => rfl
      | true =>
        have := hl hb
        rcases hn with rfl | rfl
        · rw [hol, Bool.or_false] at hf
          rw [h.1 hf] at this; simp at this
        · rw [hul, Bool.or_false] at hf
          rw [h.1 hf] at this; simp at this
    · exact ih _ h.2
  · intro f h; exact h
  · intro n ns ih1 ih2 f h; exact ⟨ih1 f h.1, ih2 f h.2⟩

end Verif.Dom
