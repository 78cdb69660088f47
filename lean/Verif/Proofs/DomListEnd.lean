import Verif.Proofs.DomBlocks
/-!
# Ends of lists
-/

namespace Verif.Dom
open Verif Verif.DomUtils Verif.Spec

theorem eventsL_append (a b : List Node) : eventsL (a ++ b) = eventsL a ++ eventsL b := by
  induction a with
  | nil => simp [eventsL]
  | cons x a ih => simp [eventsL, ih]

/-- Behind every end of a list in the walk `evs` no list follows directly; `t` is what comes after `evs`. -/
def goodT : List Ev → List Ev → Bool
  | [], _ => true
  | .cl l :: es, t => (!isListName l || !nextIsList (es ++ t)) && goodT es t
  | _ :: es, t => goodT es t

theorem goodT_append : ∀ (a b t : List Ev), goodT (a ++ b) t = (goodT a (b ++ t) && goodT b t)
  | [], b, t => by simp [goodT]
  | .cl l :: a, b, t => by simp [goodT, goodT_append a b t, Bool.and_assoc]
  | .op n :: a, b, t => by simp [goodT, goodT_append a b t]
  | .text :: a, b, t => by simp [goodT, goodT_append a b t]
  | .comment d :: a, b, t => by simp [goodT, goodT_append a b t]

theorem events_op (n : Node) (h : isListName n.name = true) : ∃ r, events n = .op n.name :: r := by
  cases n with
  | elem n a cs => exact ⟨_, rfl⟩
  | text d => simp [Node.name, isListName] at h
  | comment d => simp [Node.name, isListName] at h
  | doctype d => simp [Node.name, isListName] at h
  | document cs => simp [Node.name, isListName] at h

theorem addListEndIn_name (after : List Ev) (n : Node) : (addListEndIn after n).name = n.name := by
  cases n <;> rfl

theorem nextIsList_op {l : Bytes} (h : isListName l = true) (r : List Ev) : nextIsList (.op l :: r) = true := by
  rw [nextIsList, if_pos h]

/-- The inserted comments do not matter for what comes before. -/
theorem addListEnd_next :
    (∀ n, ∀ after y y', nextIsList y = nextIsList y' → nextIsList (events (addListEndIn after n) ++ y) = nextIsList (events n ++ y')) ∧
    (∀ ns, ∀ after y y', nextIsList y = nextIsList y' → nextIsList (eventsL (addListEndL after ns) ++ y) = nextIsList (eventsL ns ++ y')) := by
  apply induct
  · intro d after y y' h; rfl
  · intro d after y y' h; simp [addListEndIn, events, nextIsList, h]
  · intro d after y y' h; simp [addListEndIn, events, nextIsList, h]
  · intro cs ih after y y' h
    simp only [addListEndIn, events, List.cons_append, List.append_assoc, nextIsList]
    rw [ih _ _ (Ev.cl b!"#document" :: y') (by simp [nextIsList, h])]
    rfl
  · intro n a cs ih after y y' h
    simp only [addListEndIn, events, List.cons_append, List.append_assoc, nextIsList]
    rw [ih _ _ (Ev.cl n :: y') (by simp [nextIsList, h])]
    rfl
  · intro after y y' h; simpa [addListEndL, eventsL] using h
  · intro n ns ih1 ih2 after y y' h
    rw [addListEndL, eventsL]
    split
    · rename_i hc
      simp only [Bool.and_eq_true] at hc
      rw [eventsL]
      obtain ⟨r, hr⟩ := events_op n hc.1
      obtain ⟨r', hr'⟩ := events_op (addListEndIn (.comment listEndComment :: eventsL ns ++ after) n) (by rw [addListEndIn_name]; exact hc.1)
      rw [hr, hr', addListEndIn_name]
      simp only [List.cons_append]
      rw [nextIsList_op hc.1, nextIsList_op hc.1]
    · rw [eventsL, List.append_assoc, List.append_assoc]
      exact ih1 _ _ _ (ih2 _ _ _ h)

theorem addListEnd_good :
    (∀ n, ∀ after tail, nextIsList tail = nextIsList after → (isListName n.name = true → nextIsList tail = false) →
      goodT (events (addListEndIn after n)) tail = true) ∧
    (∀ ns, ∀ after tail, nextIsList tail = nextIsList after → goodT (eventsL (addListEndL after ns)) tail = true) := by
  apply induct
  · intro d after tail _ _; rfl
  · intro d after tail _ _; rfl
  · intro d after tail _ _
    rfl
  · intro cs ih after tail h hl
    simp only [addListEndIn, events, goodT]
    rw [goodT_append, ih _ _ (by simp [nextIsList, h])]
    rfl
  · intro n a cs ih after tail h hl
    simp only [addListEndIn, events, goodT]
    rw [goodT_append, ih _ _ (by simp [nextIsList, h])]
    simp only [Node.name] at hl
    simp only [goodT, List.nil_append, Bool.true_and, Bool.and_true]
    cases hn : isListName n with
    | false => rfl
    | true => simp [hl hn]
  · intro after tail _; rfl
  · intro n ns ih1 ih2 after tail h
    rw [addListEndL]
    split
    · rw [eventsL, eventsL, goodT_append]
      rw [ih1 _ _ (by simp [events, nextIsList]) (by intro _; simp [events, nextIsList])]
      simp only [events, List.cons_append, List.nil_append, goodT, Bool.true_and]
      exact ih2 _ _ h
    · rename_i hc
      have he := addListEnd_next.2 ns after tail after h
      rw [eventsL, goodT_append, ih1 _ _ he, ih2 _ _ h]
      · rfl
      · intro hn
        rw [he]
        simpa [hn] using hc

/-- Where no list follows another directly, nothing is inserted. -/
theorem addListEnd_id :
    (∀ n, ∀ after, goodT (events n) after = true → addListEndIn after n = n) ∧
    (∀ ns, ∀ after, goodT (eventsL ns) after = true → addListEndL after ns = ns) := by
  apply induct
  · intro d after _; rfl
  · intro d after _; rfl
  · intro d after _; rfl
  · intro cs ih after h
    simp only [events, goodT] at h
    rw [goodT_append, Bool.and_eq_true] at h
    have := ih _ h.1
    simp only [List.cons_append, List.nil_append] at this
    rw [addListEndIn, this]
  · intro n a cs ih after h
    simp only [events, goodT] at h
    rw [goodT_append, Bool.and_eq_true] at h
    have := ih _ h.1
    simp only [List.cons_append, List.nil_append] at this
    rw [addListEndIn, this]
  · intro after _; rfl
  · intro n ns ih1 ih2 after h
    rw [eventsL, goodT_append, Bool.and_eq_true] at h
    rw [addListEndL, ih1 _ h.1, ih2 _ h.2]
    split
    · rename_i hc
      exfalso
      rw [Bool.and_eq_true] at hc
      cases n with
      | elem n a cs =>
        have := h.1
        simp only [events, goodT] at this
        rw [goodT_append, Bool.and_eq_true] at this
        have := this.2
        simp only [goodT, Bool.and_true, List.nil_append] at this
        simp only [Node.name] at hc
        simp [hc.1, hc.2] at this
      | text d => simp [Node.name, isListName] at hc
      | comment d => simp [Node.name, isListName] at hc
      | doctype d => simp [Node.name, isListName] at hc
      | document cs => simp [Node.name, isListName] at hc
    · rfl

/-- A tag as part of the walk. -/
def evOf : Tag → List Ev
  | .start n => [.op n]
  | .stop n => [.cl n]
  | .text _ => [.text]
  | .comment d => [.comment d]
  | .doctype _ => [.op b!"#doctype", .cl b!"#doctype"]

theorem events_tags : (∀ n, events n = (tags n).flatMap evOf) ∧ (∀ ns, eventsL ns = (tagsL ns).flatMap evOf) := by
  apply induct
  · intro d; rfl
  · intro d; rfl
  · intro d; rfl
  · intro cs ih; simp [events, tags, evOf, ih]
  · intro n a cs ih; simp [events, tags, evOf, ih]
  · rfl
  · intro n ns ih1 ih2; simp [eventsL, tagsL, ih1, ih2]

theorem isListName_iff (l : Bytes) : isListName l = true ↔ isList l := by
  simp [isListName, isList]

/-- Two lists that follow each other directly have an end comment between them. -/
def Separated (ts : List Tag) : Prop := ∀ x l mid l' y, ts = x ++ .stop l :: (mid ++ .start l' :: y) → isList l → isList l' →
  (∀ t ∈ mid, t.between) → .comment listEndComment ∈ mid

theorem nextIsList_mid {mid : List Tag} (h : ∀ t ∈ mid, t.between) (r : List Ev) :
    nextIsList (mid.flatMap evOf ++ r) = (!(mid.contains (.comment listEndComment)) && nextIsList r) := by
  induction mid with
  | nil => simp
  | cons t mid ih =>
    have ih := ih (fun t ht => h t (by simp [ht]))
    have ht := h t (by simp)
    rw [List.flatMap_cons, List.append_assoc, List.contains_cons]
    cases t with
    | start n =>
      simp only [Tag.between] at ht
      have hn : isListName n = false := by
        rw [Bool.eq_false_iff, ne_eq, isListName_iff]; exact ht.1
      simp only [evOf, List.cons_append, List.nil_append, nextIsList]
      rw [hn, if_neg (by simp), if_neg ht.2.1, if_neg ht.2.2, ih]
      have : (Tag.comment listEndComment == Tag.start n) = false := by simp
      rw [this, Bool.false_or]
    | stop n =>
      simp only [evOf, List.cons_append, List.nil_append, nextIsList]
      rw [ih]
      have : (Tag.comment listEndComment == Tag.stop n) = false := by simp
      rw [this, Bool.false_or]
    | text d => simp [Tag.between] at ht
    | comment d =>
      simp only [evOf, List.cons_append, List.nil_append, nextIsList]
      split
      · rename_i hd
        subst hd
        simp
      · rename_i hd
        rw [ih]
        have : (Tag.comment listEndComment == Tag.comment d) = false := by
          rw [beq_eq_false_iff_ne]
          intro he
          exact hd (Tag.comment.inj he).symm
        rw [this, Bool.false_or]
    | doctype d =>
      simp only [evOf, List.cons_append, List.nil_append, nextIsList]
      rw [if_neg (by decide), if_neg (by decide), if_neg (by decide), ih]
      have : (Tag.comment listEndComment == Tag.doctype d) = false := by simp
      rw [this, Bool.false_or]

theorem goodT_split {es : List Ev} {t : List Ev} (h : goodT es t = true) {x : List Ev} {l : Bytes} {z : List Ev}
    (he : es = x ++ .cl l :: z) (hl : isListName l = true) : nextIsList (z ++ t) = false := by
  subst he
  rw [goodT_append, Bool.and_eq_true] at h
  have := h.2
  simp only [goodT, hl, Bool.not_true, Bool.false_or, Bool.and_eq_true] at this
  simpa using this.1

theorem nextIsList_find : ∀ ts : List Tag, nextIsList (ts.flatMap evOf) = true →
    ∃ mid l' y, ts = mid ++ .start l' :: y ∧ isList l' ∧ (∀ t ∈ mid, t.between) ∧ .comment listEndComment ∉ mid
  | [], h => by simp [nextIsList] at h
  | .start n :: ts, h => by
    simp only [List.flatMap_cons, evOf, List.cons_append, List.nil_append, nextIsList] at h
    by_cases hn : isListName n = true
    · exact ⟨[], n, ts, rfl, (isListName_iff n).1 hn, by simp, by simp⟩
    rw [if_neg hn] at h
    split at h
    · simp at h
    split at h
    · simp at h
    rename_i h1 h2
    obtain ⟨mid, l', y, rfl, h3, h4, h5⟩ := nextIsList_find ts h
    refine ⟨.start n :: mid, l', y, rfl, h3, ?_, by simp [h5]⟩
    intro t ht
    rcases List.mem_cons.1 ht with rfl | ht
    · exact ⟨fun hl => hn ((isListName_iff n).2 hl), h1, h2⟩
    · exact h4 t ht
  | .stop n :: ts, h => by
    simp only [List.flatMap_cons, evOf, List.cons_append, List.nil_append, nextIsList] at h
    obtain ⟨mid, l', y, rfl, h3, h4, h5⟩ := nextIsList_find ts h
    refine ⟨.stop n :: mid, l', y, rfl, h3, ?_, by simp [h5]⟩
    intro t ht
    rcases List.mem_cons.1 ht with rfl | ht
    · trivial
    · exact h4 t ht
  | .text d :: ts, h => by simp [evOf, nextIsList] at h
  | .comment d :: ts, h => by
    simp only [List.flatMap_cons, evOf, List.cons_append, List.nil_append, nextIsList] at h
    split at h
    · simp at h
    rename_i hd
    obtain ⟨mid, l', y, rfl, h3, h4, h5⟩ := nextIsList_find ts h
    refine ⟨.comment d :: mid, l', y, rfl, h3, ?_, ?_⟩
    · intro t ht
      rcases List.mem_cons.1 ht with rfl | ht
      · trivial
      · exact h4 t ht
    · simp only [List.mem_cons, not_or, h5, not_false_eq_true, and_true, Tag.comment.injEq]
      exact fun h => hd h.symm
  | .doctype d :: ts, h => by
    simp only [List.flatMap_cons, evOf, List.cons_append, List.nil_append, nextIsList] at h
    rw [if_neg (by decide), if_neg (by decide), if_neg (by decide)] at h
    obtain ⟨mid, l', y, rfl, h3, h4, h5⟩ := nextIsList_find ts h
    refine ⟨.doctype d :: mid, l', y, rfl, h3, ?_, by simp [h5]⟩
    intro t ht
    rcases List.mem_cons.1 ht with rfl | ht
    · trivial
    · exact h4 t ht

theorem separated_of_good {ts : List Tag} (h : goodT (ts.flatMap evOf) [] = true) : Separated ts := by
  intro x l mid l' y he hl hl' hm
  subst he
  have := goodT_split h (x := x.flatMap evOf) (l := l) (z := mid.flatMap evOf ++ .op l' :: y.flatMap evOf)
    (by simp [evOf]) ((isListName_iff l).2 hl)
  rw [List.append_nil, nextIsList_mid hm, nextIsList_op ((isListName_iff l').2 hl')] at this
  simpa using this

theorem good_of_separated : ∀ ts : List Tag, Separated ts → goodT (ts.flatMap evOf) [] = true
  | [], _ => rfl
  | t :: ts, h => by
    have ih := good_of_separated ts (by
      intro x l mid l' y he
      exact h (t :: x) l mid l' y (by rw [he]; rfl))
    cases t with
    | start n => simpa [evOf, goodT] using ih
    | text d => simpa [evOf, goodT] using ih
    | comment d => simpa [evOf, goodT] using ih
    | doctype d =>
      simp only [List.flatMap_cons, evOf, List.cons_append, List.nil_append, goodT, ih, Bool.and_true]
      rw [show isListName b!"#doctype" = false from by decide]
      rfl
    | stop l =>
      simp only [List.flatMap_cons, evOf, List.cons_append, List.nil_append, goodT, ih, Bool.and_true, List.append_nil]
      cases hl : isListName l with
      | false => rfl
      | true =>
        cases hn : nextIsList (ts.flatMap evOf) with
        | false => rfl
        | true =>
          obtain ⟨mid, l', y, rfl, h3, h4, h5⟩ := nextIsList_find ts hn
          exact absurd (h [] l mid l' y rfl ((isListName_iff l).1 hl) h3 h4) h5

/-- Is it an end comment? -/
def notEnd (i : Item) : Bool := i.what ≠ .comment listEndComment

theorem addListEnd_items :
    (∀ n, ∀ after anc, (items anc (addListEndIn after n)).filter notEnd = (items anc n).filter notEnd) ∧
    (∀ ns, ∀ after anc, (itemsL anc (addListEndL after ns)).filter notEnd = (itemsL anc ns).filter notEnd) := by
  apply induct
  · intro d after anc; rfl
  · intro d after anc; rfl
  · intro d after anc; rfl
  · intro cs ih after anc
    rw [addListEndIn, items, items, List.filter_cons_of_pos (by simp [notEnd]), List.filter_cons_of_pos (by simp [notEnd]), ih]
  · intro n a cs ih after anc
    rw [addListEndIn, items, items, List.filter_cons_of_pos (by simp [notEnd]), List.filter_cons_of_pos (by simp [notEnd]), ih]
  · intro after anc; rfl
  · intro n ns ih1 ih2 after anc
    rw [addListEndL]
    split
    · rw [itemsL, itemsL, List.filter_append, List.filter_append, ih1, ih2, itemsL, List.filter_append]
      simp [items, notEnd]
    · rw [itemsL, List.filter_append, ih1, ih2, itemsL, List.filter_append]

end Verif.Dom
