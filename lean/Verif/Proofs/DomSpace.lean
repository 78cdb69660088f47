import Verif.Proofs.DomListEnd
import Verif.Proofs.DomInside
/-!
# Where spaces are added
-/
set_option linter.unusedSimpArgs false

namespace Verif.Dom
open Verif Verif.DomUtils Verif.Spec

/-! ## The texts of a tree as tags -/

/-- Change the texts among tags; they are numbered. -/
def mapTags (f : Nat → Bytes → Bytes) : Nat → List Tag → List Tag
  | _, [] => []
  | k, .text d :: ts => .text (f k d) :: mapTags f (k + 1) ts
  | k, .start n :: ts => .start n :: mapTags f k ts
  | k, .stop n :: ts => .stop n :: mapTags f k ts
  | k, .comment d :: ts => .comment d :: mapTags f k ts
  | k, .doctype d :: ts => .doctype d :: mapTags f k ts

/-- The number of texts. -/
def numTexts : List Tag → Nat
  | [] => 0
  | .text _ :: ts => numTexts ts + 1
  | .start _ :: ts => numTexts ts
  | .stop _ :: ts => numTexts ts
  | .comment _ :: ts => numTexts ts
  | .doctype _ :: ts => numTexts ts

theorem numTexts_append : ∀ a b : List Tag, numTexts (a ++ b) = numTexts a + numTexts b
  | [], b => by simp [numTexts]
  | t :: a, b => by
    have := numTexts_append a b
    cases t <;> simp [numTexts, this]
    omega

theorem mapTags_append (f : Nat → Bytes → Bytes) : ∀ (a b : List Tag) (k : Nat), mapTags f k (a ++ b) = mapTags f k a ++ mapTags f (k + numTexts a) b
  | [], b, k => by simp [numTexts, mapTags]
  | t :: a, b, k => by
    cases t with
    | text d =>
      have := mapTags_append f a b (k + 1)
      simp only [List.cons_append, mapTags, numTexts, this]
      rw [show k + 1 + numTexts a = k + (numTexts a + 1) by omega]
    | _ => simp only [List.cons_append, mapTags, numTexts, mapTags_append f a b k]

theorem mapTexts_tags (f : Nat → Bytes → Bytes) :
    (∀ n, ∀ k, tags (mapTexts f k n).1 = mapTags f k (tags n) ∧ (mapTexts f k n).2 = k + numTexts (tags n)) ∧
    (∀ ns, ∀ k, tagsL (mapTextsL f k ns).1 = mapTags f k (tagsL ns) ∧ (mapTextsL f k ns).2 = k + numTexts (tagsL ns)) := by
  apply induct
  · intro d k; exact ⟨rfl, rfl⟩
  · intro d k; exact ⟨rfl, rfl⟩
  · intro d k; exact ⟨rfl, rfl⟩
  · intro cs ih k
    simp [mapTexts, tags, ih, mapTags, numTexts, mapTags_append, numTexts_append]
  · intro n a cs ih k
    simp [mapTexts, tags, ih, mapTags, numTexts, mapTags_append, numTexts_append]
  · intro k; exact ⟨rfl, rfl⟩
  · intro n ns ih1 ih2 k
    simp [mapTextsL, tagsL, ih1, ih2, mapTags_append, numTexts_append, Nat.add_assoc]

theorem mapTags_length (f : Nat → Bytes → Bytes) : ∀ (a : List Tag) (k : Nat), (mapTags f k a).length = a.length
  | [], _ => rfl
  | t :: a, k => by cases t <;> simp [mapTags, mapTags_length f a]

theorem mapTags_ev (f : Nat → Bytes → Bytes) : ∀ (a : List Tag) (k : Nat), (mapTags f k a).flatMap evOf = a.flatMap evOf
  | [], _ => rfl
  | t :: a, k => by cases t <;> simp [mapTags, mapTags_ev f a, evOf]

theorem mapTags_numTexts (f : Nat → Bytes → Bytes) : ∀ (a : List Tag) (k : Nat), numTexts (mapTags f k a) = numTexts a
  | [], _ => rfl
  | t :: a, k => by cases t <;> simp [mapTags, mapTags_numTexts f a, numTexts]

/-- If the changed tags can be split then so can the tags. -/
theorem mapTags_split (f : Nat → Bytes → Bytes) : ∀ (ts x y : List Tag) (k : Nat), mapTags f k ts = x ++ y →
    ∃ x0 y0, ts = x0 ++ y0 ∧ x = mapTags f k x0 ∧ y = mapTags f (k + numTexts x0) y0 := by
  intro ts x y k h
  have hl := congrArg List.length h
  rw [mapTags_length, List.length_append] at hl
  refine ⟨ts.take x.length, ts.drop x.length, (List.take_append_drop _ _).symm, ?_⟩
  have h2 := mapTags_append f (ts.take x.length) (ts.drop x.length) k
  rw [List.take_append_drop, h] at h2
  have := List.append_inj h2 (by rw [mapTags_length, List.length_take]; omega)
  exact this

/-! ## The numbers of the texts that get a space -/

/-- The number of texts of a walk. -/
def evTexts (es : List Ev) : Nat := es.countP (· = .text)

theorem evTexts_tags (ts : List Tag) : evTexts (ts.flatMap evOf) = numTexts ts := by
  induction ts with
  | nil => rfl
  | cons t ts ih =>
    rw [List.flatMap_cons, evTexts, List.countP_append]
    rw [evTexts] at ih
    rw [ih]
    cases t <;> simp [evOf, numTexts] <;> omega

theorem added_before (outer inner : Bytes → Bool) : ∀ (after before : List Ev) (k j : Nat),
    j ∈ (addedSpaces outer inner before k after).1 ↔
      ∃ A n B, after = A ++ .op n :: B ∧ outer n = true ∧ firstIsInner inner B = true ∧ prevIsText (A.reverse ++ before) = true ∧
        j = k + evTexts A - 1
  | [], before, k, j => by simp [addedSpaces]
  | e :: after, before, k, j => by
    have ih := added_before outer inner after (e :: before) (if e = .text then k + 1 else k) j
    have hstep : (∃ A n B, e :: after = A ++ .op n :: B ∧ outer n = true ∧ firstIsInner inner B = true ∧ prevIsText (A.reverse ++ before) = true ∧
        j = k + evTexts A - 1) ↔ (∃ n, e = .op n ∧ outer n = true ∧ firstIsInner inner after = true ∧ prevIsText before = true ∧ j = k - 1) ∨
        j ∈ (addedSpaces outer inner (e :: before) (if e = .text then k + 1 else k) after).1 := by
      rw [ih]
      constructor
      · rintro ⟨A, n, B, h1, h2, h3, h4, h5⟩
        cases A with
        | nil =>
          simp only [List.nil_append, List.cons.injEq] at h1
          obtain ⟨rfl, rfl⟩ := h1
          exact .inl ⟨n, rfl, h2, h3, h4, by simpa [evTexts] using h5⟩
        | cons a A =>
          simp only [List.cons_append, List.cons.injEq] at h1
          obtain ⟨rfl, rfl⟩ := h1
          refine .inr ⟨A, n, B, rfl, h2, h3, by simpa using h4, ?_⟩
          rw [h5, evTexts, evTexts, List.countP_cons]
          by_cases he : e = .text
          · simp [he] <;> omega
          · simp [he]
      · rintro (⟨n, rfl, h2, h3, h4, h5⟩ | ⟨A, n, B, rfl, h2, h3, h4, h5⟩)
        · exact ⟨[], n, after, rfl, h2, h3, by simpa using h4, by simpa [evTexts] using h5⟩
        · refine ⟨e :: A, n, B, rfl, h2, h3, by simpa using h4, ?_⟩
          rw [h5, evTexts, evTexts, List.countP_cons]
          by_cases he : e = .text
          · simp [he] <;> omega
          · simp [he]
    rw [hstep]
    cases e with
    | op n =>
      rw [addedSpaces]
      split
      · rename_i h
        simp only [Bool.and_eq_true] at h
        simp [h]
      · rename_i h
        simp only [Bool.and_eq_true, not_and, Bool.not_eq_true] at h
        constructor
        · exact .inr
        · rintro (⟨n', he, h2, h3, h4, _⟩ | h')
          · cases he
            rw [h ⟨h2, h3⟩] at h4; simp at h4
          · exact h'
    | cl n => rw [addedSpaces]; split <;> simp
    | text => rw [addedSpaces] <;> simp
    | comment d => rw [addedSpaces] <;> simp

theorem added_after (outer inner : Bytes → Bool) : ∀ (after before : List Ev) (k j : Nat),
    j ∈ (addedSpaces outer inner before k after).2 ↔
      ∃ A n B, after = A ++ .cl n :: B ∧ outer n = true ∧ lastIsInner inner (A.reverse ++ before) = true ∧ nextIsText B = true ∧
        j = k + evTexts A
  | [], before, k, j => by simp [addedSpaces]
  | e :: after, before, k, j => by
    have ih := added_after outer inner after (e :: before) (if e = .text then k + 1 else k) j
    have hstep : (∃ A n B, e :: after = A ++ .cl n :: B ∧ outer n = true ∧ lastIsInner inner (A.reverse ++ before) = true ∧ nextIsText B = true ∧
        j = k + evTexts A) ↔ (∃ n, e = .cl n ∧ outer n = true ∧ lastIsInner inner before = true ∧ nextIsText after = true ∧ j = k) ∨
        j ∈ (addedSpaces outer inner (e :: before) (if e = .text then k + 1 else k) after).2 := by
      rw [ih]
      constructor
      · rintro ⟨A, n, B, h1, h2, h3, h4, h5⟩
        cases A with
        | nil =>
          simp only [List.nil_append, List.cons.injEq] at h1
          obtain ⟨rfl, rfl⟩ := h1
          exact .inl ⟨n, rfl, h2, h3, h4, by simpa [evTexts] using h5⟩
        | cons a A =>
          simp only [List.cons_append, List.cons.injEq] at h1
          obtain ⟨rfl, rfl⟩ := h1
          refine .inr ⟨A, n, B, rfl, h2, by simpa using h3, h4, ?_⟩
          rw [h5, evTexts, evTexts, List.countP_cons]
          by_cases he : e = .text
          · simp [he] <;> omega
          · simp [he]
      · rintro (⟨n, rfl, h2, h3, h4, h5⟩ | ⟨A, n, B, rfl, h2, h3, h4, h5⟩)
        · exact ⟨[], n, after, rfl, h2, by simpa using h3, h4, by simpa [evTexts] using h5⟩
        · refine ⟨e :: A, n, B, rfl, h2, by simpa using h3, h4, ?_⟩
          rw [h5, evTexts, evTexts, List.countP_cons]
          by_cases he : e = .text
          · simp [he] <;> omega
          · simp [he]
    rw [hstep]
    cases e with
    | op n => rw [addedSpaces]; split <;> simp
    | cl n =>
      rw [addedSpaces]
      split
      · rename_i h
        simp only [Bool.and_eq_true] at h
        simp [h]
      · rename_i h
        simp only [Bool.and_eq_true, not_and, Bool.not_eq_true] at h
        constructor
        · exact .inr
        · rintro (⟨n', he, h2, h3, h4, _⟩ | h')
          · cases he
            rw [h ⟨h2, h3⟩] at h4; simp at h4
          · exact h'
    | text => rw [addedSpaces] <;> simp
    | comment d => rw [addedSpaces] <;> simp

/-! ## The mirrored walk -/

/-- A tag of the mirrored tree. -/
def Tag.flip : Tag → Tag
  | .start n => .stop n
  | .stop n => .start n
  | t => t

/-- A step of the mirrored walk. -/
def Ev.flip : Ev → Ev
  | .op n => .cl n
  | .cl n => .op n
  | e => e

theorem Ev.flip_flip (e : Ev) : Ev.flip (Ev.flip e) = e := by cases e <;> rfl
theorem Tag.flip_flip (e : Tag) : Tag.flip (Tag.flip e) = e := by cases e <;> rfl

theorem prevIsText_flip : ∀ es, prevIsText es = nextIsText (es.map Ev.flip)
  | [] => rfl
  | e :: es => by cases e <;> simp [prevIsText, nextIsText, Ev.flip, prevIsText_flip es]

theorem lastIsInner_go_flip (inner : Bytes → Bool) : ∀ es, lastIsInner.go inner es = firstIsInner.go inner (es.map Ev.flip)
  | [] => rfl
  | e :: es => by cases e <;> simp [lastIsInner.go, firstIsInner.go, Ev.flip, lastIsInner_go_flip inner es]

theorem lastIsInner_flip (inner : Bytes → Bool) (es) : lastIsInner inner es = firstIsInner inner (es.map Ev.flip) := by
  rcases es with _ | ⟨e, es⟩
  · rfl
  · cases e <;> simp [lastIsInner, firstIsInner, Ev.flip, lastIsInner_go_flip, lastIsInner.go, firstIsInner.go]

theorem ev_mirror (ts : List Tag) : ((ts.flatMap evOf).reverse).map Ev.flip = (ts.reverse.map Tag.flip).flatMap evOf := by
  induction ts with
  | nil => rfl
  | cons t ts ih =>
    rw [List.flatMap_cons, List.reverse_append, List.map_append, ih, List.reverse_cons, List.map_append, List.flatMap_append]
    congr 1
    cases t <;> rfl

/-! ## The walk in terms of tags -/

/-- Where a text follows: only ends and beginnings of spans in between. -/
def ToText (ts : List Tag) : Prop :=
  ∃ mid d y, ts = mid ++ .text d :: y ∧ ∀ t ∈ mid, t = .start b!"span" ∨ ∃ n, t = .stop n

theorem nextIsText_iff : ∀ ts : List Tag, nextIsText (ts.flatMap evOf) = true ↔ ToText ts
  | [] => by simp [nextIsText, ToText]
  | t :: ts => by
    have ih := nextIsText_iff ts
    have step : ToText (t :: ts) ↔ (∃ d, t = .text d) ∨ ((t = .start b!"span" ∨ ∃ n, t = .stop n) ∧ ToText ts) := by
      constructor
      · rintro ⟨mid, d, y, h1, h2⟩
        cases mid with
        | nil => simp at h1; exact .inl ⟨d, h1.1⟩
        | cons m mid =>
          simp at h1
          obtain ⟨rfl, rfl⟩ := h1
          exact .inr ⟨h2 t (by simp), mid, d, y, rfl, fun t ht => h2 t (by simp [ht])⟩
      · rintro (⟨d, rfl⟩ | ⟨h, mid, d, y, rfl, h2⟩)
        · exact ⟨[], d, ts, rfl, by simp⟩
        · refine ⟨t :: mid, d, y, rfl, ?_⟩
          intro s hs
          rcases List.mem_cons.1 hs with rfl | hs
          · exact h
          · exact h2 s hs
    rw [step, ← ih]
    cases t with
    | start n =>
      by_cases hn : n = b!"span"
      · simp [evOf, nextIsText, hn]
      · simp [evOf, nextIsText, hn]
    | _ => simp [evOf, nextIsText]

/-- Where an element with a property follows: only ends and beginnings of spans in between. -/
def ToInner (inner : Bytes → Bool) (ts : List Tag) : Prop :=
  ∃ z m w, ts = z ++ .start m :: w ∧ inner m = true ∧ ∀ t ∈ z, t = .start b!"span" ∨ ∃ n, t = .stop n

theorem goInner_iff (inner : Bytes → Bool) (h1 : inner b!"#text" = false) (h2 : inner b!"#comment" = false) (h3 : inner b!"#doctype" = false)
    (h4 : inner b!"span" = false) : ∀ ts : List Tag, firstIsInner.go inner (ts.flatMap evOf) = true ↔ ToInner inner ts
  | [] => by simp [firstIsInner.go, ToInner]
  | t :: ts => by
    have ih := goInner_iff inner h1 h2 h3 h4 ts
    have step : ToInner inner (t :: ts) ↔ (∃ m, t = .start m ∧ inner m = true) ∨ ((t = .start b!"span" ∨ ∃ n, t = .stop n) ∧ ToInner inner ts) := by
      constructor
      · rintro ⟨mid, m, y, h1, h5, h2⟩
        cases mid with
        | nil => simp at h1; exact .inl ⟨m, h1.1, h5⟩
        | cons m' mid =>
          simp at h1
          obtain ⟨rfl, rfl⟩ := h1
          exact .inr ⟨h2 t (by simp), mid, m, y, rfl, h5, fun t ht => h2 t (by simp [ht])⟩
      · rintro (⟨d, rfl, h5⟩ | ⟨h, mid, d, y, rfl, h5, h2⟩)
        · exact ⟨[], d, ts, rfl, h5, by simp⟩
        · refine ⟨t :: mid, d, y, rfl, h5, ?_⟩
          intro s hs
          rcases List.mem_cons.1 hs with rfl | hs
          · exact h
          · exact h2 s hs
    rw [step, ← ih]
    cases t with
    | start n =>
      by_cases hn : n = b!"span"
      · simp [evOf, firstIsInner.go, hn, h4]
      · simp [evOf, firstIsInner.go, hn]
    | _ => simp [evOf, firstIsInner.go, h1, h2, h3]

theorem firstIsInner_iff (inner : Bytes → Bool) (h1 : inner b!"#text" = false) (h2 : inner b!"#comment" = false) (h3 : inner b!"#doctype" = false)
    (h4 : inner b!"span" = false) (ts : List Tag) :
    firstIsInner inner (ts.flatMap evOf) = true ↔ (∀ n, ts.head? ≠ some (.stop n)) ∧ ToInner inner ts := by
  rw [← goInner_iff inner h1 h2 h3 h4]
  rcases ts with _ | ⟨t, ts⟩
  · simp [firstIsInner, firstIsInner.go]
  · cases t <;> simp [firstIsInner, firstIsInner.go, evOf]

/-- A walk that can be split at a beginning. -/
theorem ev_split_op : ∀ (ts : List Tag) (A B : List Ev) (n : Bytes), n ≠ b!"#doctype" → ts.flatMap evOf = A ++ .op n :: B →
    ∃ x y, ts = x ++ .start n :: y ∧ x.flatMap evOf = A ∧ y.flatMap evOf = B
  | [], A, B, n, _, h => by simp at h
  | t :: ts, A, B, n, hn, h => by
    have rec1 : ∀ (e : Ev), evOf t = [e] → e ≠ .op n → ∃ x y, t :: ts = x ++ .start n :: y ∧ x.flatMap evOf = A ∧ y.flatMap evOf = B := by
      intro e he hne
      rw [List.flatMap_cons, he] at h
      cases A with
      | nil => simp at h; exact absurd h.1 hne
      | cons a A =>
        simp at h
        obtain ⟨x, y, h1, h2, h3⟩ := ev_split_op ts A B n hn h.2
        exact ⟨t :: x, y, by rw [h1]; rfl, by rw [List.flatMap_cons, he, h2, h.1]; rfl, h3⟩
    cases t with
    | start m =>
      by_cases hm : m = n
      · subst hm
        cases A with
        | nil => exact ⟨[], ts, rfl, rfl, by simpa [evOf] using h⟩
        | cons a A =>
          rw [List.flatMap_cons] at h
          simp [evOf] at h
          obtain ⟨x, y, h1, h2, h3⟩ := ev_split_op ts A B m hn h.2
          exact ⟨.start m :: x, y, by rw [h1]; rfl, by rw [List.flatMap_cons, h2, ← h.1]; rfl, h3⟩
      · exact rec1 _ rfl (by simp [hm])
    | stop m => exact rec1 _ rfl (by simp)
    | text d => exact rec1 _ rfl (by simp)
    | comment d => exact rec1 _ rfl (by simp)
    | doctype d =>
      rw [List.flatMap_cons] at h
      rcases A with _ | ⟨a, _ | ⟨a', A⟩⟩
      · simp [evOf] at h; exact absurd h.1.symm hn
      · simp [evOf] at h
      · simp [evOf] at h
        obtain ⟨x, y, h1, h2, h3⟩ := ev_split_op ts A B n hn h.2.2
        exact ⟨.doctype d :: x, y, by rw [h1]; rfl, by rw [List.flatMap_cons, h2, ← h.1, ← h.2.1]; rfl, h3⟩

/-- A walk that can be split at an end. -/
theorem ev_split_cl (ts : List Tag) (A B : List Ev) (n : Bytes) (hn : n ≠ b!"#doctype") (h : ts.flatMap evOf = A ++ .cl n :: B) :
    ∃ x y, ts = x ++ .stop n :: y ∧ x.flatMap evOf = A ∧ y.flatMap evOf = B := by
  have h' := congrArg (fun l => (List.reverse l).map Ev.flip) h
  rw [ev_mirror] at h'
  simp only [List.reverse_append, List.reverse_cons, List.map_append, List.append_assoc] at h'
  obtain ⟨x, y, h1, h2, h3⟩ := ev_split_op _ _ _ n hn h'
  have back : ∀ l : List Tag, (l.map Tag.flip).map Tag.flip = l := by
    intro l; rw [List.map_map]; conv => rhs; rw [← List.map_id l]
    apply List.map_congr_left; intro a _; exact Tag.flip_flip a
  have backE : ∀ l : List Ev, (l.map Ev.flip).map Ev.flip = l := by
    intro l; rw [List.map_map]; conv => rhs; rw [← List.map_id l]
    apply List.map_congr_left; intro a _; exact Ev.flip_flip a
  have mir : ∀ (l : List Tag) (E : List Ev), l.flatMap evOf = E.reverse.map Ev.flip → (l.reverse.map Tag.flip).flatMap evOf = E := by
    intro l E hE
    rw [← ev_mirror, hE, ← List.map_reverse, List.reverse_reverse, backE]
  refine ⟨y.reverse.map Tag.flip, x.reverse.map Tag.flip, ?_, mir y A h3, mir x B (by simpa using h2)⟩
  have := congrArg (fun l => (List.map Tag.flip l).reverse) h1
  simp only [back, List.reverse_reverse, List.map_append, List.map_cons, List.reverse_append, List.reverse_cons, Tag.flip] at this
  rw [this]
  simp [List.map_reverse]

end Verif.Dom

namespace Verif.Dom
open Verif Verif.DomUtils Verif.Spec

/-! ## Both together -/

theorem skipForward_iff (t : Tag) : t.skipForward ↔ t = .start b!"span" ∨ ∃ n, t = .stop n := by
  cases t <;> simp [Tag.skipForward]

theorem skipBackward_flip (t : Tag) : (Tag.flip t).skipForward ↔ t.skipBackward := by
  cases t <;> simp [Tag.skipForward, Tag.skipBackward, Tag.flip]

theorem map_flip_flip (l : List Tag) : (l.map Tag.flip).map Tag.flip = l := by
  rw [List.map_map]; conv => rhs; rw [← List.map_id l]
  apply List.map_congr_left; intro a _; exact Tag.flip_flip a

theorem prevIsText_iff (ts : List Tag) : prevIsText ((ts.flatMap evOf).reverse) = true ↔
    ∃ x d mid, ts = x ++ .text d :: mid ∧ ∀ t ∈ mid, t.skipBackward := by
  rw [prevIsText_flip, ev_mirror, nextIsText_iff]
  constructor
  · rintro ⟨mid, d, y, h1, h2⟩
    refine ⟨y.reverse.map Tag.flip, d, mid.reverse.map Tag.flip, ?_, ?_⟩
    · have := congrArg (fun l => (List.map Tag.flip l).reverse) h1
      simp only [map_flip_flip, List.reverse_reverse, List.map_append, List.map_cons, List.reverse_append, List.reverse_cons, Tag.flip] at this
      rw [this]
      simp [List.map_reverse]
    · intro t ht
      rw [List.mem_map] at ht
      obtain ⟨s, hs, rfl⟩ := ht
      rw [← skipBackward_flip, Tag.flip_flip, skipForward_iff]
      exact h2 s (by simpa using hs)
  · rintro ⟨x, d, mid, rfl, h2⟩
    refine ⟨mid.reverse.map Tag.flip, d, x.reverse.map Tag.flip, by simp [Tag.flip], ?_⟩
    intro t ht
    rw [List.mem_map] at ht
    obtain ⟨s, hs, rfl⟩ := ht
    rw [← skipForward_iff, skipBackward_flip]
    exact h2 s (by simpa using hs)

theorem isInlineCode_iff (m : Bytes) : isInlineCode m = true ↔ m ∈ [b!"code", b!"var", b!"samp", b!"kbd", b!"tt"] := by
  simp [isInlineCode]

theorem isBoldOrItalic_iff (m : Bytes) : isBoldOrItalic m = true ↔ m ∈ [b!"strong", b!"b", b!"em", b!"i"] := by
  simp [isBoldOrItalic, isBold, isItalic, or_assoc]

theorem begins_iff (y : List Tag) : firstIsInner isInlineCode (y.flatMap evOf) = true ↔ BeginsWithCode y := by
  rw [firstIsInner_iff isInlineCode (by decide) (by decide) (by decide) (by decide), BeginsWithCode, ToInner]
  simp only [isInlineCode_iff, skipForward_iff]

theorem ends_iff (x : List Tag) : lastIsInner isInlineCode ((x.flatMap evOf).reverse) = true ↔ EndsWithCode x := by
  rw [lastIsInner_flip, ev_mirror, begins_iff, BeginsWithCode, EndsWithCode]
  have hh : (∀ n, (x.reverse.map Tag.flip).head? ≠ some (.stop n)) ↔ ∀ n, x.getLast? ≠ some (.start n) := by
    rw [List.head?_map, List.head?_reverse]
    rcases x.getLast? with _ | t
    · simp
    · cases t <;> simp [Tag.flip]
  rw [hh]
  refine and_congr_right fun _ => ?_
  constructor
  · rintro ⟨z, m, w, h1, h2, h3⟩
    refine ⟨w.reverse.map Tag.flip, m, z.reverse.map Tag.flip, ?_, h2, ?_⟩
    · have := congrArg (fun l => (List.map Tag.flip l).reverse) h1
      simp only [map_flip_flip, List.reverse_reverse, List.map_append, List.map_cons, List.reverse_append, List.reverse_cons, Tag.flip] at this
      rw [this]
      simp [List.map_reverse]
    · intro t ht
      rw [List.mem_map] at ht
      obtain ⟨s, hs, rfl⟩ := ht
      rw [← skipBackward_flip, Tag.flip_flip]
      exact h3 s (by simpa using hs)
  · rintro ⟨w, m, z, rfl, h2, h3⟩
    refine ⟨z.reverse.map Tag.flip, m, w.reverse.map Tag.flip, by simp [Tag.flip], h2, ?_⟩
    intro t ht
    rw [List.mem_map] at ht
    obtain ⟨s, hs, rfl⟩ := ht
    rw [skipBackward_flip]
    exact h3 s (by simpa using hs)

theorem numTexts_skipF {mid : List Tag} (h : ∀ t ∈ mid, t.skipForward) : numTexts mid = 0 := by
  induction mid with
  | nil => rfl
  | cons t mid ih =>
    have h1 := h t (by simp)
    have h2 := ih fun t ht => h t (by simp [ht])
    cases t <;> simp_all [numTexts, Tag.skipForward]

theorem numTexts_skipB {mid : List Tag} (h : ∀ t ∈ mid, t.skipBackward) : numTexts mid = 0 := by
  induction mid with
  | nil => rfl
  | cons t mid ih =>
    have h1 := h t (by simp)
    have h2 := ih fun t ht => h t (by simp [ht])
    cases t <;> simp_all [numTexts, Tag.skipBackward]

/-- The text with a number is where it is. -/
theorem text_unique : ∀ (x w y v : List Tag) (d e : Bytes), x ++ .text d :: y = w ++ .text e :: v → numTexts x = numTexts w →
    x = w ∧ d = e ∧ y = v
  | [], [], y, v, d, e, h, _ => by simpa using h
  | [], t :: w, y, v, d, e, h, hn => by
    simp at h
    rw [← h.1] at hn
    simp [numTexts] at hn
  | t :: x, [], y, v, d, e, h, hn => by
    simp at h
    rw [h.1] at hn
    simp [numTexts] at hn
  | t :: x, s :: w, y, v, d, e, h, hn => by
    simp at h
    obtain ⟨rfl, h⟩ := h
    have := text_unique x w y v d e h (by cases t <;> simpa [numTexts] using hn)
    simp [this]

/-- What `AddSpace` does to a text. -/
def spaced (doc : Node) (i : Nat) (d : Bytes) : Bytes :=
  let s := addedSpaces isBoldOrItalic isInlineCode [] 0 (events doc)
  List.replicate (s.2.count i) SP ++ d ++ List.replicate (s.1.count i) SP

theorem addSpace_tags (doc : Node) : tags (addSpace isBoldOrItalic isInlineCode doc) = mapTags (spaced doc) 0 (tags doc) :=
  ((mapTexts_tags _).1 doc 0).1

theorem spaced_before_iff (doc : Node) (x : List Tag) (d : Bytes) (y : List Tag) (h : tags doc = x ++ .text d :: y) :
    numTexts x ∈ (addedSpaces isBoldOrItalic isInlineCode [] 0 (events doc)).1 ↔
      ∃ mid n z, y = mid ++ .start n :: z ∧ n ∈ [b!"strong", b!"b", b!"em", b!"i"] ∧ (∀ t ∈ mid, t.skipBackward) ∧ BeginsWithCode z := by
  rw [added_before]
  constructor
  · rintro ⟨A, n, B, h1, h2, h3, h4, h5⟩
    rw [events_tags.1] at h1
    obtain ⟨u, z, hu, hA, hB⟩ := ev_split_op (tags doc) A B n (by rintro rfl; revert h2; decide) h1
    rw [List.append_nil, ← hA, prevIsText_iff] at h4
    obtain ⟨w, e, mid, rfl, hm⟩ := h4
    rw [← hA, evTexts_tags, numTexts_append, numTexts, numTexts_skipB hm] at h5
    rw [h, List.append_assoc] at hu
    obtain ⟨rfl, rfl, rfl⟩ := text_unique _ _ _ _ _ _ hu (by omega)
    rw [← hB, begins_iff] at h3
    exact ⟨mid, n, z, rfl, (isBoldOrItalic_iff n).1 h2, hm, h3⟩
  · rintro ⟨mid, n, z, rfl, hn, hm, hb⟩
    refine ⟨(x ++ .text d :: mid).flatMap evOf, n, z.flatMap evOf, ?_, (isBoldOrItalic_iff n).2 hn, (begins_iff z).2 hb, ?_, ?_⟩
    · rw [events_tags.1, h]; simp [evOf]
    · rw [List.append_nil, prevIsText_iff]; exact ⟨x, d, mid, rfl, hm⟩
    · rw [evTexts_tags, numTexts_append, numTexts, numTexts_skipB hm]; omega

theorem spaced_after_iff (doc : Node) (x : List Tag) (d : Bytes) (y : List Tag) (h : tags doc = x ++ .text d :: y) :
    numTexts x ∈ (addedSpaces isBoldOrItalic isInlineCode [] 0 (events doc)).2 ↔
      ∃ z n mid, x = z ++ .stop n :: mid ∧ n ∈ [b!"strong", b!"b", b!"em", b!"i"] ∧ (∀ t ∈ mid, t.skipForward) ∧ EndsWithCode z := by
  rw [added_after]
  constructor
  · rintro ⟨A, n, B, h1, h2, h3, h4, h5⟩
    rw [events_tags.1] at h1
    obtain ⟨u, z, hu, hA, hB⟩ := ev_split_cl (tags doc) A B n (by rintro rfl; revert h2; decide) h1
    rw [← hB, nextIsText_iff] at h4
    obtain ⟨mid, e, w, rfl, hm⟩ := h4
    have hm : ∀ t ∈ mid, t.skipForward := fun t ht => (skipForward_iff t).2 (hm t ht)
    rw [← hA, evTexts_tags] at h5
    rw [h, show u ++ Tag.stop n :: (mid ++ Tag.text e :: w) = (u ++ Tag.stop n :: mid) ++ Tag.text e :: w by simp] at hu
    obtain ⟨rfl, rfl, rfl⟩ := text_unique _ _ _ _ _ _ hu (by rw [numTexts_append, numTexts, numTexts_skipF hm]; omega)
    rw [List.append_nil, ← hA, ends_iff] at h3
    exact ⟨u, n, mid, rfl, (isBoldOrItalic_iff n).1 h2, hm, h3⟩
  · rintro ⟨z, n, mid, rfl, hn, hm, hb⟩
    refine ⟨z.flatMap evOf, n, (mid ++ .text d :: y).flatMap evOf, ?_, (isBoldOrItalic_iff n).2 hn, ?_, ?_, ?_⟩
    · rw [events_tags.1, h]; simp [evOf]
    · rw [List.append_nil, ends_iff]; exact hb
    · rw [nextIsText_iff]; exact ⟨mid, d, y, rfl, fun t ht => (skipForward_iff t).1 (hm t ht)⟩
    · rw [evTexts_tags, numTexts_append, numTexts, numTexts_skipF hm]; omega

theorem mapTexts_nonText (f : Nat → Bytes → Bytes) :
    (∀ n, ∀ k anc, (items anc (mapTexts f k n).1).filter (fun i => i.what.text?.isNone) = (items anc n).filter (fun i => i.what.text?.isNone)) ∧
    (∀ ns, ∀ k anc, (itemsL anc (mapTextsL f k ns).1).filter (fun i => i.what.text?.isNone) = (itemsL anc ns).filter (fun i => i.what.text?.isNone)) := by
  apply induct
  · intro d k anc; rfl
  · intro d k anc; rfl
  · intro d k anc; rfl
  · intro cs ih k anc; simp [mapTexts, items, List.filter_cons, ih]
  · intro n a cs ih k anc; simp [mapTexts, items, List.filter_cons, ih]
  · intro k anc; rfl
  · intro n ns ih1 ih2 k anc; simp [mapTextsL, itemsL, ih1, ih2]

/-! ## Fake spans -/

theorem hasBlock_nodes (T : NameTables) : (∀ n, hasBlock T n = (nodes n).any fun x => T.isBlock x.name) ∧
    (∀ ns, hasBlockL T ns = (nodesL ns).any fun x => T.isBlock x.name) := by
  apply induct
  · intro d; simp [hasBlock, nodes, Node.name]
  · intro d; simp [hasBlock, nodes, Node.name]
  · intro d; simp [hasBlock, nodes, Node.name]
  · intro cs ih; simp [hasBlock, nodes, Node.name, ih]
  · intro n a cs ih; simp [hasBlock, nodes, Node.name, ih]
  · rfl
  · intro n ns ih1 ih2; simp [hasBlockL, nodesL, ih1, ih2]

end Verif.Dom
