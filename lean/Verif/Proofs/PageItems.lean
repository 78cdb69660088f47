import Verif.Proofs.PageList
import Verif.Proofs.PageQuote
/-!
# Reading the items of a list
-/
namespace Verif.Page
open Verif Verif.Escape Verif.Spec Verif.Commonmark Verif.TextUtils

variable {dig : Nat → Bool} {hs : List Handler} {bullet : Bytes}

/-- An item: its lines (without prefix and indentation) and what is read. -/
structure Item where
  lines : List Bytes
  md : List Md

/-- What is needed of an item. -/
structure Item.OK (bullet : Bytes) (it : Item) : Prop where
  first : ∃ l ls, it.lines = l :: ls ∧ Visible l ∧ First bullet l
  reads : ∀ tail, tail = [] ∨ tail = [[]] → ∀ f, 2 * size (it.lines ++ tail) < f → readBlocks f (it.lines ++ tail) = some it.md

theorem belongs_indent (w : Nat) (l : Bytes) : belongs w (List.replicate w 32 ++ l) = true := by
  rw [belongs]; simp

theorem belongs_nil (w : Nat) : belongs w [] = true := by rw [belongs]; rfl

theorem belongs_visible {w : Nat} (hw : 1 ≤ w) {l : Bytes} (h : Visible l) : belongs w l = false := by
  obtain ⟨w, rfl⟩ : ∃ j, w = j + 1 := ⟨w - 1, by omega⟩
  rw [belongs, h.blank, List.replicate_succ]
  cases l with
  | nil => exact absurd rfl h.ne
  | cons b l =>
    have := h.h32
    simp at this
    simp [List.isPrefixOf, Ne.symm this]

theorem take_indent {w : Nat} (fs : List Bytes) : ∀ rest : List Bytes,
    (fs.map (List.replicate w 32 ++ ·) ++ rest).takeWhile (belongs w) = fs.map (List.replicate w 32 ++ ·) ++ rest.takeWhile (belongs w) ∧
    (fs.map (List.replicate w 32 ++ ·) ++ rest).dropWhile (belongs w) = rest.dropWhile (belongs w) := by
  intro rest
  induction fs with
  | nil => exact ⟨rfl, rfl⟩
  | cons f fs ih =>
    rw [List.map_cons, List.cons_append, List.takeWhile_cons, List.dropWhile_cons, belongs_indent]
    simp only [if_true, List.cons_append]
    exact ⟨by rw [ih.1], ih.2⟩

theorem drop_indent {w : Nat} (fs : List Bytes) : (fs.map (List.replicate w 32 ++ ·)).map (·.drop w) = fs := by
  rw [List.map_map]
  conv => rhs; rw [← List.map_id fs]
  apply List.map_congr_left
  intro l _
  simp

theorem size_indent (w : Nat) (fs : List Bytes) : size fs ≤ size (fs.map (List.replicate w 32 ++ ·)) := by
  induction fs with
  | nil => exact Nat.le_refl _
  | cons f fs ih => simp only [List.map_cons, size, List.length_append, List.length_replicate]; omega

theorem pfx_visible (hbul : bullet ∈ [b!"-", b!"+", b!"*"]) {ordered : Bool} {w : Nat} {p : Bytes} {num : Option Nat}
    (h : Pfx bullet ordered w p num) (l : Bytes) : Visible (p ++ l) ∧ ∃ b s, p ++ l = b :: s ∧ (42 ≤ b ∧ b ≤ 57) := by
  obtain ⟨q, rfl, hq, hqr⟩ := h.bytes hbul
  cases q with
  | nil => exact absurd rfl hq
  | cons b q =>
    have hb := hqr b (by simp)
    refine ⟨⟨by simp, ?_, ?_⟩, b, _, rfl, hb⟩
    · simp; rintro rfl; revert hb; decide
    · simp; rintro rfl; revert hb; decide

/-- The items of a list are read one after the other. -/
theorem read_items (hbul : bullet ∈ [b!"-", b!"+", b!"*"]) {ordered : Bool} {w : Nat} (hw : 2 ≤ w) {pfx : Nat → Bytes} {num : Nat → Option Nat}
    {tail : List Bytes} (ht : TailOK true tail) :
    ∀ (its : List Item) (i : Nat), its ≠ [] → (∀ it ∈ its, it.OK bullet) →
      (∀ j, i ≤ j → j < i + its.length → Pfx bullet ordered w (pfx j) (num j)) → ∀ l ls, allLines pfx w i (its.map Item.lines) ++ tail = l :: ls →
      ∀ f, 2 * size (l :: ls) ≤ f → readList f ⟨markerKind bullet ordered, num i, w⟩ l ls = some (its.map Item.md, tail.drop 1) := by
  intro its
  induction its with
  | nil => intro i h; exact absurd rfl h
  | cons it its ih =>
    intro i _ hok hp l ls e f hf
    have hpi := hp i (Nat.le_refl _) (by simp)
    obtain ⟨l0, fs, ef, hv, hfst⟩ := (hok it (by simp)).first
    rw [List.map_cons, allLines, ef, itemLines, List.append_assoc, List.cons_append, List.cons.injEq] at e
    obtain ⟨rfl, rfl⟩ := e
    have hdrop : (pfx i ++ l0).drop w = l0 := by rw [← hpi.len]; simp
    have hlen := hpi.len
    have hsz := size_indent w fs
    cases f with
    | zero => simp only [size] at hf; omega
    | succ f =>
      rw [size, size_append, List.length_append, hlen] at hf
      have hread := (hok it (by simp)).reads
      rw [ef] at hread
      rw [readList.eq_def]
      simp only []
      rw [(take_indent fs _).1, (take_indent fs _).2, hdrop, List.map_append, drop_indent]
      by_cases hits : its = []
      · subst hits
        simp only [List.map_nil, allLines, List.nil_append] at hf ⊢
        rcases ht with rfl | rfl | ⟨l2, rest, rfl, hv2, hl2⟩
        · have := hread [] (.inl rfl) f (by rw [List.append_nil, size]; simp only [size] at hf; omega)
          rw [List.append_nil] at this
          simp only [List.takeWhile_nil, List.dropWhile_nil, List.map_nil, List.append_nil, List.drop_nil]
          rw [this]; rfl
        · have := hread [[]] (.inr rfl) f (by rw [List.cons_append, size, size_append]; simp only [size, List.length_nil] at hf ⊢; omega)
          simp only [List.takeWhile_cons, List.dropWhile_cons, belongs_nil, if_true, List.takeWhile_nil, List.dropWhile_nil, List.map_cons,
            List.drop_nil, List.map_nil, List.drop_succ_cons]
          rw [List.cons_append] at this
          rw [this]; rfl
        · have := hread [[]] (.inr rfl) f (by rw [List.cons_append, size, size_append]; simp only [size, List.length_nil] at hf ⊢; omega)
          simp only [List.takeWhile_cons, List.dropWhile_cons, belongs_nil, if_true, belongs_visible (Nat.le_of_succ_le hw) hv2, List.map_cons,
            List.drop_nil, List.map_nil, List.drop_succ_cons, List.drop_zero, Bool.false_eq_true, if_false]
          rw [List.cons_append] at this
          rw [this, Option.bind_some]
          have hblank : ((fs.map (List.replicate w 32 ++ ·) ++ [[]]).getLast?.any isBlankLine) = true := by
            rw [List.getLast?_concat]; rfl
          rcases hl2 rfl with hm | hm
          · rw [hm]; simp only [hblank, if_true]
          · cases e2 : readMarker l2 with
            | none => simp only [hblank, if_true]
            | some m2 =>
              simp only [hm, hblank]
              simp
      · obtain ⟨it2, its2, rfl⟩ : ∃ it2 its2, its = it2 :: its2 := by
          cases its with
          | nil => exact absurd rfl hits
          | cons a b => exact ⟨a, b, rfl⟩
        have ih' := ih (i + 1) (by simp) (fun it h => hok it (by simp [h])) (fun j h1 h2 => hp j (by omega) (by simp at h2 ⊢; omega))
        obtain ⟨l2, fs2, ef2, hv2, hfst2⟩ := (hok it2 (by simp)).first
        have hpi2 := hp (i + 1) (by omega) (by simp)
        have e3 : allLines pfx w (i + 1) ((it2 :: its2).map Item.lines) ++ tail =
            (pfx (i + 1) ++ l2) :: (fs2.map (List.replicate w 32 ++ ·) ++ (allLines pfx w (i + 1 + 1) (its2.map Item.lines) ++ tail)) := by
          rw [List.map_cons, allLines, ef2, itemLines, List.append_assoc, List.cons_append]
        rw [e3] at ih' hf ⊢
        have hb := belongs_visible (Nat.le_of_succ_le hw) (pfx_visible hbul hpi2 l2).1
        rw [List.takeWhile_cons, List.dropWhile_cons, hb]
        simp only [Bool.false_eq_true, if_false, List.map_nil, List.append_nil]
        have := hread [] (.inl rfl) f (by rw [List.append_nil, size]; simp only [size] at hf; omega)
        rw [List.append_nil] at this
        rw [this, Option.bind_some, hpi2.marker hbul hv2]
        simp only []
        rw [hpi2.thematic hbul hfst2, if_pos ⟨trivial, rfl⟩, ih' _ _ rfl f (by omega)]
        rfl

/-- A list is read, whatever comes behind it. -/
theorem reads_list (hbul : bullet ∈ [b!"-", b!"+", b!"*"]) {ordered : Bool} {w : Nat} (hw : 2 ≤ w) {pfx : Nat → Bytes} {num : Nat → Option Nat}
    (its : List Item) (hne : its ≠ []) (hok : ∀ it ∈ its, it.OK bullet) (hp : ∀ j, j < its.length → Pfx bullet ordered w (pfx j) (num j)) :
    Reads true (allLines pfx w 0 (its.map Item.lines)) [.list (num 0) (its.map Item.md)] ∧
    Begins bullet true (allLines pfx w 0 (its.map Item.lines)) := by
  obtain ⟨it, its', rfl⟩ : ∃ it its', its = it :: its' := by
    cases its with
    | nil => exact absurd rfl hne
    | cons a b => exact ⟨a, b, rfl⟩
  obtain ⟨l0, fs, ef, hv, hfst⟩ := (hok it (by simp)).first
  have hpi := hp 0 (by simp)
  have e : allLines pfx w 0 ((it :: its').map Item.lines) =
      (pfx 0 ++ l0) :: (fs.map (List.replicate w 32 ++ ·) ++ allLines pfx w 1 (its'.map Item.lines)) := by
    rw [List.map_cons, allLines, ef, itemLines, List.cons_append]
  obtain ⟨hv', b, s, hbs, hbr⟩ := pfx_visible hbul hpi l0
  have hth := hpi.thematic hbul hfst
  refine ⟨?_, ?_⟩
  · intro tail r ht hr f hf
    cases f with
    | zero => omega
    | succ f =>
      have hitems := read_items hbul hw (num := num) ht (it :: its') 0 hne hok (fun j _ h => hp j (by omega))
      rw [e, List.cons_append] at hf hitems ⊢
      have hread := hitems _ _ rfl f (by omega)
      have hn : ∀ v : UInt8, ¬ (42 ≤ v ∧ v ≤ 57) → b ≠ v := fun v hv h => hv (h ▸ hbr)
      have ha : readAtx (pfx 0 ++ l0) = none := by
        rw [readAtx, dropIndent3_id hv'.h32, hbs]
        simp [hn 35 (by decide)]
      have hfen : ∀ t, readFenced ((pfx 0 ++ l0) :: t) = none := by
        intro t
        rw [hbs, readFenced.eq_def]
        simp only []
        rw [if_neg]
        rintro ⟨h1, -⟩
        rcases h1 with h1 | h1
        · exact hn 96 (by decide) h1
        · exact hn 126 (by decide) h1
      have hend : ¬ pfx 0 ++ l0 = b!"<!--THE END-->" := by
        rw [hbs]
        intro h
        rw [List.cons.injEq] at h
        exact hn 60 (by decide) h.1
      rw [readBlocks_cons, hv'.blank, hth, ha, hfen, hpi.marker hbul hv]
      rw [if_neg (by simp), if_neg (not_or.2 ⟨hv'.h32, hv'.h9⟩), if_neg (by simp)]
      simp only [hend, if_false]
      rw [hread, Option.bind_some]
      simp only []
      have hrest : readBlocks f (tail.drop 1) = some r := by
        rw [size] at hf
        rcases ht.cases with rfl | ⟨t, rfl⟩
        · rw [read_nil hr, List.drop_nil]
          cases f with
          | zero => omega
          | succ f => rfl
        · rw [List.drop_succ_cons, List.drop_zero]
          exact read_empty hr f (by rw [size_append] at hf; omega)
      rw [hrest]; rfl
  · refine ⟨_, _, e, hv', ?_, fun h => by cases h⟩
    rcases hfst with h | ⟨x, hx, h⟩
    · exact .inl h
    · exact .inr ⟨x, by simp [hx], h⟩

/-! ## The piece of a list -/

/-- The prefixes of the items of a list. -/
theorem list_pfx (hbul : bullet ∈ [b!"-", b!"+", b!"*"]) (ordered : Bool) {start n : Nat} (hn : 0 < n) (h9 : ordered = true → start + n ≤ 10 ^ 9) :
    ∃ (w : Nat) (num : Nat → Option Nat), 2 ≤ w ∧ runeCount (listPrefix ordered bullet start n 0) = w ∧ num 0 = (if ordered then some start else none) ∧
      ∀ j, j < n → Pfx bullet ordered w (listPrefix ordered bullet start n j) (num j) := by
  cases ordered with
  | false =>
    have e : ∀ j, listPrefix false bullet start n j = bullet ++ [32] := fun j => by simp [listPrefix]
    refine ⟨2, fun _ => none, Nat.le_refl _, ?_, rfl, fun j _ => ⟨.inl ⟨rfl, e j, rfl⟩, ?_⟩⟩
    · rw [e]; simp at hbul; rcases hbul with rfl | rfl | rfl <;> decide
    · rw [e]; simp at hbul; rcases hbul with rfl | rfl | rfl <;> rfl
  | true =>
    have h9 := h9 rfl
    have key := fun j hj => Props.c34_numbers bullet (start : Int) n j (by omega) (by omega) hj
    obtain ⟨ds0, e0, hd0, hv0, hl0⟩ := key 0 hn
    have hp0 : 0 < ds0.length := List.length_pos_iff.2 hd0.1
    refine ⟨ds0.length + 2, fun j => some (start + j), by omega, ?_, by simp, fun j hj => ?_⟩
    · have : (listPrefix true bullet start n 0).length = ds0.length + 2 := by rw [e0]; simp
      rw [← this]
      refine runeCount_ascii _ ?_
      rw [e0]
      intro b hb
      rcases List.mem_append.1 hb with hb | hb
      · have := (hd0.2 b hb).2
        exact UInt8.lt_of_le_of_lt this (by decide)
      · simp at hb; rcases hb with rfl | rfl <;> decide
    · obtain ⟨ds, e, hd, hv, hl⟩ := key j hj
      have hll : ds.length = ds0.length := by
        have p1 : 0 < ds.length := List.length_pos_iff.2 hd.1
        have := (hl _ hp0).2 ((hl0 _ hp0).1 (Nat.le_refl _))
        have := (hl0 _ p1).2 ((hl _ p1).1 (Nat.le_refl _))
        omega
      refine ⟨.inr ⟨rfl, ds, e, hd, (hl 9 (by omega)).2 (by omega), ?_⟩, by rw [e]; simp [hll]⟩
      have : decimalValue ds = start + j := by omega
      rw [this]

/-! ## Code in lists -/

theorem multi_flat {k : Nat} : ∀ s : Bytes, codeNewline <:+: multiLineListItem s k → codeNewline <:+: s := by
  have hdrop : ∀ (n : Nat) (s : Bytes), codeNewline <:+: List.replicate n 32 ++ s → codeNewline <:+: s := by
    intro n s
    refine infix_drop_left (by decide) ?_
    intro x hx hm
    rw [(List.mem_replicate.1 hm).2] at hx
    revert hx; decide
  have hpre : ∀ (n : Nat) (w s : Bytes), ¬ codeNewline <:+: s → 10 ∉ w → w <+: multiLineListItem s n → w <+: s := by
    intro n w
    induction w with
    | nil => intros; exact List.nil_prefix
    | cons c w ih =>
      intro s hs h10 h
      rw [List.mem_cons, not_or] at h10
      cases s with
      | nil => exact h
      | cons b s =>
        have hs' : ¬ codeNewline <:+: s := fun hi => hs (hi.trans ⟨[b], [], by simp⟩)
        by_cases hb : b = 10
        · subst hb
          rw [multi_nl, List.cons_prefix_cons] at h
          exact absurd h.1.symm h10.1
        · rw [multi_other n s hb (fun hp => hs hp.isInfix)] at h
          rw [List.cons_prefix_cons] at h ⊢
          exact ⟨h.1, ih s hs' h10.2 h.2⟩
  intro s
  induction s with
  | nil => exact id
  | cons b s ih =>
    intro hi
    apply Classical.byContradiction
    intro hn
    have hs' : ¬ codeNewline <:+: s := fun hi => hn (hi.trans ⟨[b], [], by simp⟩)
    by_cases hb : b = 10
    · subst hb
      rw [multi_nl] at hi
      rcases List.infix_cons_iff.1 hi with hi | hi
      · rw [codeNewline, List.cons_prefix_cons] at hi
        exact absurd hi.1 (by decide)
      · exact hs' (ih (hdrop _ _ hi))
    · rw [multi_other k s hb (fun hp => hn hp.isInfix)] at hi
      rcases List.infix_cons_iff.1 hi with hi | hi
      · rw [codeNewline, List.cons_prefix_cons] at hi
        refine hn (List.IsPrefix.isInfix ?_)
        rw [codeNewline, List.cons_prefix_cons]
        exact ⟨hi.1, hpre k _ s hs' (by decide) hi.2⟩
      · exact hs' (ih hi)

theorem listText_flat (hbul : bullet ∈ [b!"-", b!"+", b!"*"]) {ordered : Bool} {w : Nat} {pfx : Nat → Bytes} :
    ∀ (ys : List Bytes) (i : Nat), (∀ y ∈ ys, ¬ codeNewline <:+: y) → (∀ j, i ≤ j → j < i + ys.length → ∃ num, Pfx bullet ordered w (pfx j) num) →
      ¬ codeNewline <:+: listText pfx w i ys := by
  intro ys
  induction ys with
  | nil => intro i _ _ h; exact absurd (List.infix_nil.1 h) (by decide)
  | cons y ys ih =>
    intro i hy hp
    obtain ⟨num, hpi⟩ := hp i (Nat.le_refl _) (by simp)
    obtain ⟨q, eq, hq, hqr⟩ := hpi.bytes hbul
    have ih' := ih (i + 1) (fun y' hy' => hy y' (by simp [hy'])) (fun j h1 h2 => hp j (by omega) (by simp; omega))
    have hone : ¬ codeNewline <:+: pfx i ++ multiLineListItem y w := by
      intro hi
      refine hy y (by simp) (multi_flat y (infix_drop_left (by decide) ?_ hi))
      intro x hx hm
      rw [eq, List.mem_append, List.mem_singleton] at hm
      rcases hm with hm | rfl
      · have := hqr x hm
        revert hx this
        exact forall_u8 (P := fun x => x ∈ codeNewline → (42 ≤ x ∧ x ≤ 57) → False) (by decide +kernel) x
      · revert hx; decide
    rw [listText]
    by_cases hys : ys = []
    · subst hys
      rw [if_pos rfl, listText, List.append_nil, List.append_nil]
      exact hone
    · rw [if_neg hys]
      intro hi
      have e : pfx i ++ multiLineListItem y w ++ [10] ++ listText pfx w (i + 1) ys = unl [pfx i ++ multiLineListItem y w, listText pfx w (i + 1) ys] := by
        simp [unl]
      rw [e] at hi
      obtain ⟨l, h1, h2⟩ := code_unl hi
      simp only [List.mem_cons, List.not_mem_nil, or_false] at h1
      rcases h1 with rfl | rfl
      · exact hone h2
      · exact ih' h2

/-- The rendered items of a list: the text and its pieces. -/
structure ItemsOK (hs : List Handler) (bullet : Bytes) (xs : List (Bytes × List Piece)) : Prop where
  laid : ∀ x ∈ xs, ∃ a b, Laid a b (x.2.map Piece.raw) x.1
  ok : ∀ x ∈ xs, ∀ p ∈ x.2, p.OK hs bullet
  apart : ∀ x ∈ xs, ListsApart x.2

/-- A list with something to see in it is one piece. -/
theorem list_ok (hst : IsStock dig hs) (h0 : dig 0 = false) (h10 : dig 10 = false) (hbul : bullet ∈ [b!"-", b!"+", b!"*"]) (ordered : Bool)
    {start : Nat} (xs : List (Bytes × List Piece)) (hxs : ItemsOK hs bullet xs) (hne : (xs.filter (·.2 ≠ [])) ≠ [])
    (h9 : ordered = true → start + xs.length ≤ 10 ^ 9) :
    ∃ p : Piece, p.OK hs bullet ∧ p.isList = true ∧ ((∀ x ∈ xs, ∀ p ∈ x.2, p.flat) → QOK hs bullet p) ∧
      p.md = [.list (if ordered then some start else none) ((xs.filter (·.2 ≠ [])).map fun x => x.2.flatMap Piece.md)] ∧
      list (unEscapeContent .smart hs) ordered bullet start (xs.map Prod.fst) = b!"\n\n" ++ p.raw ++ b!"\n\n" := by
  -- the items with something to see
  have hitems : ∀ xs : List (Bytes × List Piece), ItemsOK hs bullet xs →
      ((xs.map Prod.fst).map trimSpace).filter (· ≠ []) = (xs.filter (·.2 ≠ [])).map fun x => trimSpace x.1 := by
    intro xs h
    induction xs with
    | nil => rfl
    | cons x xs ih =>
      have ih' := ih ⟨fun y hy => h.laid y (by simp [hy]), fun y hy => h.ok y (by simp [hy]), fun y hy => h.apart y (by simp [hy])⟩
      obtain ⟨a, b, hl⟩ := h.laid x (by simp)
      rw [List.map_cons, List.map_cons, List.filter_cons, List.filter_cons, ih']
      by_cases hx : x.2 = []
      · rw [hx] at hl
        have := hl.trim_nil
        simp [this, hx]
      · have := (laid_out hst h0 h10 hl hx (h.ok x (by simp))).1
        simp [this, hx]
  let ys := xs.filter (·.2 ≠ [])
  have hys : ∀ x ∈ ys, x ∈ xs ∧ x.2 ≠ [] := by
    intro x hx
    have := List.mem_filter.1 hx
    exact ⟨this.1, by simpa using this.2⟩
  have hyne : ys ≠ [] := hne
  have hlen : ys.length ≤ xs.length := List.length_filter_le _ _
  obtain ⟨w, num, hw, hrune, hnum, hpfx⟩ := list_pfx hbul ordered (start := start) (List.length_pos_iff.2 hyne)
    (fun h => by have := h9 h; omega)
  let pfx := listPrefix ordered bullet start ys.length
  let outs := ys.map fun x => glue (x.2.map (Piece.out hs))
  have houts : outs.length = ys.length := by simp [outs]
  have hone : outs ≠ [] := by simpa [outs] using hyne
  have hlist : list (unEscapeContent .smart hs) ordered bullet start (xs.map Prod.fst) = b!"\n\n" ++ listText pfx w 0 outs ++ b!"\n\n" := by
    simp only [list]
    rw [hitems xs hxs, if_neg (by simpa [ys] using hyne), List.length_map, hrune, listItemsGo_eq, List.map_map]
    have : ((xs.filter (·.2 ≠ [])).map ((fun it => unEscapeContent .smart hs (trimUnnecessaryHardLineBreaks (trimConsecutiveNewlines it))) ∘
        fun x => trimSpace x.1)) = outs := by
      apply List.map_congr_left
      intro x hx
      obtain ⟨h1, h2⟩ := hys x hx
      obtain ⟨a, b, hl⟩ := hxs.laid x h1
      exact (laid_out hst h0 h10 hl h2 (hxs.ok x h1)).2
    rw [this]
  let its : List Item := ys.map fun x => ⟨seqLines hs x.2, x.2.flatMap Piece.md⟩
  have hits : ∀ it ∈ its, it.OK bullet := by
    intro it hit
    obtain ⟨x, hx, rfl⟩ := List.mem_map.1 hit
    obtain ⟨h1, h2⟩ := hys x hx
    refine ⟨?_, ?_⟩
    · obtain ⟨p, l, ls, -, e, hv, hf, -⟩ := seq_begins x.2 h2 (hxs.ok x h1)
      exact ⟨l, ls, e, hv, hf⟩
    · exact reads_seq x.2 h2 (hxs.ok x h1) (hxs.apart x h1)
  have hilen : its.length = ys.length := by simp [its]
  have hpfx' : ∀ j, 0 ≤ j → j < 0 + outs.length → ∃ num, Pfx bullet ordered w (pfx j) num := by
    intro j _ hj; exact ⟨num j, hpfx j (by omega)⟩
  have hreads := reads_list hbul hw its (by simpa [its] using hyne) hits (fun j hj => hpfx j (by omega))
  have hlines : lines (restoreCodeNewlines (listText pfx w 0 outs)) = allLines pfx w 0 (its.map Item.lines) := by
    rw [listText_lines hbul outs 0 hone hpfx', List.map_map]
    congr 1
    rw [List.map_map]
    apply List.map_congr_left
    intro x hx
    exact fin_join x.2 (hys x hx).2
  have hmem : ∀ b, b ≠ 10 → (∀ x ∈ xs, ∀ p ∈ x.2, b ∉ p.out hs) → ∀ y ∈ outs, b ∉ y := by
    intro b hb h y hy hby
    obtain ⟨x, hx, rfl⟩ := List.mem_map.1 hy
    rcases glue_mem hby with h' | ⟨z, hz, h'⟩
    · exact hb h'
    · obtain ⟨p, hp, rfl⟩ := List.mem_map.1 hz
      exact h x (hys x hx).1 p hp h'
  have hsolid : Solid (listText pfx w 0 outs) := by
    refine listText_solid hbul (by omega) outs 0 hone ?_ hpfx'
    intro y hy
    obtain ⟨x, hx, rfl⟩ := List.mem_map.1 hy
    obtain ⟨h1, h2⟩ := hys x hx
    refine glue_solid (by simpa using h2) ?_
    intro z hz
    obtain ⟨p, hp, rfl⟩ := List.mem_map.1 hz
    exact (hxs.ok x h1 p hp).out
  have hmark : MARK ∉ listText pfx w 0 outs :=
    listText_mem hbul (by decide) (by decide) (by decide) outs 0 (hmem MARK (by decide) fun x hx p hp => (hxs.ok x hx p hp).mark) hpfx'
  let md : List Md := [.list (num 0) (its.map Item.md)]
  have hwf := rawPiece_wf hmark md true
  suffices hok : (rawPiece (listText pfx w 0 outs) md true).OK hs bullet by
    refine ⟨rawPiece (listText pfx w 0 outs) md true, hok, rfl, fun hflat => qok_raw hok ?_, ?_, ?_⟩
    · refine listText_flat hbul outs 0 ?_ hpfx'
      intro y hy hi
      obtain ⟨x, hx, rfl⟩ := List.mem_map.1 hy
      obtain ⟨h1, h2⟩ := hys x hx
      rw [← out_join hst h0 h10 x.2 (hxs.ok x h1), renToks_by] at hi
      have := encBy_infix (by decide) (by decide) _ hi
      rw [W_snd] at this
      exact flat_join (hflat x h1) this
    · show md = _
      simp only [md, its, hnum, List.map_map]
      rfl
    · rw [hlist, rawPiece_raw]
  refine ⟨hwf, by rwa [rawPiece_raw], by rwa [rawPiece_out], ?_, ?_, ?_, out_mark hwf⟩
  · rw [Piece.fin, rawPiece_out, hlines]; exact hreads.1
  · rw [Piece.fin, rawPiece_out, hlines]; exact hreads.2
  · rw [rawPiece_out]
    exact ⟨listText_mem hbul (by decide) (by decide) (by decide) outs 0 (hmem 13 (by decide) fun x hx p hp => (hxs.ok x hx p hp).bytes.1) hpfx',
      listText_mem hbul (by decide) (by decide) (by decide) outs 0 (hmem 0 (by decide) fun x hx p hp => (hxs.ok x hx p hp).bytes.2) hpfx'⟩

end Verif.Page
