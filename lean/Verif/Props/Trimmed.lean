import Verif.Props.Newlines
import Verif.Proofs.Lists
import Verif.Props.Escape
/-!
# Properties C33 and C65 of the post-render steps: the edges of the output and the internal markers
-/
set_option linter.unusedSimpArgs false

namespace Verif.Props
open Verif Verif.Commonmark Verif.TextUtils

/-- Every escape marker is directly in front of a visible ASCII character.  That is how the escaping places
them. -/
def MarkersPlaced (s : Bytes) : Prop := ∀ x y, s = x ++ 7 :: y → ∃ c y', y = c :: y' ∧ 32 < c ∧ c < 128

theorem MarkersPlaced.tail {b : UInt8} {s : Bytes} (h : MarkersPlaced (b :: s)) : MarkersPlaced s := by
  intro x y e; exact h (b :: x) y (by rw [e]; rfl)

theorem MarkersPlaced.cons {b : UInt8} {s : Bytes} (h : MarkersPlaced s)
    (hb : b = 7 → ∃ c y', s = c :: y' ∧ 32 < c ∧ c < 128) : MarkersPlaced (b :: s) := by
  intro x y e
  cases x with
  | nil => simp at e; rw [← e.2]; exact hb e.1
  | cons a x => simp at e; exact h x y e.2

theorem MarkersPlaced.spaces {sp s : Bytes} (h : MarkersPlaced s) (hsp : ∀ b ∈ sp, b = 32) : MarkersPlaced (sp ++ s) := by
  induction sp with
  | nil => exact h
  | cons b sp ih =>
    refine (ih fun x hx => hsp x (by simp [hx])).cons ?_
    intro h7; rw [hsp b (by simp)] at h7; exact absurd h7 (by decide)

theorem visible_ne {c : UInt8} (h : 32 < c) : c ≠ 10 ∧ c ≠ 32 ∧ c ≠ 7 := by
  refine ⟨?_, ?_, ?_⟩ <;> (rintro rfl; exact absurd h (by decide))

theorem MarkersPlaced.tcn : ∀ (s : Bytes) (k : Nat) (buf : Bytes), (∀ b ∈ buf, b = 32) → MarkersPlaced s →
    MarkersPlaced (trimNewlinesGo k buf s) := by
  intro s
  induction s with
  | nil =>
    intro k buf hb _
    have : MarkersPlaced (buf ++ []) := MarkersPlaced.spaces (by intro x y e; simp at e) hb
    simpa [trimNewlinesGo] using this
  | cons b s ih =>
    intro k buf hb h
    rw [trimNewlinesGo]
    split
    · split
      · exact MarkersPlaced.spaces ((ih _ _ (by simp) h.tail).cons (by intro h7; rename_i hb10 _; subst hb10; exact absurd h7 (by decide))) hb
      · exact ih _ _ (by simp) h.tail
    · split
      · rename_i hsp
        subst hsp
        refine ih _ _ (fun x hx => ?_) h.tail
        rcases List.mem_append.1 hx with hx | hx
        · exact hb x hx
        · simpa using hx
      · refine MarkersPlaced.spaces ((ih _ _ (by simp) h.tail).cons ?_) hb
        intro h7
        obtain ⟨c, y', rfl, h1, h2⟩ := h [] s (by rw [h7]; rfl)
        obtain ⟨n10, n32, -⟩ := visible_ne h1
        exact ⟨c, _, by rw [trimNewlinesGo, if_neg n10, if_neg n32]; rfl, h1, h2⟩

theorem MarkersPlaced.replace {pat : Bytes} (hp : pat.head? = some 32) {s : Bytes} (h : MarkersPlaced s) :
    MarkersPlaced (replaceAll pat b!"\n\n" s) := by
  have hne : pat ≠ [] := by rintro rfl; simp at hp
  revert h
  refine replaceAll_induct hne (P := fun s => MarkersPlaced s → MarkersPlaced (replaceAll pat b!"\n\n" s)) id ?_ ?_ s
  · intro s ih h
    rw [replaceAll_match _ _ _ hne]
    have : MarkersPlaced s := by
      intro x y e; exact h (pat ++ x) y (by rw [e]; simp)
    exact ((ih this).cons (fun h => absurd h (by decide))).cons (fun h => absurd h (by decide))
  · intro b s hn ih h
    rw [replaceAll_nomatch hn]
    refine (ih h.tail).cons ?_
    intro h7
    obtain ⟨c, y', rfl, h1, h2⟩ := h [] s (by rw [h7]; rfl)
    refine ⟨c, _, replaceAll_nomatch ?_, h1, h2⟩
    intro hpre
    cases pat with
    | nil => exact hne rfl
    | cons p pat =>
      simp at hp; subst hp
      rw [List.cons_prefix_cons] at hpre
      exact (visible_ne h1).2.1 hpre.1.symm

/-! ## Edges -/

/-- A byte string without visible ASCII characters: the encodings of white space and U+F002 are. -/
def NoVisible (w : Bytes) : Prop := ∀ b ∈ w, ¬ (32 < b ∧ b < 128)

/-- What was at the front of the replaced text was there before. -/
theorem prefix_of_replace {old new : Bytes} {c : UInt8} (hne : old ≠ []) (hn : new.head? = some c) : ∀ (w s : Bytes), c ∉ w →
    w <+: replaceAll old new s → w <+: s := by
  intro w
  induction w with
  | nil => intro s _ _; exact List.nil_prefix
  | cons b w ih =>
    intro s hc h
    simp at hc
    cases s with
    | nil => exact h
    | cons a s =>
      by_cases hm : old <+: a :: s
      · obtain ⟨t, e⟩ := hm
        rw [← e, replaceAll_match _ _ _ hne] at h
        cases new with
        | nil => simp at hn
        | cons x new =>
          simp at hn; subst hn
          rw [List.cons_append, List.cons_prefix_cons] at h
          exact absurd h.1.symm hc.1
      · rw [replaceAll_nomatch hm, List.cons_prefix_cons] at h
        rw [List.cons_prefix_cons]
        exact ⟨h.1, ih s hc.2 h.2⟩

theorem replace_no {old : Bytes} (hne : old ≠ []) : ∀ s : Bytes, 10 ∉ replaceAll old [10] s → replaceAll old [10] s = s := by
  refine replaceAll_induct hne (fun _ => rfl) ?_ ?_
  · intro s _ h; rw [replaceAll_match _ _ _ hne] at h; simp at h
  · intro b s hn ih h
    rw [replaceAll_nomatch hn] at h ⊢
    simp at h
    rw [ih h.2]

/-- What is at the end of the text with restored newlines was there before. -/
theorem suffix_of_restore {w : Bytes} (hw : 10 ∉ w) : ∀ s : Bytes, w <:+ restoreCodeNewlines s → w <:+ s := by
  have hne : codeNewline ≠ [] := by decide
  refine replaceAll_induct hne id ?_ ?_
  · intro s ih h
    rw [restoreCodeNewlines, replaceAll_match _ _ _ hne, List.singleton_append, List.suffix_cons_iff] at h
    rcases h with rfl | h
    · simp at hw
    · exact (ih h).trans (List.suffix_append _ _)
  · intro b s hn ih h
    rw [restoreCodeNewlines, replaceAll_nomatch hn, List.suffix_cons_iff] at h
    rcases h with rfl | h
    · simp at hw
      rw [replace_no hne s hw.2]
      exact List.suffix_refl _
    · exact (ih h).trans (List.suffix_cons _ _)

theorem prefix_of_changes : ∀ (w : Bytes) (chs : List Bool) (u : Bytes), MarkersPlaced u → NoVisible w → 7 ∉ w →
    w <+: Escape.applyChanges chs u → w <+: u := by
  intro w
  induction w with
  | nil => intro _ u _ _ _ _; exact List.nil_prefix
  | cons b w ih =>
    intro chs u hm hv h7 h
    cases u with
    | nil => simp [Escape.applyChanges] at h
    | cons a u =>
      cases chs with
      | nil => exact h
      | cons ch chs =>
        have hb := hv b (by simp)
        simp at h7
        rw [Escape.applyChanges] at h
        by_cases ha : a = 7
        · subst ha
          exfalso
          rw [if_neg (by simp)] at h
          obtain ⟨c, y', rfl, h1, h2⟩ := hm [] u rfl
          cases ch with
          | true =>
            rw [if_pos rfl, List.cons_prefix_cons] at h
            apply hb; rw [h.1]; decide
          | false =>
            rw [if_neg (by simp)] at h
            cases chs with
            | nil => rw [Escape.applyChanges, List.cons_prefix_cons] at h; apply hb; rw [h.1]; exact ⟨h1, h2⟩
            | cons ch chs =>
              rw [Escape.applyChanges, if_pos (visible_ne h1).2.2, List.cons_prefix_cons] at h
              apply hb; rw [h.1]; exact ⟨h1, h2⟩
        · rw [if_pos ha, List.cons_prefix_cons] at h
          rw [List.cons_prefix_cons]
          exact ⟨h.1, ih chs u hm.tail (fun x hx => hv x (by simp [hx])) h7.2 h.2⟩

theorem changes_no_visible : ∀ (u : Bytes) (chs : List Bool), MarkersPlaced u → NoVisible (Escape.applyChanges chs u) →
    Escape.applyChanges chs u = u := by
  intro u
  induction u with
  | nil => intro chs _ _; simp [Escape.applyChanges]
  | cons a u ih =>
    intro chs hm hv
    cases chs with
    | nil => rfl
    | cons ch chs =>
      rw [Escape.applyChanges] at hv ⊢
      by_cases ha : a = 7
      · subst ha
        exfalso
        rw [if_neg (by simp)] at hv
        have hu := ih chs hm.tail (by
          intro b hb; apply hv
          cases ch
          · rw [if_neg (by simp)]; exact hb
          · rw [if_pos rfl]; exact List.mem_cons_of_mem _ hb)
        rw [hu] at hv
        obtain ⟨c, y', rfl, h1, h2⟩ := hm [] u rfl
        refine hv c ?_ ⟨h1, h2⟩
        cases ch
        · rw [if_neg (by simp)]; simp
        · rw [if_pos rfl]; simp
      · rw [if_pos ha] at hv ⊢
        rw [ih chs hm.tail fun b hb => hv b (List.mem_cons_of_mem _ hb)]

theorem suffix_of_changes {w : Bytes} (hv : NoVisible w) : ∀ (u : Bytes) (chs : List Bool), MarkersPlaced u →
    w <:+ Escape.applyChanges chs u → w <:+ u := by
  intro u
  induction u with
  | nil => intro chs _ h; simpa [Escape.applyChanges] using h
  | cons a u ih =>
    intro chs hm h
    cases chs with
    | nil => exact h
    | cons ch chs =>
      by_cases ha : a = 7
      · subst ha
        rw [Escape.applyChanges, if_neg (by simp)] at h
        cases ch with
        | false => rw [if_neg (by simp)] at h; exact (ih chs hm.tail h).trans (List.suffix_cons _ _)
        | true =>
          rw [if_pos rfl, List.suffix_cons_iff] at h
          rcases h with h | h
          · exfalso; exact hv 92 (by rw [h]; simp) (by decide)
          · exact (ih chs hm.tail h).trans (List.suffix_cons _ _)
      · rw [Escape.applyChanges, if_pos ha, List.suffix_cons_iff] at h
        rcases h with h | h
        · rw [changes_no_visible u chs hm.tail fun b hb => hv b (by rw [h]; simp [hb])] at h
          rw [h]; exact List.suffix_refl _
        · exact (ih chs hm.tail h).trans (List.suffix_cons _ _)

/-! ## First and last line -/

theorem prefix_of_first_line {w s s' l : Bytes} {ls ls' : List Bytes} (hw : 10 ∉ w) (h : splitOn 10 s = l :: ls)
    (h' : splitOn 10 s' = l :: ls') (hp : w <+: s) : w <+: s' := by
  have h1 : w <+: l := by
    obtain ⟨t, rfl⟩ := hp
    cases e : splitOn 10 t with
    | nil => exact absurd e (splitOn_nonempty _ _)
    | cons m ms =>
      rw [lines_head_append hw e] at h
      simp at h; rw [← h.1]; exact List.prefix_append _ _
  have h2 := join_split 10 s'
  rw [h'] at h2
  cases ls' with
  | nil => simp [joinWith] at h2; rw [← h2]; exact h1
  | cons m ms => simp only [joinWith] at h2; rw [← h2]; exact h1.trans (List.prefix_append _ _)

theorem join_last (init : List Bytes) (last : Bytes) : last <:+ joinWith 10 (init ++ [last]) := by
  induction init with
  | nil => exact List.suffix_refl _
  | cons a init ih =>
    cases e : init ++ [last] with
    | nil => simp at e
    | cons b rest =>
      rw [List.cons_append, e, joinWith]
      · rw [e] at ih
        exact ih.trans ((List.suffix_cons _ _).trans (List.suffix_append _ _))
      · simp

theorem suffix_of_last_line {w s s' last : Bytes} {init init' : List Bytes} (hw : 10 ∉ w) (h : splitOn 10 s = init ++ [last])
    (h' : splitOn 10 s' = init' ++ [last]) (hp : w <:+ s) : w <:+ s' := by
  have h1 : w <:+ last := by
    obtain ⟨t, rfl⟩ := hp
    have : ∃ init l, splitOn 10 (t ++ w) = init ++ [l ++ w] := by
      clear h
      induction t with
      | nil => exact ⟨[], [], by simp [splitOn_of_no_sep hw]⟩
      | cons b t ih =>
        obtain ⟨i, l, e⟩ := ih
        by_cases hb : b = 10
        · subst hb; exact ⟨[] :: i, l, by rw [List.cons_append, splitOn_sep, e]; rfl⟩
        · rw [List.cons_append, split_other' hb, e]
          cases i with
          | nil => exact ⟨[], b :: l, rfl⟩
          | cons x i => exact ⟨(b :: x) :: i, l, rfl⟩
    obtain ⟨i, l, e⟩ := this
    rw [h] at e
    have := List.append_inj' e rfl
    simp at this
    rw [this.2]; exact List.suffix_append _ _
  have h2 := join_split 10 s'
  rw [h'] at h2
  rw [← h2]
  exact h1.trans (join_last _ _)

theorem replace_last_line {pat : Bytes} (hp : ∃ a b, 10 ∉ a ∧ 10 ∉ b ∧ pat = a ++ 10 :: b ++ [10]) : ∀ s : Bytes,
    ∃ init init' last, splitOn 10 s = init ++ [last] ∧ splitOn 10 (replaceAll pat b!"\n\n" s) = init' ++ [last] ∧
      init.length = init'.length := by
  obtain ⟨a, b, ha, hb, rfl⟩ := hp
  refine replaceAll_induct (old := a ++ 10 :: b ++ [10]) (by simp) ⟨[], [], [], rfl, rfl, rfl⟩ ?_ ?_
  · intro s ⟨init, init', last, h1, h2, h3⟩
    refine ⟨a :: b :: init, [] :: [] :: init', last, ?_, ?_, by simp [h3]⟩
    · have e : a ++ 10 :: b ++ [10] ++ s = a ++ 10 :: (b ++ 10 :: s) := by simp
      rw [e, splitOn_cat _ _ _ ha, splitOn_cat _ _ _ hb, h1]; rfl
    · rw [replaceAll_match _ _ _ (by simp)]
      show splitOn 10 (10 :: 10 :: replaceAll _ b!"\n\n" s) = _
      rw [splitOn_sep, splitOn_sep, h2]; rfl
  · intro c s hn ⟨init, init', last, h1, h2, h3⟩
    rw [replaceAll_nomatch hn]
    by_cases hc : c = 10
    · subst hc
      exact ⟨[] :: init, [] :: init', last, by rw [splitOn_sep, h1]; rfl, by rw [splitOn_sep, h2]; rfl, by simp [h3]⟩
    · rw [split_other' hc, split_other' hc, h1, h2]
      cases init with
      | nil => cases init' with
        | nil => exact ⟨[], [], c :: last, rfl, rfl, rfl⟩
        | cons _ _ => simp at h3
      | cons i init => cases init' with
        | nil => simp at h3
        | cons i' init' => exact ⟨(c :: i) :: init, (c :: i') :: init', last, rfl, rfl, by simpa using h3⟩

theorem getLast_filter {α} {p : α → Bool} {init init' : List α} {a b : α} (h : (init ++ [a]).filter p = (init' ++ [b]).filter p)
    (ha : p a = true) (hb : p b = true) : a = b := by
  rw [List.filter_append, List.filter_append] at h
  simp [ha, hb] at h
  exact h.2

/-- White space that is not at an edge before the trimming of newlines is not at that edge afterwards. -/
theorem tcn_edges {t : Bytes} (hne : t ≠ []) (hl : Spec.NoLeadingWhitespace t) (hr : Spec.NoTrailingWhitespace t) :
    (∀ w, 10 ∉ w → w <+: trimConsecutiveNewlines t → w <+: t) ∧ (∀ w, 10 ∉ w → w <:+ trimConsecutiveNewlines t → w <:+ t) ∧
    (trimConsecutiveNewlines t).head? = t.head? ∧ (trimConsecutiveNewlines t).getLast? = t.getLast? := by
  obtain ⟨l, ls, ls', h1, h2, -⟩ := (tcn_lines t 0 [] (by simp)).2 (by omega)
  rw [List.nil_append] at h2
  rw [← trimConsecutiveNewlines] at h1
  -- the last line
  obtain ⟨init, last, e1, e2⟩ := tcn_last_line hne hr
  obtain ⟨init', last', e3, -, e4⟩ := lines_last_suffix t
  obtain ⟨x, d, rfl⟩ : ∃ x d, t = x ++ [d] := by
    rcases List.eq_nil_or_concat t with h | ⟨x, d, h⟩
    · exact absurd h hne
    · exact ⟨x, d, by rw [h, List.concat_eq_append]⟩
  have hd10 : d ≠ 10 := by rintro rfl; exact hr [10] (by decide) (List.suffix_append _ _)
  have hd32 : d ≠ 32 := by rintro rfl; exact hr [32] (by decide) (List.suffix_append _ _)
  obtain ⟨last'', e5⟩ := e4 x d hd10 rfl
  have v1 : visibleLine last = true := by
    cases h : visibleLine last with
    | true => rfl
    | false =>
      exfalso; apply e2
      have : ∀ b ∈ last, b = 32 := by
        intro b hb
        simp only [visibleLine, List.any_eq_false] at h
        simpa using h b hb
      have hrep := List.eq_replicate_of_mem this
      rw [hrep]; exact Spec.AllWhitespace.spaces _
  have v2 : visibleLine last' = true := by
    rw [e5]; simp [visibleLine, hd32]
  have heq : last = last' := by
    have := c31_visible_lines_kept (x ++ [d])
    rw [Spec.lines, Spec.lines, e1, e3] at this
    exact getLast_filter this v1 v2
  have hp : ∀ w, 10 ∉ w → w <+: trimConsecutiveNewlines (x ++ [d]) → w <+: x ++ [d] := fun w hw h => prefix_of_first_line hw h1 h2 h
  refine ⟨hp, fun w hw h => suffix_of_last_line hw e1 (by rw [e3, heq]) h, ?_, ?_⟩
  · have hx10 : ∃ a r, x ++ [d] = a :: r ∧ a ≠ 10 := by
      cases x with
      | nil => exact ⟨d, [], rfl, hd10⟩
      | cons a x => exact ⟨a, x ++ [d], rfl, by rintro rfl; exact hl [10] (by decide) ⟨x ++ [d], rfl⟩⟩
    obtain ⟨a, r, er, ha⟩ := hx10
    have := prefix_of_first_line (w := [a]) (by simpa using Ne.symm ha) h2 h1 (by rw [er]; exact ⟨r, rfl⟩)
    obtain ⟨r', e'⟩ := this
    rw [← e', er]; rfl
  · obtain ⟨x', e'⟩ := tcn_visible hd10 hd32 [] x 0 []
    rw [trimConsecutiveNewlines, e']; simp [trimNewlinesGo]

theorem replace_edges {pat : Bytes} (hp : ∃ a b, 10 ∉ a ∧ 10 ∉ b ∧ pat = 32 :: a ++ 10 :: b ++ [10]) {t : Bytes} (hne : t ≠ [])
    (hl : Spec.NoLeadingWhitespace t) (hr : Spec.NoTrailingWhitespace t) :
    (∀ w, 10 ∉ w → w <+: replaceAll pat b!"\n\n" t → w <+: t) ∧ (∀ w, 10 ∉ w → w <:+ replaceAll pat b!"\n\n" t → w <:+ t) ∧
    (replaceAll pat b!"\n\n" t).head? = t.head? ∧ (replaceAll pat b!"\n\n" t).getLast? = t.getLast? := by
  obtain ⟨a, b, ha, hb, rfl⟩ := hp
  have hpne : 32 :: a ++ 10 :: b ++ [10] ≠ [] := by simp
  obtain ⟨init, init', last, h1, h2, -⟩ := replace_last_line (pat := 32 :: a ++ 10 :: b ++ [10])
    ⟨32 :: a, b, by simp [ha], hb, rfl⟩ t
  refine ⟨fun w hw h => prefix_of_replace hpne rfl w t hw h, fun w hw h => suffix_of_last_line hw h2 h1 h, ?_, ?_⟩
  · cases t with
    | nil => exact absurd rfl hne
    | cons c t =>
      rw [replaceAll_nomatch]
      · rfl
      · intro h
        rw [List.cons_append, List.cons_append, List.cons_prefix_cons] at h
        exact hl [32] (by decide) ⟨t, by rw [h.1]; rfl⟩
  · obtain ⟨x, d, rfl⟩ : ∃ x d, t = x ++ [d] := by
      rcases List.eq_nil_or_concat t with h | ⟨x, d, h⟩
      · exact absurd h hne
      · exact ⟨x, d, by rw [h, List.concat_eq_append]⟩
    have hd10 : d ≠ 10 := by rintro rfl; exact hr [10] (by decide) (List.suffix_append _ _)
    obtain ⟨y, hy⟩ := suffix_of_last_line (w := [d]) (by simpa using Ne.symm hd10) h1 h2 (List.suffix_append _ _)
    rw [← hy]; simp

/-- The edges of a text. -/
structure EdgesKept (t u : Bytes) : Prop where
  pre : ∀ w, 10 ∉ w → w <+: u → w <+: t
  suf : ∀ w, 10 ∉ w → w <:+ u → w <:+ t
  head : u.head? = t.head?
  last : u.getLast? = t.getLast?

theorem EdgesKept.noLeading {t u : Bytes} (h : EdgesKept t u) (hl : Spec.NoLeadingWhitespace t) : Spec.NoLeadingWhitespace u := by
  have hw : ∀ w ∈ Spec.whitespace, w = [10] ∨ 10 ∉ w := by decide
  intro w hm hp
  rcases hw w hm with rfl | h10
  · obtain ⟨r, hr⟩ := hp
    have := h.head; rw [← hr] at this
    cases t with
    | nil => simp at this
    | cons a t => simp at this; exact hl [10] hm ⟨t, by rw [this]; rfl⟩
  · exact hl w hm (h.pre w h10 hp)

theorem EdgesKept.noTrailing {t u : Bytes} (h : EdgesKept t u) (hl : Spec.NoTrailingWhitespace t) : Spec.NoTrailingWhitespace u := by
  have hw : ∀ w ∈ Spec.whitespace, w = [10] ∨ 10 ∉ w := by decide
  intro w hm hp
  rcases hw w hm with rfl | h10
  · obtain ⟨r, hr⟩ := hp
    have := h.last; rw [← hr] at this
    simp at this
    obtain ⟨y, hy⟩ := getLast_concat_of this.symm
    exact hl [10] hm ⟨y, hy.symm⟩
  · exact hl w hm (h.suf w h10 hp)

theorem EdgesKept.trans {t u v : Bytes} (h : EdgesKept t u) (h' : EdgesKept u v) : EdgesKept t v :=
  ⟨fun w hw hp => h.pre w hw (h'.pre w hw hp), fun w hw hp => h.suf w hw (h'.suf w hw hp), h'.head.trans h.head, h'.last.trans h.last⟩

theorem EdgesKept.ne {t u : Bytes} (h : EdgesKept t u) (hne : t ≠ []) : u ≠ [] := by
  rintro rfl
  have := h.head
  cases t with
  | nil => exact hne rfl
  | cons a t => simp at this

theorem trim_edges {t : Bytes} (hne : t ≠ []) (hl : Spec.NoLeadingWhitespace t) (hr : Spec.NoTrailingWhitespace t) :
    EdgesKept t (trimUnnecessaryHardLineBreaks (trimConsecutiveNewlines t)) := by
  have step : ∀ (pat : Bytes), (∃ a b, 10 ∉ a ∧ 10 ∉ b ∧ pat = 32 :: a ++ 10 :: b ++ [10]) → ∀ u, EdgesKept t u →
      EdgesKept t (replaceAll pat b!"\n\n" u) := by
    intro pat hp u h
    obtain ⟨a1, a2, a3, a4⟩ := replace_edges hp (h.ne hne) (h.noLeading hl) (h.noTrailing hr)
    exact h.trans ⟨a1, a2, a3, a4⟩
  have h0 : EdgesKept t (trimConsecutiveNewlines t) := by
    obtain ⟨a1, a2, a3, a4⟩ := tcn_edges hne hl hr
    exact ⟨a1, a2, a3, a4⟩
  simp only [trimUnnecessaryHardLineBreaks]
  exact step _ ⟨[32], [32], by decide, by decide, rfl⟩ _
    (step _ ⟨[32], [32, 32], by decide, by decide, rfl⟩ _ (step _ ⟨[32], [], by decide, by decide, rfl⟩ _ h0))

/-- **C33** (partial): the output neither begins nor ends with white space.

The hypotheses say that the rendered document is not spoiled by internal markers: escape markers are in front of visible
characters, and the marker for the newlines of code blocks is not at an edge.  The text of a document can violate both:
see the two counterexamples. -/
theorem c33_trimmed_partial (mode : Escape.Mode) (hs : List Escape.Handler) (result : Bytes)
    (hm : mode = .smart → MarkersPlaced (trimSpace result))
    (hc : ¬ codeNewline <+: trimSpace result ∧ ¬ codeNewline <:+ trimSpace result) :
    Spec.NoLeadingWhitespace (postRender mode hs result) ∧ Spec.NoTrailingWhitespace (postRender mode hs result) := by
  obtain ⟨_, _, _, _, _, hl, hr⟩ := trimSpace_spec result
  simp only [postRender, postRenderTrimContent]
  generalize trimSpace result = t at *
  by_cases hne : t = []
  · subst hne
    have : restoreCodeNewlines (Escape.unEscapeContent mode hs (trimUnnecessaryHardLineBreaks (trimConsecutiveNewlines []))) = [] := by
      cases mode <;> rfl
    rw [this]; exact ⟨hl, hr⟩
  have he := trim_edges hne hl hr
  have hmu : mode = .smart → MarkersPlaced (trimUnnecessaryHardLineBreaks (trimConsecutiveNewlines t)) := by
    intro hmode
    simp only [trimUnnecessaryHardLineBreaks, trimConsecutiveNewlines]
    exact (((MarkersPlaced.tcn t 0 [] (by simp) (hm hmode)).replace rfl).replace rfl).replace rfl
  have hul := he.noLeading hl
  have hur := he.noTrailing hr
  have huc1 : ¬ codeNewline <+: trimUnnecessaryHardLineBreaks (trimConsecutiveNewlines t) := fun h => hc.1 (he.pre _ (by decide) h)
  have huc2 : ¬ codeNewline <:+ trimUnnecessaryHardLineBreaks (trimConsecutiveNewlines t) := fun h => hc.2 (he.suf _ (by decide) h)
  generalize trimUnnecessaryHardLineBreaks (trimConsecutiveNewlines t) = u at *
  -- un-escaping
  have key : ∀ w, NoVisible w → 7 ∉ w → (w <+: Escape.unEscapeContent mode hs u → w <+: u) ∧
      (w <:+ Escape.unEscapeContent mode hs u → w <:+ u) := by
    intro w hv h7
    cases mode with
    | disabled => exact ⟨id, id⟩
    | smart =>
      rw [Escape.unEscapeContent]
      exact ⟨prefix_of_changes w _ u (hmu rfl) hv h7, suffix_of_changes hv u _ (hmu rfl)⟩
  have hws : ∀ w ∈ Spec.whitespace, NoVisible w ∧ 7 ∉ w := by unfold NoVisible; decide
  have hcv : NoVisible codeNewline ∧ 7 ∉ codeNewline := by unfold NoVisible; decide
  have hvl : Spec.NoLeadingWhitespace (Escape.unEscapeContent mode hs u) :=
    fun w hw h => hul w hw ((key w (hws w hw).1 (hws w hw).2).1 h)
  have hvr : Spec.NoTrailingWhitespace (Escape.unEscapeContent mode hs u) :=
    fun w hw h => hur w hw ((key w (hws w hw).1 (hws w hw).2).2 h)
  have hvc1 : ¬ codeNewline <+: Escape.unEscapeContent mode hs u := fun h => huc1 ((key _ hcv.1 hcv.2).1 h)
  have hvc2 : ¬ codeNewline <:+ Escape.unEscapeContent mode hs u := fun h => huc2 ((key _ hcv.1 hcv.2).2 h)
  generalize Escape.unEscapeContent mode hs u = v at *
  have hw10 : ∀ w ∈ Spec.whitespace, w = [10] ∨ 10 ∉ w := by decide
  constructor
  · intro w hw h
    rcases hw10 w hw with rfl | h10
    · cases v with
      | nil => simp [restoreCodeNewlines] at h
      | cons a v =>
        rw [restoreCodeNewlines, replaceAll_nomatch hvc1, List.cons_prefix_cons] at h
        exact hvl [10] hw ⟨v, by rw [h.1]; rfl⟩
    · exact hvl w hw (prefix_of_replace (by decide) rfl w v h10 h)
  · intro w hw h
    rcases hw10 w hw with rfl | h10
    · have main : ∀ v : Bytes, ¬ codeNewline <:+ v → ¬ [10] <:+ v → ¬ [10] <:+ restoreCodeNewlines v := by
        refine replaceAll_induct (old := codeNewline) (by decide) (fun _ h => h) ?_ ?_
        · intro s ih h1 h2 h3
          rw [restoreCodeNewlines, replaceAll_match _ _ _ (by decide), List.singleton_append, List.suffix_cons_iff] at h3
          rcases h3 with h3 | h3
          · simp at h3
            have h4 : s = [] := by
              cases s with
              | nil => rfl
              | cons a s =>
                exfalso
                by_cases hp : codeNewline <+: a :: s
                · obtain ⟨t, e⟩ := hp; rw [← e, replaceAll_match _ _ _ (by decide)] at h3; simp at h3
                · rw [replaceAll_nomatch hp] at h3; simp at h3
            subst h4; exact h1 (by simp)
          · refine ih (fun h => h1 (h.trans (List.suffix_append _ _))) (fun h => h2 (h.trans (List.suffix_append _ _))) h3
        · intro b s hn ih h1 h2 h3
          rw [restoreCodeNewlines, replaceAll_nomatch hn, List.suffix_cons_iff] at h3
          rcases h3 with h3 | h3
          · simp at h3
            have h4 : s = [] := by
              cases s with
              | nil => rfl
              | cons a s =>
                exfalso
                by_cases hp : codeNewline <+: a :: s
                · obtain ⟨t, e⟩ := hp; rw [← e, replaceAll_match _ _ _ (by decide)] at h3; simp at h3
                · rw [replaceAll_nomatch hp] at h3; simp at h3
            subst h4; exact h2 (by rw [h3.1]; exact List.suffix_refl _)
          · refine ih (fun h => h1 (h.trans (List.suffix_cons _ _))) (fun h => h2 (h.trans (List.suffix_cons _ _))) h3
      exact main v hvc2 (hvr [10] hw) h
    · exact hvr w hw (suffix_of_restore h10 v h)

example : MarkersPlaced (trimSpace (b!"\n" ++ Escape.escapeContent .smart Escape.isCommonmarkChar b!"* a  \n\n\n")) := by
  intro x y h
  have e : trimSpace (b!"\n" ++ Escape.escapeContent .smart Escape.isCommonmarkChar b!"* a  \n\n\n") = [7, 42, 32, 97] := by decide
  rw [e] at h
  rcases x with _ | ⟨a, _ | ⟨b, _ | ⟨c, _ | ⟨d, x⟩⟩⟩⟩ <;> simp at h
  · exact ⟨42, [32, 97], h.symm, by decide, by decide⟩

/-- C33 fails for a text with a bell byte behind a space. -/
theorem c33_counterexample_bell :
    postRender .smart (Escape.commonmarkHandlers fun _ => false) (baseTextTransform .smart Escape.isCommonmarkChar [97, 32, 7]) = b!"a " := by decide

/-- C33 fails for a text with U+F002 at its end. -/
theorem c33_counterexample_marker :
    postRender .smart (Escape.commonmarkHandlers fun _ => false) (baseTextTransform .smart Escape.isCommonmarkChar [97, 239, 128, 130]) = b!"a\n" := by decide

/-! ## C65 -/

/-- **C65** (for any rendered document): the Markdown contains no U+F002, and no bell byte if the escape mode is `smart`. -/
theorem c65_no_markers (mode : Escape.Mode) (hs : List Escape.Handler) (result : Bytes) :
    ¬ codeNewline <:+: postRender mode hs result ∧ (mode = .smart → 7 ∉ postRender mode hs result) := by
  have hne : codeNewline ≠ [] := by decide
  constructor
  · rw [postRender]
    generalize Escape.unEscapeContent mode hs _ = v
    revert v
    refine replaceAll_induct hne (by decide) ?_ ?_
    · intro s ih h
      rw [restoreCodeNewlines, replaceAll_match _ _ _ hne, List.singleton_append, List.infix_cons_iff] at h
      rcases h with h | h
      · rw [codeNewline, List.cons_prefix_cons] at h; exact absurd h.1 (by decide)
      · exact ih h
    · intro b s hn ih h
      have hp : ¬ codeNewline <+: restoreCodeNewlines (b :: s) :=
        fun h => hn (prefix_of_replace hne rfl _ _ (by decide) h)
      rw [restoreCodeNewlines, replaceAll_nomatch hn] at h hp
      rw [List.infix_cons_iff] at h
      rcases h with h | h
      · exact hp h
      · exact ih h
  · rintro rfl
    rw [postRender]
    have := c02_no_marker hs (postRenderTrimContent result)
    revert this
    generalize Escape.unEscapeContent .smart hs _ = v
    revert v
    refine replaceAll_induct hne (by simp [restoreCodeNewlines]) ?_ ?_
    · intro s ih h
      rw [restoreCodeNewlines, replaceAll_match _ _ _ hne]
      simp at h ⊢
      exact ih h.2
    · intro b s hn ih h
      rw [restoreCodeNewlines, replaceAll_nomatch hn]
      simp at h ⊢
      exact ⟨h.1, ih h.2⟩

example : postRender .smart (Escape.commonmarkHandlers fun _ => false) [97, 7, 98, 239, 128, 130, 99] = b!"ab\nc" := by decide

end Verif.Props
