import Verif.Proofs.Chars
import Verif.Proofs.EscapeText
import Verif.Props.Spaces
import Verif.Model.Render
/-!
# What the text functions do to the visible characters
-/

namespace Verif.Chars
open Verif Verif.Spec Verif.TextUtils Verif.Escape Verif.Commonmark

/-- `t` is a text in which all visible characters of `s` are found in order. -/
def Keeps (s t : Bytes) : Prop := Utf8 t ∧ (visibleChars s).Sublist (visibleChars t)

theorem Keeps.refl {s : Bytes} (h : Utf8 s) : Keeps s s := ⟨h, List.Sublist.refl _⟩
theorem Keeps.trans {a b c : Bytes} (h1 : Keeps a b) (h2 : Keeps b c) : Keeps a c := ⟨h2.1, h1.2.trans h2.2⟩
theorem Keeps.eq {s t : Bytes} (h : Utf8 t) (e : visibleChars t = visibleChars s) : Keeps s t := ⟨h, by rw [e]; exact List.Sublist.refl _⟩

theorem Keeps.append {a a' b b' : Bytes} (h1 : Keeps a a') (hb : Utf8 b) (h2 : Keeps b b') : Keeps (a ++ b) (a' ++ b') :=
  ⟨utf8_append h1.1 h2.1, by rw [vis_append hb, vis_append h2.1]; exact h1.2.append h2.2⟩

theorem Keeps.after {s t : Bytes} (p : Bytes) (hp : Utf8 p) (h : Keeps s t) : Keeps s (p ++ t) :=
  ⟨utf8_append hp h.1, by rw [vis_append h.1]; exact h.2.trans (List.sublist_append_right _ _)⟩

theorem Keeps.before {s t : Bytes} (h : Keeps s t) (p : Bytes) (hp : Utf8 p) : Keeps s (t ++ p) :=
  ⟨utf8_append h.1 hp, by rw [vis_append hp]; exact h.2.trans (List.sublist_append_left _ _)⟩

theorem keeps_nil {t : Bytes} (h : Utf8 t) : Keeps [] t := ⟨h, by simp [vis_nil]⟩

/-! ## Trimming -/

theorem utf8_trimmed {s mid : Bytes} (h : Utf8 s) {l r : Bytes} (hl : AllWhitespace l) (hr : AllWhitespace r)
    (e : s = l ++ mid ++ r) : Utf8 mid ∧ visibleChars mid = visibleChars s := by
  have hr' := utf8_ws hr
  have h1 : Utf8 (l ++ mid) := utf8_prefix (b := r) (by rw [← e]; exact h) hr'
  have h2 : Utf8 mid := utf8_suffix h1 (utf8_ws hl)
  refine ⟨h2, ?_⟩
  rw [e, vis_append hr', vis_append h2, vis_ws hl, vis_ws hr]
  simp

theorem utf8_trimSpace {s : Bytes} (h : Utf8 s) : Utf8 (trimSpace s) ∧ visibleChars (trimSpace s) = visibleChars s := by
  obtain ⟨l, r, hl, hr, e, -⟩ := trimSpace_spec s
  exact utf8_trimmed h hl hr e

theorem keeps_trimSpace {s : Bytes} (h : Utf8 s) : Keeps s (trimSpace s) := Keeps.eq (utf8_trimSpace h).1 (utf8_trimSpace h).2

theorem keeps_trimLeft {s : Bytes} (h : Utf8 s) : Keeps s (trimLeft s) := by
  obtain ⟨l, hl, e, -⟩ := trimLeft_spec s
  obtain ⟨h1, h2⟩ := utf8_trimmed (mid := trimLeft s) h hl .nil (by simpa using e)
  exact Keeps.eq h1 h2

theorem trimSpace_empty {s : Bytes} (h : trimSpace s = []) : visibleChars s = [] := by
  have := (trimSpace_nil_iff s).1 h
  exact vis_ws this

/-! ## Byte by byte -/

theorem cont_ge : ∀ b : UInt8, isCont b = true → 128 ≤ b := forall_u8 (by decide +kernel)

theorem isChar_high {b : UInt8} {t : Bytes} (h : isChar (b :: t) = true) (ht : t ≠ []) : ∀ x ∈ b :: t, 128 ≤ x := by
  obtain ⟨b', t', e, -, h2, -, h4⟩ := isChar_shape h
  simp only [List.cons.injEq] at e
  obtain ⟨rfl, rfl⟩ := e
  intro x hx
  rcases List.mem_cons.1 hx with rfl | hx
  · exact h4 ht
  · exact cont_ge x (h2 x hx)

/-- A character is an ASCII byte or consists of other bytes. -/
theorem isChar_cases {c : Bytes} (h : isChar c = true) : (∃ b, c = [b] ∧ b < 128) ∨ (∀ x ∈ c, 128 ≤ x) := by
  obtain ⟨b, t, rfl, -, -, h3, -⟩ := isChar_shape h
  by_cases ht : t = []
  · left; exact ⟨b, by rw [ht], h3 ht⟩
  · right; exact isChar_high h ht

theorem not_low {b c : UInt8} (hb : 128 ≤ b) (hc : c < 128) : b ≠ c := by
  rintro rfl
  rw [u8_le] at hb; rw [u8_lt] at hc
  omega

theorem keeps_flatMap (f : UInt8 → Bytes) (hhi : ∀ b, 128 ≤ b → f b = [b])
    (hlo : ∀ b, b < 128 → Utf8 (f b) ∧ (vis [b] = true → [b] ∈ visibleChars (f b))) :
    ∀ s, Utf8 s → Keeps s (s.flatMap f) := by
  apply utf8_induct
  · exact Keeps.refl utf8_nil
  · intro c s hc hs ih
    rw [List.flatMap_append]
    rcases isChar_cases hc with ⟨b, rfl, hb⟩ | h
    · refine Keeps.append ⟨?_, ?_⟩ hs ih
      · simpa using (hlo b hb).1
      · rw [show ([b] : Bytes) = [b] ++ [] from rfl, vis_char hc utf8_nil, vis_nil]
        split
        · rename_i hv
          rw [List.singleton_sublist]
          simpa using (hlo b hb).2 hv
        · exact List.nil_sublist _
    · have e : c.flatMap f = c := by
        clear hc
        induction c with
        | nil => rfl
        | cons x c ih =>
          rw [List.flatMap_cons, hhi x (h x (by simp)), ih fun y hy => h y (by simp [hy])]; rfl
      rw [e]
      exact Keeps.append (Keeps.refl (by simpa using utf8_char hc utf8_nil)) hs ih

theorem vis_low {b : UInt8} (h : b < 128) : visibleChars [b] = if vis [b] then [[b]] else [] := by
  rw [show ([b] : Bytes) = [b] ++ [] from rfl, vis_char (by simpa [isChar] using h) utf8_nil, vis_nil]; rfl

theorem vis_self {b : UInt8} (h : b < 128) (hv : vis [b] = true) : [b] ∈ visibleChars [b] := by
  rw [vis_low h, if_pos hv]; simp

theorem utf8_byte {b : UInt8} (h : b < 128) : Utf8 [b] := utf8_ascii h utf8_nil

/-- Replace one invisible ASCII character. -/
theorem keeps_replace_one {a : UInt8} {new : Bytes} (ha : a < 128) (hv : vis [a] = false) (hn : Utf8 new) {s : Bytes} (hs : Utf8 s) :
    Keeps s (replaceAll [a] new s) := by
  rw [replaceAll_one]
  refine keeps_flatMap _ ?_ ?_ s hs
  · intro b hb; rw [if_neg (not_low hb ha)]
  · intro b hb
    by_cases h : b = a
    · subst h; rw [if_pos rfl]; exact ⟨hn, fun h => absurd h (by simp [hv])⟩
    · rw [if_neg h]; exact ⟨utf8_byte hb, vis_self hb⟩

theorem prefixLinesGo_eq (repl s : Bytes) : prefixLinesGo repl s = s.flatMap fun b => if b = NL then NL :: repl else [b] := by
  induction s with
  | nil => rfl
  | cons b s ih =>
    rw [prefixLinesGo, List.flatMap_cons, ih]
    split
    · rename_i h; simp [h]
    · rfl

theorem keeps_prefixLines {repl s : Bytes} (hr : Utf8 repl) (hs : Utf8 s) : Keeps s (prefixLines s repl) := by
  rw [prefixLines, prefixLinesGo_eq]
  refine Keeps.after _ hr (keeps_flatMap _ ?_ ?_ s hs)
  · intro b hb; rw [if_neg (not_low hb (by decide))]
  · intro b hb
    by_cases h : b = NL
    · subst h; rw [if_pos rfl]; exact ⟨utf8_ascii (by decide) hr, fun h => absurd h (by decide)⟩
    · rw [if_neg h]; exact ⟨utf8_byte hb, vis_self hb⟩

/-! ## Replacing -/

theorem replaceAll_copy {old new : Bytes} {o : UInt8} {old' : Bytes} (e : old = o :: old') (ho : isCont o = false) :
    ∀ (x s : Bytes), (∀ b ∈ x, isCont b = true) → replaceAll old new (x ++ s) = x ++ replaceAll old new s := by
  intro x s
  induction x with
  | nil => intro _; rfl
  | cons b x ih =>
    intro h
    rw [List.cons_append, replaceAll_nomatch, ih fun y hy => h y (by simp [hy])]
    · rfl
    · intro hp
      rw [e, List.cons_prefix_cons] at hp
      rw [hp.1, h b (by simp)] at ho
      exact absurd ho (by simp)

/-- Replace a character sequence by one with the same visible characters, and maybe more. -/
theorem keeps_replaceAll {old new : Bytes} (hne : old ≠ []) (ho : Utf8 old) (hk : Keeps old new) :
    ∀ s, Utf8 s → Keeps s (replaceAll old new s) := by
  have main : ∀ (n : Nat) (s : Bytes), s.length ≤ n → Utf8 s → Keeps s (replaceAll old new s) := by
    intro n
    induction n with
    | zero =>
      intro s hl hs
      rw [List.length_eq_zero_iff.1 (Nat.le_zero.1 hl)]; exact Keeps.refl utf8_nil
    | succ n ih =>
      intro s hl hs
      by_cases hp : old <+: s
      · obtain ⟨t, rfl⟩ := hp
        have ht := utf8_suffix hs ho
        rw [replaceAll_match _ _ _ hne]
        refine Keeps.append hk ht (ih t ?_ ht)
        have : 0 < old.length := List.length_pos_iff.2 hne
        simp at hl; omega
      · revert hp hl
        refine utf8_induct (P := fun s => s.length ≤ n + 1 → ¬ old <+: s → Keeps s (replaceAll old new s)) ?_ ?_ s hs
        · intro _ _; exact Keeps.refl utf8_nil
        · intro c s hc hs' _ hl hp
          obtain ⟨b, t, rfl, hb, ht, -⟩ := isChar_shape hc
          cases old with
          | nil => exact absurd rfl hne
          | cons o old' =>
            have ho1 : isCont o = false := utf8_starts ho o (by simp)
            rw [List.cons_append, replaceAll_nomatch (by simpa using hp), replaceAll_copy rfl ho1 t s ht, ← List.cons_append]
            exact Keeps.append (Keeps.refl (by simpa using utf8_char hc utf8_nil)) hs' (ih s (by simp at hl; omega) hs')
  exact fun s => main s.length s (Nat.le_refl _)

theorem keeps_hardBreaks {s : Bytes} (hs : Utf8 s) : Keeps s (trimUnnecessaryHardLineBreaks s) := by
  rw [trimUnnecessaryHardLineBreaks]
  have u : ∀ x : Bytes, (∀ b ∈ x, b = 32 ∨ b = 10) → Utf8 x ∧ visibleChars x = [] := by
    intro x hx
    have : AllWhitespace x := by
      refine ⟨x.map fun b => [b], ?_, ?_⟩
      · intro w hw
        rw [List.mem_map] at hw
        obtain ⟨b, hb, rfl⟩ := hw
        rcases hx b hb with rfl | rfl <;> decide
      · clear hx; induction x with
        | nil => rfl
        | cons b x ih => simp_all
    exact ⟨utf8_ws this, vis_ws this⟩
  have k : ∀ x y : Bytes, (∀ b ∈ x, b = 32 ∨ b = 10) → (∀ b ∈ y, b = 32 ∨ b = 10) → Keeps x y := by
    intro x y hx hy
    exact Keeps.eq (u y hy).1 (by rw [(u x hx).2, (u y hy).2])
  have r := fun (old new : Bytes) (h1 : old ≠ []) (h2 : ∀ b ∈ old, b = 32 ∨ b = 10) (h3 : ∀ b ∈ new, b = 32 ∨ b = 10) =>
    keeps_replaceAll h1 (u old h2).1 (k old new h2 h3)
  have k1 := r b!"  \n\n" b!"\n\n" (by decide) (by decide) (by decide) s hs
  have k2 := r b!"  \n  \n" b!"\n\n" (by decide) (by decide) (by decide) _ k1.1
  have k3 := r b!"  \n \n" b!"\n\n" (by decide) (by decide) (by decide) _ k2.1
  exact k1.trans (k2.trans k3)

/-! ## Newlines and spaces -/

theorem trimNewlinesGo_copy : ∀ (x : Bytes), (∀ b ∈ x, 128 ≤ b) → x ≠ [] → ∀ (n : Nat) (buf s : Bytes),
    trimNewlinesGo n buf (x ++ s) = buf ++ x ++ trimNewlinesGo 0 [] s := by
  intro x
  induction x with
  | nil => intro _ h; exact absurd rfl h
  | cons b x ih =>
    intro h _ n buf s
    have hb := h b (by simp)
    rw [List.cons_append, trimNewlinesGo, if_neg (not_low hb (by decide)), if_neg (not_low hb (by decide))]
    by_cases hx : x = []
    · subst hx; simp
    · rw [ih (fun y hy => h y (by simp [hy])) hx]; simp

theorem utf8_spaces {buf : Bytes} (h : ∀ b ∈ buf, b = SP) : Utf8 buf ∧ visibleChars buf = [] := by
  have e : buf = List.replicate buf.length SP := List.eq_replicate_of_mem h
  have := AllWhitespace.spaces buf.length
  rw [← e] at this
  exact ⟨utf8_ws this, vis_ws this⟩

theorem trimNewlinesGo_keeps : ∀ s, Utf8 s → ∀ (n : Nat) (buf : Bytes), (∀ b ∈ buf, b = SP) →
    Utf8 (trimNewlinesGo n buf s) ∧ visibleChars (trimNewlinesGo n buf s) = visibleChars s := by
  apply utf8_induct
  · intro n buf hb
    rw [trimNewlinesGo]
    exact utf8_spaces hb
  · intro c s hc hs ih n buf hb
    rcases isChar_cases hc with ⟨b, rfl, hlow⟩ | h
    · rw [List.singleton_append, trimNewlinesGo]
      have nov : ∀ b : UInt8, b < 128 → vis [b] = false → visibleChars (b :: s) = visibleChars s := by
        intro b h1 h2; rw [vis_ascii h1 hs, h2]; rfl
      by_cases h10 : b = NL
      · subst h10
        rw [if_pos rfl, nov _ (by decide) (by decide)]
        split
        · obtain ⟨i1, i2⟩ := ih (n + 1) [] (by simp)
          refine ⟨utf8_append (utf8_spaces hb).1 (utf8_ascii (by decide) i1), ?_⟩
          rw [vis_append (utf8_ascii (by decide) i1), (utf8_spaces hb).2, vis_ascii (by decide) i1, i2]
          rfl
        · exact ih (n + 1) [] (by simp)
      · rw [if_neg h10]
        by_cases h32 : b = SP
        · subst h32
          rw [if_pos rfl, nov _ (by decide) (by decide)]
          apply ih
          intro x hx
          rcases List.mem_append.1 hx with h | h
          · exact hb x h
          · simpa using h
        · rw [if_neg h32]
          obtain ⟨i1, i2⟩ := ih 0 [] (by simp)
          refine ⟨utf8_append (utf8_spaces hb).1 (utf8_ascii hlow i1), ?_⟩
          rw [vis_append (utf8_ascii hlow i1), (utf8_spaces hb).2, vis_ascii hlow i1, vis_ascii hlow hs, i2]
          rfl
    · have hne : c ≠ [] := by rintro rfl; simp [isChar] at hc
      rw [trimNewlinesGo_copy c h hne]
      obtain ⟨i1, i2⟩ := ih 0 [] (by simp)
      rw [List.append_assoc]
      refine ⟨utf8_append (utf8_spaces hb).1 (utf8_char hc i1), ?_⟩
      rw [vis_append (utf8_char hc i1), (utf8_spaces hb).2, vis_char hc i1, vis_char hc hs, i2]
      rfl

theorem keeps_newlines {s : Bytes} (hs : Utf8 s) : Keeps s (trimConsecutiveNewlines s) := by
  obtain ⟨h1, h2⟩ := trimNewlinesGo_keeps s hs 0 [] (by simp)
  exact Keeps.eq h1 h2

theorem dropDoubleSpaces_copy : ∀ (x : Bytes), (∀ b ∈ x, 128 ≤ b) → x ≠ [] → ∀ (n : Nat) (s : Bytes),
    dropDoubleSpaces n (x ++ s) = x ++ dropDoubleSpaces 0 s := by
  intro x
  induction x with
  | nil => intro _ h; exact absurd rfl h
  | cons b x ih =>
    intro h _ n s
    have hb := h b (by simp)
    rw [List.cons_append, dropDoubleSpaces]
    simp only [if_neg (not_low hb (show (32 : UInt8) < 128 by decide))]
    by_cases hx : x = []
    · subst hx; simp
    · simp [ih (fun y hy => h y (by simp [hy])) hx]

theorem keeps_doubleSpaces : ∀ s, Utf8 s → ∀ n, Keeps s (dropDoubleSpaces n s) := by
  apply utf8_induct
  · intro n; exact Keeps.refl utf8_nil
  · intro c s hc hs ih n
    rcases isChar_cases hc with ⟨b, rfl, hlow⟩ | h
    · rw [List.singleton_append, dropDoubleSpaces]
      by_cases h32 : b = SP
      · subst h32
        rw [if_pos rfl]
        split
        · have := ih (n + 1)
          refine ⟨this.1, ?_⟩
          rw [vis_ascii (by decide) hs]
          exact this.2
        · exact Keeps.append (a := [SP]) (Keeps.refl (utf8_byte (by decide))) hs (ih _)
      · rw [if_neg h32]
        rw [if_neg (by decide)]
        exact Keeps.append (a := [b]) (Keeps.refl (utf8_byte hlow)) hs (ih _)
    · have hne : c ≠ [] := by rintro rfl; simp [isChar] at hc
      rw [dropDoubleSpaces_copy c h hne]
      exact Keeps.append (Keeps.refl (by simpa using utf8_char hc utf8_nil)) hs (ih 0)

/-! ## Lines -/

theorem splitOn_chars (c : Bytes) (hc : isChar c = true) (hn : c ≠ [NL]) (s : Bytes) :
    ∃ l ls, splitOn NL s = l :: ls ∧ splitOn NL (c ++ s) = (c ++ l) :: ls := by
  have key : ∀ x : Bytes, NL ∉ x → ∃ l ls, splitOn NL s = l :: ls ∧ splitOn NL (x ++ s) = (x ++ l) :: ls := by
    intro x
    induction x with
    | nil =>
      intro _
      cases h : splitOn NL s with
      | nil => exact absurd h (splitOn_nonempty _ _)
      | cons l ls => exact ⟨l, ls, rfl, by simpa using h⟩
    | cons b x ih =>
      intro hx
      obtain ⟨l, ls, h1, h2⟩ := ih fun h => hx (by simp [h])
      refine ⟨l, ls, h1, ?_⟩
      have hb : b ≠ NL := fun h => hx (by simp [h])
      rw [List.cons_append, splitOn, if_neg hb, h2]; rfl
  apply key
  intro h
  rcases isChar_cases hc with ⟨b, rfl, -⟩ | hh
  · simp at h; exact hn (by rw [h])
  · exact absurd (hh NL h) (by decide)

theorem utf8_lines : ∀ s, Utf8 s → (∀ l ∈ splitOn NL s, Utf8 l) ∧ visibleChars s = (splitOn NL s).flatMap visibleChars := by
  apply utf8_induct
  · exact ⟨by intro l hl; simp [splitOn] at hl; rw [hl]; exact utf8_nil, rfl⟩
  · intro c s hc hs ih
    by_cases hn : c = [NL]
    · subst hn
      rw [List.singleton_append, splitOn_sep]
      refine ⟨?_, ?_⟩
      · intro l hl
        rcases List.mem_cons.1 hl with rfl | hl
        · exact utf8_nil
        · exact ih.1 l hl
      · rw [vis_ascii (by decide) hs, List.flatMap_cons, vis_nil, ← ih.2]; rfl
    · obtain ⟨l, ls, h1, h2⟩ := splitOn_chars c hc hn s
      rw [h1] at ih
      rw [h2]
      have hl := ih.1 l (by simp)
      refine ⟨?_, ?_⟩
      · intro x hx
        rcases List.mem_cons.1 hx with rfl | hx
        · exact utf8_char hc hl
        · exact ih.1 x (by simp [hx])
      · rw [vis_char hc hs, List.flatMap_cons, vis_char hc hl, ih.2, List.flatMap_cons]
        split <;> simp

theorem utf8_join : ∀ ls : List Bytes, (∀ l ∈ ls, Utf8 l) → Utf8 (joinWith NL ls) ∧ visibleChars (joinWith NL ls) = ls.flatMap visibleChars := by
  intro ls
  induction ls with
  | nil => intro _; exact ⟨utf8_nil, rfl⟩
  | cons l ls ih =>
    intro h
    have hl := h l (by simp)
    obtain ⟨i1, i2⟩ := ih fun x hx => h x (by simp [hx])
    cases ls with
    | nil => rw [joinWith]; exact ⟨hl, by simp⟩
    | cons l' ls =>
      rw [joinWith]
      · have := utf8_ascii (b := NL) (by decide) i1
        refine ⟨utf8_append hl this, ?_⟩
        rw [vis_append this, vis_ascii (by decide) i1, i2, List.flatMap_cons (f := visibleChars) (x := l)]; rfl
      · simp

theorem flatMap_sublist {α β} {f g : α → List β} : ∀ {l : List α}, (∀ a ∈ l, (f a).Sublist (g a)) → (l.flatMap f).Sublist (l.flatMap g)
  | [], _ => List.Sublist.refl _
  | a :: l, h => by
    rw [List.flatMap_cons, List.flatMap_cons]
    exact (h a (by simp)).append (flatMap_sublist fun x hx => h x (by simp [hx]))

theorem keeps_delimiterForLine {d s : Bytes} (hd : Utf8 d) (hs : Utf8 s) : Keeps s (delimiterForLine d s) := by
  obtain ⟨h1, h2, h3, -⟩ := Props.c23_surrounding_spaces s
  rw [delimiterForLine]
  generalize surroundingSpaces s = p at h1 h2 h3 ⊢
  obtain ⟨l, m, r⟩ := p
  simp only at h1 h2 h3 ⊢
  obtain ⟨hm, hv⟩ := utf8_trimmed hs h2 h3 h1.symm
  split
  · rename_i h
    subst h
    rw [List.append_nil] at h1
    rw [h1]; exact Keeps.refl hs
  · refine ((((Keeps.eq hm hv).after d hd).after l (utf8_ws h2)).before d hd).before r (utf8_ws h3) |> fun k => ?_
    simpa [List.append_assoc] using k

theorem keeps_delimited {d s : Bytes} (hd : Utf8 d) (hs : Utf8 s) : Keeps s (delimited d s) := by
  rw [delimited, delimiterForEveryLine]
  obtain ⟨h1, h2⟩ := utf8_lines s hs
  obtain ⟨j1, j2⟩ := utf8_join ((splitOn NL s).map (delimiterForLine d)) (by
    intro l hl
    rw [List.mem_map] at hl
    obtain ⟨x, hx, rfl⟩ := hl
    exact (keeps_delimiterForLine hd (h1 x hx)).1)
  refine ⟨j1, ?_⟩
  rw [j2, h2, List.flatMap_map]
  exact flatMap_sublist fun l hl => (keeps_delimiterForLine hd (h1 l hl)).2

theorem escapeMultiLineGo_keeps : ∀ ls : List Bytes, (∀ l ∈ ls, Utf8 l) →
    Utf8 (escapeMultiLineGo ls) ∧ (ls.flatMap visibleChars).Sublist (visibleChars (escapeMultiLineGo ls)) := by
  intro ls
  induction ls with
  | nil => intro _; exact ⟨utf8_nil, List.Sublist.refl _⟩
  | cons l ls ih =>
    intro h
    obtain ⟨i1, i2⟩ := ih fun x hx => h x (by simp [hx])
    have kl := keeps_trimLeft (h l (by simp))
    rw [escapeMultiLineGo]
    have step : ∀ x : Bytes, Keeps l x → Utf8 (x ++ escapeMultiLineGo ls) ∧
        ((l :: ls).flatMap visibleChars).Sublist (visibleChars (x ++ escapeMultiLineGo ls)) := by
      intro x hx
      refine ⟨utf8_append hx.1 i1, ?_⟩
      rw [vis_append i1, List.flatMap_cons]
      exact hx.2.append i2
    apply step
    split
    · rename_i h0
      refine ⟨utf8_of_ascii (by decide), ?_⟩
      have h1 : trimLeft l = [] := by simpa using h0
      have h2 := kl.2
      rw [h1, vis_nil] at h2
      exact h2.trans (List.nil_sublist _)
    · split
      · exact kl
      · split
        · exact kl.before _ (utf8_of_ascii (by decide))
        · exact kl.before _ (utf8_of_ascii (by decide))

theorem keeps_escapeMultiLine {s : Bytes} (hs : Utf8 s) : Keeps s (escapeMultiLine s) := by
  rw [escapeMultiLine]
  split
  · exact Keeps.refl hs
  · obtain ⟨h1, h2⟩ := utf8_lines s hs
    obtain ⟨j1, j2⟩ := escapeMultiLineGo_keeps (splitOn NL s) h1
    exact ⟨j1, by rw [h2]; exact j2⟩

/-! ## Un-escaping -/

theorem applyChanges_copy : ∀ (x s : Bytes) (chs : List Bool), (∀ b ∈ x, 128 ≤ b) →
    applyChanges chs (x ++ s) = x ++ applyChanges (chs.drop x.length) s := by
  intro x
  induction x with
  | nil => intro s chs _; simp
  | cons b x ih =>
    intro s chs h
    cases chs with
    | nil =>
      rw [List.cons_append, applyChanges]
      simp only [List.drop_nil, List.cons_append, List.cons.injEq, true_and]
      cases s <;> simp [applyChanges]
    | cons ch chs =>
      rw [List.cons_append, applyChanges, if_pos (not_low (h b (by simp)) (by decide)), ih s chs fun y hy => h y (by simp [hy])]
      simp

theorem keeps_applyChanges : ∀ s, Utf8 s → ∀ chs, Keeps s (applyChanges chs s) := by
  apply utf8_induct
  · intro chs; rw [applyChanges]; exact Keeps.refl utf8_nil
  · intro c s hc hs ih chs
    rcases isChar_cases hc with ⟨b, rfl, hlow⟩ | h
    · cases chs with
      | nil => rw [List.singleton_append, applyChanges]; exact Keeps.refl (utf8_ascii hlow hs)
      | cons ch chs =>
        rw [List.singleton_append, applyChanges]
        by_cases h7 : b = MARK
        · subst h7
          simp only [ne_eq, not_true, if_false]
          have e : visibleChars (MARK :: s) = visibleChars s := by rw [vis_ascii (by decide) hs]; rfl
          split
          · have := (ih chs).after [BS] (utf8_byte (by decide))
            exact ⟨this.1, by rw [e]; exact this.2⟩
          · exact ⟨(ih chs).1, by rw [e]; exact (ih chs).2⟩
        · rw [if_pos h7]
          exact Keeps.append (a := [b]) (Keeps.refl (utf8_byte hlow)) hs (ih chs)
    · rw [applyChanges_copy c s chs h]
      exact Keeps.append (Keeps.refl (by simpa using utf8_char hc utf8_nil)) hs (ih _)

theorem keeps_unEscape (mode : Mode) (hs : List Handler) {s : Bytes} (h : Utf8 s) : Keeps s (unEscapeContent mode hs s) := by
  cases mode with
  | smart => exact keeps_applyChanges s h _
  | disabled => exact Keeps.refl h

/-! ## The post-render handlers -/

theorem utf8_codeNewline : Utf8 codeNewline ∧ visibleChars codeNewline = [] := by
  constructor
  · intro c hc; revert c; decide
  · decide

theorem keeps_postRender (mode : Mode) (hs : List Handler) {s : Bytes} (h : Utf8 s) : Keeps s (postRender mode hs s) := by
  have k1 := keeps_trimSpace h
  have k2 := keeps_newlines k1.1
  have k3 := keeps_hardBreaks k2.1
  have k4 := keeps_unEscape mode hs k3.1
  have k5 := keeps_replaceAll (old := codeNewline) (new := [NL]) (by decide) utf8_codeNewline.1
    (Keeps.eq (utf8_byte (by decide)) (by decide)) _ k4.1
  exact k1.trans (k2.trans (k3.trans (k4.trans k5)))

end Verif.Chars
