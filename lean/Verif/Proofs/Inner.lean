import Verif.Proofs.CharsHeading
/-!
# Where the marker for the newlines of code is

`inner` are the characters other than white space and escape markers.  The functions that are applied to rendered content only add characters
that are not the marker for the newlines of code, so this marker is not the first or the last one if it was not before.
-/

namespace Verif.Inner
open Verif Verif.Spec Verif.TextUtils Verif.Escape Verif.Commonmark
open Verif.Chars (chars_append utf8_starts chars_char whitespace_char utf8_ws utf8_nil utf8_append utf8_char utf8_ascii utf8_prefix utf8_suffix utf8_induct
  utf8_byte utf8_of_ascii isChar_cases isChar_shape not_low prefixLinesGo_eq replaceAll_copy trimNewlinesGo_copy dropDoubleSpaces_copy splitOn_chars
  applyChanges_copy)

/-- Does the character count: is it neither white space nor the escape marker? -/
def vis (c : Bytes) : Bool := decide (c ∉ whitespace ∧ c ≠ [7])

/-- The characters that are neither white space nor the escape marker. -/
def inner (s : Bytes) : List Bytes := (chars s).filter vis

/-- `b` is `a` with more characters, but not more of the markers for the newlines of code. -/
inductive Ins : List Bytes → List Bytes → Prop
  | nil : Ins [] []
  | keep (c : Bytes) {a b : List Bytes} : Ins a b → Ins (c :: a) (c :: b)
  | add (c : Bytes) {a b : List Bytes} : c ≠ codeNewline → Ins a b → Ins a (c :: b)

theorem Ins.refl : ∀ a, Ins a a
  | [] => .nil
  | c :: a => .keep c (Ins.refl a)

theorem Ins.trans {a b : List Bytes} (h1 : Ins a b) {c : List Bytes} (h2 : Ins b c) : Ins a c := by
  induction h2 generalizing a with
  | nil => exact h1
  | keep x h ih =>
    cases h1 with
    | keep _ h1 => exact .keep x (ih h1)
    | add _ hx h1 => exact .add x hx (ih h1)
  | add x hx h ih => exact .add x hx (ih h1)

theorem Ins.append {a b : List Bytes} (h1 : Ins a b) {c d : List Bytes} (h2 : Ins c d) : Ins (a ++ c) (b ++ d) := by
  induction h1 with
  | nil => exact h2
  | keep x _ ih => exact .keep x ih
  | add x hx _ ih => exact .add x hx ih

theorem Ins.of_nil : ∀ {b : List Bytes}, codeNewline ∉ b → Ins [] b
  | [], _ => .nil
  | c :: b, h => .add c (fun e => h (by simp [e])) (Ins.of_nil fun hm => h (by simp [hm]))

theorem Ins.reverse {a b : List Bytes} (h : Ins a b) : Ins a.reverse b.reverse := by
  induction h with
  | nil => exact .nil
  | keep x _ ih => simpa using ih.append (Ins.refl [x])
  | add x hx _ ih => simpa using ih.append (Ins.of_nil (b := [x]) (by simpa using Ne.symm hx))

theorem Ins.head {a b : List Bytes} (h : Ins a b) (ha : a.head? ≠ some codeNewline) : b.head? ≠ some codeNewline := by
  cases h with
  | nil => exact ha
  | keep c _ => exact ha
  | add c hc _ => simpa using hc

theorem Ins.last {a b : List Bytes} (h : Ins a b) (ha : a.getLast? ≠ some codeNewline) : b.getLast? ≠ some codeNewline := by
  rw [← List.head?_reverse] at ha ⊢
  exact h.reverse.head ha

/-! ## The characters -/

theorem vis_append {a b : Bytes} (hb : Utf8 b) : inner (a ++ b) = inner a ++ inner b := by
  rw [inner, chars_append a (utf8_starts hb), List.filter_append]; rfl

theorem vis_nil : inner [] = [] := rfl

theorem vis_char {c s : Bytes} (h : isChar c = true) (hs : Utf8 s) : inner (c ++ s) = if vis c then c :: inner s else inner s := by
  rw [inner, chars_char h (utf8_starts hs), List.filter_cons]; rfl

theorem vis_ascii {b : UInt8} (h : b < 128) {s : Bytes} (hs : Utf8 s) : inner (b :: s) = if vis [b] then [b] :: inner s else inner s :=
  vis_char (c := [b]) (by simpa [isChar] using h) hs

theorem vis_ws {l : Bytes} (h : AllWhitespace l) : inner l = [] := by
  obtain ⟨ws, h1, rfl⟩ := h
  induction ws with
  | nil => rfl
  | cons w ws ih =>
    have hw : vis w = false := by simp [vis, h1 w (by simp)]
    rw [List.flatten_cons, vis_char (whitespace_char w (h1 w (by simp)))
      (utf8_ws ⟨ws, fun x hx => h1 x (by simp [hx]), rfl⟩), hw]
    simp [ih fun x hx => h1 x (by simp [hx])]

theorem ascii_none {s : Bytes} (h : ∀ b ∈ s, b < 128) : codeNewline ∉ inner s := by
  induction s with
  | nil => simp [inner, chars]
  | cons b s ih =>
    have hs := utf8_of_ascii fun x hx => h x (List.mem_cons_of_mem _ hx)
    rw [vis_ascii (h b (by simp)) hs]
    have := ih fun x hx => h x (by simp [hx])
    split
    · simp only [List.mem_cons, not_or]; exact ⟨by intro e; rw [codeNewline] at e; simp at e, this⟩
    · exact this

/-- `t` is a text with all characters of `s` in order, and maybe more, but not more markers for the newlines of code. -/
def Keeps (s t : Bytes) : Prop := Utf8 t ∧ Ins (inner s) (inner t)

theorem Keeps.refl {s : Bytes} (h : Utf8 s) : Keeps s s := ⟨h, Ins.refl _⟩
theorem Keeps.trans {a b c : Bytes} (h1 : Keeps a b) (h2 : Keeps b c) : Keeps a c := ⟨h2.1, h1.2.trans h2.2⟩
theorem Keeps.eq {s t : Bytes} (h : Utf8 t) (e : inner t = inner s) : Keeps s t := ⟨h, by rw [e]; exact Ins.refl _⟩

theorem Keeps.append {a a' b b' : Bytes} (h1 : Keeps a a') (hb : Utf8 b) (h2 : Keeps b b') : Keeps (a ++ b) (a' ++ b') :=
  ⟨utf8_append h1.1 h2.1, by rw [vis_append hb, vis_append h2.1]; exact h1.2.append h2.2⟩

/-- A text that has not the marker for the newlines of code. -/
def Plain (p : Bytes) : Prop := Utf8 p ∧ codeNewline ∉ inner p

theorem plain_ascii {p : Bytes} (h : ∀ b ∈ p, b < 128) : Plain p := ⟨utf8_of_ascii h, ascii_none h⟩
theorem plain_ws {p : Bytes} (h : AllWhitespace p) : Plain p := ⟨utf8_ws h, by rw [vis_ws h]; simp⟩
theorem plain_append {a b : Bytes} (ha : Plain a) (hb : Plain b) : Plain (a ++ b) :=
  ⟨utf8_append ha.1 hb.1, by rw [vis_append hb.1]; simp [ha.2, hb.2]⟩

theorem Keeps.after {s t : Bytes} (p : Bytes) (hp : Plain p) (h : Keeps s t) : Keeps s (p ++ t) :=
  ⟨utf8_append hp.1 h.1, by rw [vis_append h.1]; exact (Ins.of_nil hp.2).append h.2⟩

theorem Keeps.before {s t : Bytes} (h : Keeps s t) (p : Bytes) (hp : Plain p) : Keeps s (t ++ p) :=
  ⟨utf8_append h.1 hp.1, by rw [vis_append hp.1]; simpa using h.2.append (Ins.of_nil hp.2)⟩

/-! ## Trimming -/

theorem utf8_trimmed {s mid : Bytes} (h : Utf8 s) {l r : Bytes} (hl : AllWhitespace l) (hr : AllWhitespace r)
    (e : s = l ++ mid ++ r) : Utf8 mid ∧ inner mid = inner s := by
  have hr' := utf8_ws hr
  have h1 : Utf8 (l ++ mid) := utf8_prefix (b := r) (by rw [← e]; exact h) hr'
  have h2 : Utf8 mid := utf8_suffix h1 (utf8_ws hl)
  refine ⟨h2, ?_⟩
  rw [e, vis_append hr', vis_append h2, vis_ws hl, vis_ws hr]
  simp

theorem utf8_trimSpace {s : Bytes} (h : Utf8 s) : Utf8 (trimSpace s) ∧ inner (trimSpace s) = inner s := by
  obtain ⟨l, r, hl, hr, e, -⟩ := trimSpace_spec s
  exact utf8_trimmed h hl hr e

theorem keeps_trimSpace {s : Bytes} (h : Utf8 s) : Keeps s (trimSpace s) := Keeps.eq (utf8_trimSpace h).1 (utf8_trimSpace h).2

theorem keeps_trimLeft {s : Bytes} (h : Utf8 s) : Keeps s (trimLeft s) := by
  obtain ⟨l, hl, e, -⟩ := trimLeft_spec s
  obtain ⟨h1, h2⟩ := utf8_trimmed (mid := trimLeft s) h hl .nil (by simpa using e)
  exact Keeps.eq h1 h2

theorem trimSpace_empty {s : Bytes} (h : trimSpace s = []) : inner s = [] := by
  have := (trimSpace_nil_iff s).1 h
  exact vis_ws this

/-! ## Byte by byte -/

theorem keeps_flatMap (f : UInt8 → Bytes) (hhi : ∀ b, 128 ≤ b → f b = [b]) (hlo : ∀ b, b < 128 → Keeps [b] (f b)) :
    ∀ s, Utf8 s → Keeps s (s.flatMap f) := by
  apply utf8_induct
  · exact Keeps.refl utf8_nil
  · intro c s hc hs ih
    rw [List.flatMap_append]
    rcases isChar_cases hc with ⟨b, rfl, hb⟩ | h
    · exact Keeps.append (by simpa using hlo b hb) hs ih
    · have e : c.flatMap f = c := by
        clear hc
        induction c with
        | nil => rfl
        | cons x c ih =>
          rw [List.flatMap_cons, hhi x (h x (by simp)), ih fun y hy => h y (by simp [hy])]; rfl
      rw [e]
      exact Keeps.append (Keeps.refl (by simpa using utf8_char hc utf8_nil)) hs ih

theorem vis_low {b : UInt8} (h : b < 128) : inner [b] = if vis [b] then [[b]] else [] := by
  rw [show ([b] : Bytes) = [b] ++ [] from rfl, vis_char (by simpa [isChar] using h) utf8_nil, vis_nil]; rfl

theorem keeps_low {b : UInt8} (h : b < 128) (hv : vis [b] = false) {p : Bytes} (hp : Plain p) : Keeps [b] p :=
  ⟨hp.1, by rw [vis_low h, hv]; exact Ins.of_nil hp.2⟩

/-- Replace one invisible ASCII character. -/
theorem keeps_replace_one {a : UInt8} {new : Bytes} (ha : a < 128) (hv : vis [a] = false) (hn : Plain new) {s : Bytes} (hs : Utf8 s) :
    Keeps s (replaceAll [a] new s) := by
  rw [replaceAll_one]
  refine keeps_flatMap _ ?_ ?_ s hs
  · intro b hb; rw [if_neg (not_low hb ha)]
  · intro b hb
    by_cases h : b = a
    · subst h; rw [if_pos rfl]; exact keeps_low hb hv hn
    · rw [if_neg h]; exact Keeps.refl (utf8_byte hb)

theorem keeps_prefixLines {repl s : Bytes} (hr : Plain repl) (hs : Utf8 s) : Keeps s (prefixLines s repl) := by
  rw [prefixLines, prefixLinesGo_eq]
  refine Keeps.after _ hr (keeps_flatMap _ ?_ ?_ s hs)
  · intro b hb; rw [if_neg (not_low hb (by decide))]
  · intro b hb
    by_cases h : b = NL
    · subst h; rw [if_pos rfl]; exact keeps_low hb (by decide) (plain_append (a := [NL]) (plain_ascii (by decide)) hr)
    · rw [if_neg h]; exact Keeps.refl (utf8_byte hb)

/-! ## Replacing -/

/-- Replace a character sequence by one with the same visible characters, and maybe more. -/
theorem keeps_replaceAll {old new : Bytes} (hne : old ≠ []) (ho : Utf8 old) (hk : Keeps old new) :
    ∀ s, Utf8 s → Keeps s (replaceAll old new s) := by
  have main : ∀ (n : Nat) (s : Bytes), s.length ≤ n → Utf8 s → Keeps s (replaceAll old new s) := by
    intro n
    induction n with
    | zero =>
      intro s hl hs
      rw [List.length_eq_zero_iff.1 (Nat.le_zero.1 hl)]; exact Keeps.refl utf8_nil
    | succ n ih =>
      intro s hl hs
      by_cases hp : old <+: s
      · obtain ⟨t, rfl⟩ := hp
        have ht := utf8_suffix hs ho
        rw [replaceAll_match _ _ _ hne]
        refine Keeps.append hk ht (ih t ?_ ht)
        have : 0 < old.length := List.length_pos_iff.2 hne
        simp at hl; omega
      · revert hp hl
        refine utf8_induct (P := fun s => s.length ≤ n + 1 → ¬ old <+: s → Keeps s (replaceAll old new s)) ?_ ?_ s hs
        · intro _ _; exact Keeps.refl utf8_nil
        · intro c s hc hs' _ hl hp
          obtain ⟨b, t, rfl, hb, ht, -⟩ := isChar_shape hc
          cases old with
          | nil => exact absurd rfl hne
          | cons o old' =>
            have ho1 : isCont o = false := utf8_starts ho o (by simp)
            rw [List.cons_append, replaceAll_nomatch (by simpa using hp), replaceAll_copy rfl ho1 t s ht, ← List.cons_append]
            exact Keeps.append (Keeps.refl (by simpa using utf8_char hc utf8_nil)) hs' (ih s (by simp at hl; omega) hs')
  exact fun s => main s.length s (Nat.le_refl _)

theorem keeps_hardBreaks {s : Bytes} (hs : Utf8 s) : Keeps s (trimUnnecessaryHardLineBreaks s) := by
  rw [trimUnnecessaryHardLineBreaks]
  have u : ∀ x : Bytes, (∀ b ∈ x, b = 32 ∨ b = 10) → Utf8 x ∧ inner x = [] := by
    intro x hx
    have : AllWhitespace x := by
      refine ⟨x.map fun b => [b], ?_, ?_⟩
      · intro w hw
        rw [List.mem_map] at hw
        obtain ⟨b, hb, rfl⟩ := hw
        rcases hx b hb with rfl | rfl <;> decide
      · clear hx; induction x with
        | nil => rfl
        | cons b x ih => simp_all
    exact ⟨utf8_ws this, vis_ws this⟩
  have k : ∀ x y : Bytes, (∀ b ∈ x, b = 32 ∨ b = 10) → (∀ b ∈ y, b = 32 ∨ b = 10) → Keeps x y := by
    intro x y hx hy
    exact Keeps.eq (u y hy).1 (by rw [(u x hx).2, (u y hy).2])
  have r := fun (old new : Bytes) (h1 : old ≠ []) (h2 : ∀ b ∈ old, b = 32 ∨ b = 10) (h3 : ∀ b ∈ new, b = 32 ∨ b = 10) =>
    keeps_replaceAll h1 (u old h2).1 (k old new h2 h3)
  have k1 := r b!"  \n\n" b!"\n\n" (by decide) (by decide) (by decide) s hs
  have k2 := r b!"  \n  \n" b!"\n\n" (by decide) (by decide) (by decide) _ k1.1
  have k3 := r b!"  \n \n" b!"\n\n" (by decide) (by decide) (by decide) _ k2.1
  exact k1.trans (k2.trans k3)

/-! ## Newlines and spaces -/

theorem utf8_spaces {buf : Bytes} (h : ∀ b ∈ buf, b = SP) : Utf8 buf ∧ inner buf = [] := by
  have e : buf = List.replicate buf.length SP := List.eq_replicate_of_mem h
  have := AllWhitespace.spaces buf.length
  rw [← e] at this
  exact ⟨utf8_ws this, vis_ws this⟩

theorem trimNewlinesGo_keeps : ∀ s, Utf8 s → ∀ (n : Nat) (buf : Bytes), (∀ b ∈ buf, b = SP) →
    Utf8 (trimNewlinesGo n buf s) ∧ inner (trimNewlinesGo n buf s) = inner s := by
  apply utf8_induct
  · intro n buf hb
    rw [trimNewlinesGo]
    exact utf8_spaces hb
  · intro c s hc hs ih n buf hb
    rcases isChar_cases hc with ⟨b, rfl, hlow⟩ | h
    · rw [List.singleton_append, trimNewlinesGo]
      have nov : ∀ b : UInt8, b < 128 → vis [b] = false → inner (b :: s) = inner s := by
        intro b h1 h2; rw [vis_ascii h1 hs, h2]; rfl
      by_cases h10 : b = NL
      · subst h10
        rw [if_pos rfl, nov _ (by decide) (by decide)]
        split
        · obtain ⟨i1, i2⟩ := ih (n + 1) [] (by simp)
          refine ⟨utf8_append (utf8_spaces hb).1 (utf8_ascii (by decide) i1), ?_⟩
          rw [vis_append (utf8_ascii (by decide) i1), (utf8_spaces hb).2, vis_ascii (by decide) i1, i2]
          rfl
        · exact ih (n + 1) [] (by simp)
      · rw [if_neg h10]
        by_cases h32 : b = SP
        · subst h32
          rw [if_pos rfl, nov _ (by decide) (by decide)]
          apply ih
          intro x hx
          rcases List.mem_append.1 hx with h | h
          · exact hb x h
          · simpa using h
        · rw [if_neg h32]
          obtain ⟨i1, i2⟩ := ih 0 [] (by simp)
          refine ⟨utf8_append (utf8_spaces hb).1 (utf8_ascii hlow i1), ?_⟩
          rw [vis_append (utf8_ascii hlow i1), (utf8_spaces hb).2, vis_ascii hlow i1, vis_ascii hlow hs, i2]
          rfl
    · have hne : c ≠ [] := by rintro rfl; simp [isChar] at hc
      rw [trimNewlinesGo_copy c h hne]
      obtain ⟨i1, i2⟩ := ih 0 [] (by simp)
      rw [List.append_assoc]
      refine ⟨utf8_append (utf8_spaces hb).1 (utf8_char hc i1), ?_⟩
      rw [vis_append (utf8_char hc i1), (utf8_spaces hb).2, vis_char hc i1, vis_char hc hs, i2]
      rfl

theorem keeps_newlines {s : Bytes} (hs : Utf8 s) : Keeps s (trimConsecutiveNewlines s) := by
  obtain ⟨h1, h2⟩ := trimNewlinesGo_keeps s hs 0 [] (by simp)
  exact Keeps.eq h1 h2

theorem keeps_doubleSpaces : ∀ s, Utf8 s → ∀ n, Keeps s (dropDoubleSpaces n s) := by
  apply utf8_induct
  · intro n; exact Keeps.refl utf8_nil
  · intro c s hc hs ih n
    rcases isChar_cases hc with ⟨b, rfl, hlow⟩ | h
    · rw [List.singleton_append, dropDoubleSpaces]
      by_cases h32 : b = SP
      · subst h32
        rw [if_pos rfl]
        split
        · have := ih (n + 1)
          refine ⟨this.1, ?_⟩
          rw [vis_ascii (by decide) hs]
          exact this.2
        · exact Keeps.append (a := [SP]) (Keeps.refl (utf8_byte (by decide))) hs (ih _)
      · rw [if_neg h32]
        rw [if_neg (by decide)]
        exact Keeps.append (a := [b]) (Keeps.refl (utf8_byte hlow)) hs (ih _)
    · have hne : c ≠ [] := by rintro rfl; simp [isChar] at hc
      rw [dropDoubleSpaces_copy c h hne]
      exact Keeps.append (Keeps.refl (by simpa using utf8_char hc utf8_nil)) hs (ih 0)

/-! ## Lines -/

theorem utf8_lines : ∀ s, Utf8 s → (∀ l ∈ splitOn NL s, Utf8 l) ∧ inner s = (splitOn NL s).flatMap inner := by
  apply utf8_induct
  · exact ⟨by intro l hl; simp [splitOn] at hl; rw [hl]; exact utf8_nil, rfl⟩
  · intro c s hc hs ih
    by_cases hn : c = [NL]
    · subst hn
      rw [List.singleton_append, splitOn_sep]
      refine ⟨?_, ?_⟩
      · intro l hl
        rcases List.mem_cons.1 hl with rfl | hl
        · exact utf8_nil
        · exact ih.1 l hl
      · rw [vis_ascii (by decide) hs, List.flatMap_cons, vis_nil, ← ih.2]; rfl
    · obtain ⟨l, ls, h1, h2⟩ := splitOn_chars c hc hn s
      rw [h1] at ih
      rw [h2]
      have hl := ih.1 l (by simp)
      refine ⟨?_, ?_⟩
      · intro x hx
        rcases List.mem_cons.1 hx with rfl | hx
        · exact utf8_char hc hl
        · exact ih.1 x (by simp [hx])
      · rw [vis_char hc hs, List.flatMap_cons, vis_char hc hl, ih.2, List.flatMap_cons]
        split <;> simp

theorem utf8_join : ∀ ls : List Bytes, (∀ l ∈ ls, Utf8 l) → Utf8 (joinWith NL ls) ∧ inner (joinWith NL ls) = ls.flatMap inner := by
  intro ls
  induction ls with
  | nil => intro _; exact ⟨utf8_nil, rfl⟩
  | cons l ls ih =>
    intro h
    have hl := h l (by simp)
    obtain ⟨i1, i2⟩ := ih fun x hx => h x (by simp [hx])
    cases ls with
    | nil => rw [joinWith]; exact ⟨hl, by simp⟩
    | cons l' ls =>
      rw [joinWith]
      · have := utf8_ascii (b := NL) (by decide) i1
        refine ⟨utf8_append hl this, ?_⟩
        rw [vis_append this, vis_ascii (by decide) i1, i2, List.flatMap_cons (f := inner) (x := l)]; rfl
      · simp

theorem flatMap_ins {α : Type} {f g : α → List Bytes} : ∀ {l : List α}, (∀ a ∈ l, Ins (f a) (g a)) → Ins (l.flatMap f) (l.flatMap g)
  | [], _ => Ins.refl _
  | a :: l, h => by
    rw [List.flatMap_cons, List.flatMap_cons]
    exact (h a (by simp)).append (flatMap_ins fun x hx => h x (by simp [hx]))

theorem keeps_delimiterForLine {d s : Bytes} (hd : Plain d) (hs : Utf8 s) : Keeps s (delimiterForLine d s) := by
  obtain ⟨h1, h2, h3, -⟩ := Props.c23_surrounding_spaces s
  rw [delimiterForLine]
  generalize surroundingSpaces s = p at h1 h2 h3 ⊢
  obtain ⟨l, m, r⟩ := p
  simp only at h1 h2 h3 ⊢
  obtain ⟨hm, hv⟩ := utf8_trimmed hs h2 h3 h1.symm
  split
  · rename_i h
    subst h
    rw [List.append_nil] at h1
    rw [h1]; exact Keeps.refl hs
  · refine ((((Keeps.eq hm hv).after d hd).after l (plain_ws h2)).before d hd).before r (plain_ws h3) |> fun k => ?_
    simpa [List.append_assoc] using k

theorem keeps_delimited {d s : Bytes} (hd : Plain d) (hs : Utf8 s) : Keeps s (delimited d s) := by
  rw [delimited, delimiterForEveryLine]
  obtain ⟨h1, h2⟩ := utf8_lines s hs
  obtain ⟨j1, j2⟩ := utf8_join ((splitOn NL s).map (delimiterForLine d)) (by
    intro l hl
    rw [List.mem_map] at hl
    obtain ⟨x, hx, rfl⟩ := hl
    exact (keeps_delimiterForLine hd (h1 x hx)).1)
  refine ⟨j1, ?_⟩
  rw [j2, h2, List.flatMap_map]
  exact flatMap_ins fun l hl => (keeps_delimiterForLine hd (h1 l hl)).2

theorem escapeMultiLineGo_keeps : ∀ ls : List Bytes, (∀ l ∈ ls, Utf8 l) →
    Utf8 (escapeMultiLineGo ls) ∧ Ins (ls.flatMap inner) (inner (escapeMultiLineGo ls)) := by
  intro ls
  induction ls with
  | nil => intro _; exact ⟨utf8_nil, Ins.refl _⟩
  | cons l ls ih =>
    intro h
    obtain ⟨i1, i2⟩ := ih fun x hx => h x (by simp [hx])
    have kl := keeps_trimLeft (h l (by simp))
    rw [escapeMultiLineGo]
    have step : ∀ x : Bytes, Keeps l x → Utf8 (x ++ escapeMultiLineGo ls) ∧
        Ins ((l :: ls).flatMap inner) (inner (x ++ escapeMultiLineGo ls)) := by
      intro x hx
      refine ⟨utf8_append hx.1 i1, ?_⟩
      rw [vis_append i1, List.flatMap_cons]
      exact hx.2.append i2
    apply step
    split
    · rename_i h0
      refine ⟨utf8_of_ascii (by decide), ?_⟩
      have h1 : trimLeft l = [] := by simpa using h0
      have h2 := kl.2
      rw [h1, vis_nil] at h2
      exact h2.trans (Ins.of_nil (ascii_none (by decide)))
    · split
      · exact kl
      · split
        · exact kl.before _ (plain_ascii (by decide))
        · exact kl.before _ (plain_ascii (by decide))

theorem keeps_escapeMultiLine {s : Bytes} (hs : Utf8 s) : Keeps s (escapeMultiLine s) := by
  rw [escapeMultiLine]
  split
  · exact Keeps.refl hs
  · obtain ⟨h1, h2⟩ := utf8_lines s hs
    obtain ⟨j1, j2⟩ := escapeMultiLineGo_keeps (splitOn NL s) h1
    exact ⟨j1, by rw [h2]; exact j2⟩

/-! ## Un-escaping -/

theorem keeps_applyChanges : ∀ s, Utf8 s → ∀ chs, Keeps s (applyChanges chs s) := by
  apply utf8_induct
  · intro chs; rw [applyChanges]; exact Keeps.refl utf8_nil
  · intro c s hc hs ih chs
    rcases isChar_cases hc with ⟨b, rfl, hlow⟩ | h
    · cases chs with
      | nil => rw [List.singleton_append, applyChanges]; exact Keeps.refl (utf8_ascii hlow hs)
      | cons ch chs =>
        rw [List.singleton_append, applyChanges]
        by_cases h7 : b = MARK
        · subst h7
          simp only [ne_eq, not_true, if_false]
          have e : inner (MARK :: s) = inner s := by rw [vis_ascii (by decide) hs]; rfl
          split
          · have := (ih chs).after [BS] (plain_ascii (by decide))
            exact ⟨this.1, by rw [e]; exact this.2⟩
          · exact ⟨(ih chs).1, by rw [e]; exact (ih chs).2⟩
        · rw [if_pos h7]
          exact Keeps.append (a := [b]) (Keeps.refl (utf8_byte hlow)) hs (ih chs)
    · rw [applyChanges_copy c s chs h]
      exact Keeps.append (Keeps.refl (by simpa using utf8_char hc utf8_nil)) hs (ih _)

theorem keeps_unEscape (mode : Mode) (hs : List Handler) {s : Bytes} (h : Utf8 s) : Keeps s (unEscapeContent mode hs s) := by
  cases mode with
  | smart => exact keeps_applyChanges s h _
  | disabled => exact Keeps.refl h

end Verif.Inner
