import Verif.Proofs.CharsHeading
import Verif.Proofs.Lists
/-!
# What is visible in the result of the other renderers
-/
set_option linter.unusedSimpArgs false

namespace Verif.Chars
open Verif Verif.Spec Verif.TextUtils Verif.Escape Verif.Commonmark

theorem utf8_rep {c : UInt8} (hc : c < 128) (n : Nat) : Utf8 (List.replicate n c) :=
  utf8_of_ascii fun b hb => by rw [List.mem_replicate] at hb; rw [hb.2]; exact hc

/-! ## Code -/

theorem keeps_collapse {s : Bytes} (hs : Utf8 s) : Keeps s (collapseInlineCodeContent s) := by
  rw [collapseInlineCodeContent]
  have k1 := keeps_replace_one (a := NL) (new := [SP]) (by decide) (by decide) (utf8_byte (by decide)) hs
  have k2 := keeps_replace_one (a := 9) (new := [SP]) (by decide) (by decide) (utf8_byte (by decide)) k1.1
  have k3 := keeps_trimSpace k2.1
  exact ((k1.trans k2).trans k3).trans (keeps_doubleSpaces _ k3.1 0)

theorem keeps_inlineCode {s : Bytes} (hs : Utf8 s) : Keeps s (inlineCode s) ∧ EndsOk (inlineCode s) := by
  rw [inlineCode]
  have h96 : Utf8 [(96 : UInt8)] := utf8_byte (by decide)
  split
  · have k := ((Keeps.refl hs).after [96] h96)
    exact ⟨k.before [96] h96, ends_after k.1 h96 (by decide) (by decide)⟩
  · have k1 := keeps_collapse hs
    generalize collapseInlineCodeContent s = code at k1 ⊢
    have k2 : Keeps s (if [96].isPrefixOf code = true then [SP] ++ code else code) := by
      split
      · exact k1.after _ (utf8_byte (by decide))
      · exact k1
    dsimp only
    generalize (if [96].isPrefixOf code = true then [SP] ++ code else code) = code2 at k2 ⊢
    have k3 : Keeps s (if [96].isSuffixOf code2 = true then code2 ++ [SP] else code2) := by
      split
      · exact k2.before _ (utf8_byte (by decide))
      · exact k2
    generalize (if [96].isSuffixOf code2 = true then code2 ++ [SP] else code2) = code3 at k3 ⊢
    have hf := utf8_rep (c := 96) (by decide) (calculateCodeFenceOccurrences 96 code + 1)
    have k4 := k3.after _ hf
    refine ⟨k4.before _ hf, ends_after k4.1 hf ?_ ?_⟩
    · rw [List.replicate_succ, vis_ascii (by decide) (utf8_rep (by decide) _)]
      simp [vis, whitespace]
    · intro h; rw [List.mem_replicate] at h; exact absurd h.2 (by decide)

theorem keeps_dropNewline {s : Bytes} (hs : Utf8 s) : Keeps s (dropTrailingNewline s) := by
  rw [dropTrailingNewline]
  split
  · rename_i h
    rw [isSuffixOf_one] at h
    obtain ⟨t, rfl⟩ := getLast_concat_of h
    rw [List.dropLast_concat]
    have ht := utf8_prefix hs (utf8_byte (by decide))
    refine ⟨ht, ?_⟩
    rw [vis_append (utf8_byte (by decide)), show visibleChars [(10 : UInt8)] = [] by decide, List.append_nil]
    exact List.Sublist.refl _
  · exact Keeps.refl hs

theorem keeps_blockCode {c : UInt8} (hc : c < 128) {info s : Bytes} (hi : Utf8 info) (hs : Utf8 s) : Keeps s (blockCode c info s) := by
  rw [blockCode]
  have k1 := keeps_dropNewline hs
  generalize dropTrailingNewline s = t at k1 ⊢
  have k2 := k1.trans (keeps_replace_one (a := NL) (new := codeNewline) (by decide) (by decide) utf8_codeNewline.1 k1.1)
  have hf : Utf8 (calculateCodeFence c t) := by rw [calculateCodeFence]; exact utf8_rep hc _
  have h10 : Utf8 [NL] := utf8_byte (by decide)
  have hnn : Utf8 b!"\n\n" := utf8_of_ascii (by decide)
  have := ((((((k2.after [NL] h10).after info hi).after _ hf).after b!"\n\n" hnn).before [NL] h10).before _ hf).before b!"\n\n" hnn
  simpa [List.append_assoc] using this

/-! ## Language of a code block -/

theorem utf8_split {c : UInt8} (hc : c < 128) : ∀ s, Utf8 s → ∀ l ∈ splitOn c s, Utf8 l := by
  apply utf8_induct
  · intro l hl; simp [splitOn] at hl; subst hl; exact utf8_nil
  · intro x s hx hs ih l hl
    rcases isChar_cases hx with ⟨b, rfl, hb⟩ | h
    · rw [List.singleton_append] at hl
      by_cases hbc : b = c
      · subst hbc
        rw [splitOn_sep] at hl
        rcases List.mem_cons.1 hl with rfl | hl
        · exact utf8_nil
        · exact ih l hl
      · obtain ⟨l0, ls, e1, e2⟩ := splitOn_other hbc s
        rw [e2] at hl
        rw [e1] at ih
        rcases List.mem_cons.1 hl with rfl | hl
        · exact utf8_ascii hb (ih l0 (by simp))
        · exact ih l (by simp [hl])
    · have key : ∀ x : Bytes, (∀ y ∈ x, 128 ≤ y) → ∃ l0 ls, splitOn c s = l0 :: ls ∧ splitOn c (x ++ s) = (x ++ l0) :: ls := by
        intro x
        induction x with
        | nil =>
          intro _
          rcases e : splitOn c s with _ | ⟨l0, ls⟩
          · exact absurd e (splitOn_nonempty c s)
          · exact ⟨l0, ls, rfl, e⟩
        | cons y x ihx =>
          intro hy
          obtain ⟨l0, ls, e1, e2⟩ := ihx fun z hz => hy z (by simp [hz])
          obtain ⟨l1, ls1, f1, f2⟩ := splitOn_other (not_low (hy y (by simp)) hc) (x ++ s)
          rw [e2] at f1
          injection f1 with f3 f4
          exact ⟨l0, ls, e1, by rw [List.cons_append, f2, ← f3, ← f4]; rfl⟩
      obtain ⟨l0, ls, e1, e2⟩ := key x h
      rw [e2] at hl
      rw [e1] at ih
      rcases List.mem_cons.1 hl with rfl | hl
      · exact utf8_char hx (ih l0 (by simp))
      · exact ih l (by simp [hl])

theorem dropFirst_split (old : Bytes) : ∀ s : Bytes, dropFirst old s = s ∨ ∃ a b, s = a ++ old ++ b ∧ dropFirst old s = a ++ b
  | [] => Or.inl rfl
  | x :: s => by
    rw [dropFirst]
    split
    · rename_i h
      obtain ⟨t, ht⟩ := List.isPrefixOf_iff_prefix.1 h
      right
      refine ⟨[], t, by simpa using ht.symm, ?_⟩
      rw [← ht, List.drop_left]; rfl
    · rcases dropFirst_split old s with h | ⟨a, b, e1, e2⟩
      · left; rw [h]
      · right; exact ⟨x :: a, b, by rw [e1]; rfl, by rw [e2]; rfl⟩

theorem utf8_cut {c : UInt8} (hc : c < 128) {a r : Bytes} (h : Utf8 (a ++ c :: r)) : Utf8 a ∧ Utf8 r := by
  have hst : StartsCharacter (c :: r) := by
    intro b hb
    simp at hb
    subst hb
    cases e : isCont c with
    | false => rfl
    | true => exact absurd rfl (not_low (cont_ge c e) hc)
  have e := chars_append a hst
  have h1 : Utf8 (c :: r) := fun x hx => h x (by rw [e]; simp [hx])
  refine ⟨fun x hx => h x (by rw [e]; simp [hx]), ?_⟩
  exact utf8_suffix (a := [c]) h1 (utf8_byte hc)

theorem utf8_dropFirst {old : Bytes} (ho : ∀ b ∈ old, b < 128) {s : Bytes} (hs : Utf8 s) : Utf8 (dropFirst old s) := by
  rcases dropFirst_split old s with h | ⟨a, b, e1, e2⟩
  · rw [h]; exact hs
  · rw [e2]
    subst e1
    cases old with
    | nil => simpa using hs
    | cons c old =>
      rw [List.append_assoc] at hs
      obtain ⟨h1, h2⟩ := utf8_cut (ho c (by simp)) hs
      exact utf8_append h1 (utf8_suffix h2 (utf8_of_ascii fun b hb => ho b (by simp [hb])))

theorem utf8_codeLanguage {cls : Bytes} (h : Utf8 cls) : Utf8 (codeLanguage cls) := by
  rw [codeLanguage]
  split
  · exact utf8_nil
  · rename_i part hp
    exact utf8_dropFirst (by decide) (utf8_dropFirst (by decide) (utf8_split (by decide) cls h part (List.mem_of_find?_eq_some hp)))

/-! ## Block quotes -/

theorem keeps_blockquote {s : Bytes} (hs : Utf8 s) : Keeps s (blockquote s) := by
  rw [blockquote]
  have k1 := keeps_trimSpace hs
  dsimp only
  split
  · rename_i h
    exact ⟨utf8_nil, by rw [trimSpace_empty h]; exact List.nil_sublist _⟩
  · have k2 := k1.trans (keeps_newlines k1.1)
    have k3 := k2.trans (keeps_hardBreaks k2.1)
    have k4 := k3.trans (keeps_prefixLines (repl := [62, SP]) (utf8_of_ascii (by decide)) k3.1)
    exact (k4.after _ (utf8_of_ascii (by decide))).before _ (utf8_of_ascii (by decide))

/-! ## Images and links -/

theorem utf8_escapeAlt : ∀ s, Utf8 s → ∀ prev, Utf8 (escapeAltGo prev s) := by
  apply utf8_induct
  · intro prev; exact utf8_nil
  · intro c s hc hs ih prev
    rcases isChar_cases hc with ⟨b, rfl, hb⟩ | h
    · rw [List.singleton_append, escapeAltGo]
      split
      · exact utf8_ascii (by decide) (utf8_ascii hb (ih _))
      · exact utf8_ascii hb (ih _)
    · have key : ∀ x : Bytes, (∀ y ∈ x, 128 ≤ y) → ∀ prev, ∃ prev', escapeAltGo prev (x ++ s) = x ++ escapeAltGo prev' s := by
        intro x
        induction x with
        | nil => intro _ prev; exact ⟨prev, rfl⟩
        | cons y x ihx =>
          intro hy prev
          have hn : ¬ ((y = 91 ∨ y = 93) ∧ prev ≠ some BS) := by
            rintro ⟨h | h, _⟩
            · exact not_low (hy y (by simp)) (by decide) h
            · exact not_low (hy y (by simp)) (by decide) h
          obtain ⟨p', e⟩ := ihx (fun z hz => hy z (by simp [hz])) (some y)
          exact ⟨p', by rw [List.cons_append, escapeAltGo, if_neg hn, e]; rfl⟩
      obtain ⟨p', e⟩ := key c h prev
      rw [e]; exact utf8_char hc (ih _)

theorem utf8_title {t : Bytes} (h : Utf8 t) : Utf8 (titlePart t) := by
  rw [titlePart]
  split
  · refine utf8_ascii (by decide) ?_
    rw [surroundByQuotes]
    split
    · exact utf8_nil
    · dsimp only
      split
      · rw [surroundBy]
        refine utf8_append (utf8_append (utf8_byte (by decide)) ?_) (utf8_byte (by decide))
        exact (keeps_replaceAll (by decide) (utf8_of_ascii (by decide)) ⟨utf8_of_ascii (by decide), by decide⟩ t h).1
      · split
        · exact utf8_append (utf8_append (utf8_byte (by decide)) h) (utf8_byte (by decide))
        · exact utf8_append (utf8_append (utf8_byte (by decide)) h) (utf8_byte (by decide))
  · exact utf8_nil

theorem utf8_newlines {t : Bytes} (h : Utf8 t) : Utf8 (replaceAll [NL] [SP] t) :=
  (keeps_replace_one (by decide) (by decide) (utf8_byte (by decide)) h).1

theorem ends_paren {p : Bytes} (hp : Utf8 p) {r : Bytes} (hr : AllWhitespace r) : EndsOk (p ++ b!")" ++ r) :=
  ends_byte hp (by decide) (by decide) (by decide) (utf8_ws hr) (vis_ws hr)

theorem image_ok {assemble : Bytes → Bytes} (ha : ∀ u, Utf8 u → Utf8 (assemble u)) {src title alt t : Bytes}
    (h1 : Utf8 src) (h2 : Utf8 title) (h3 : Utf8 alt) (h : image assemble src title alt = some t) : Utf8 t ∧ EndsOk t := by
  rw [image] at h
  dsimp only at h
  split at h
  · exact absurd h (by simp)
  · injection h with h
    subst h
    have hp : Utf8 (b!"![" ++ escapeAlt (replaceAll [NL] [SP] alt) ++ b!"](" ++ assemble (trimSpace src) ++ titlePart (replaceAll [NL] [SP] title)) := by
      refine utf8_append (utf8_append (utf8_append (utf8_append (utf8_of_ascii (by decide)) ?_) (utf8_of_ascii (by decide))) ?_) ?_
      · exact utf8_escapeAlt _ (utf8_newlines h3) _
      · exact ha _ (utf8_trimSpace h1).1
      · exact utf8_title (utf8_newlines h2)
    refine ⟨utf8_append hp (utf8_byte (by decide)), ?_⟩
    simpa using ends_paren hp Spec.AllWhitespace.nil

theorem link_ok {sh sc : Bool} {href title content t : Bytes} (h1 : Utf8 href) (h2 : Utf8 title) (h3 : Utf8 content)
    (h : link sh sc href title content = some t) : Keeps content t ∧ EndsOk t := by
  rw [link] at h
  split at h
  · exact absurd h (by simp)
  split at h
  · exact absurd h (by simp)
  obtain ⟨e1, e2, e3, -⟩ := Props.c23_surrounding_spaces content
  rw [linkContent] at h
  generalize surroundingSpaces content = p at e1 e2 e3 h
  obtain ⟨l, m, r⟩ := p
  simp only [Option.some.injEq] at e1 e2 e3 h
  obtain ⟨hm, hv⟩ := utf8_trimmed h3 e2 e3 e1.symm
  have ht : Utf8 (titlePart (if href = [] then [] else replaceAll [NL] [SP] title)) := by
    apply utf8_title
    split
    · exact utf8_nil
    · exact utf8_newlines h2
  generalize titlePart (if href = [] then [] else replaceAll [NL] [SP] title) = T at ht h
  have k0 := (Keeps.eq hm hv).trans ((keeps_newlines hm).trans (keeps_escapeMultiLine (keeps_newlines hm).1))
  generalize escapeMultiLine (trimConsecutiveNewlines m) = M at k0 h
  have k1 := ((((k0.after [91] (utf8_byte (by decide))).after l (utf8_ws e2)).before b!"](" (utf8_of_ascii (by decide))).before href h1).before T ht
  subst h
  have e : l ++ [91] ++ M ++ b!"](" ++ href ++ T ++ b!")" ++ r = (l ++ ([91] ++ M) ++ b!"](" ++ href ++ T) ++ b!")" ++ r := by simp
  rw [e]
  exact ⟨(k1.before b!")" (utf8_byte (by decide))).before r (utf8_ws e3), ends_paren k1.1 e3⟩

/-! ## Emphasis -/

theorem ends_delimiterForLine {d s : Bytes} (hd : Utf8 d) (hv : visibleChars d ≠ []) (h35 : 35 ∉ d) (hs : Utf8 s) : EndsOk (delimiterForLine d s) := by
  obtain ⟨h1, h2, h3, -⟩ := Props.c23_surrounding_spaces s
  rw [delimiterForLine]
  generalize surroundingSpaces s = p at h1 h2 h3 ⊢
  obtain ⟨l, m, r⟩ := p
  simp only at h1 h2 h3 ⊢
  obtain ⟨hm, -⟩ := utf8_trimmed hs h2 h3 h1.symm
  split
  · refine ends_blank ?_
    rw [vis_append (utf8_ws h3), vis_ws h2, vis_ws h3]; rfl
  · have hp : Utf8 (l ++ d ++ m) := utf8_append (utf8_append (utf8_ws h2) hd) hm
    exact (ends_after hp hd hv h35).append (ends_blank (vis_ws h3)) (utf8_append hp hd) (utf8_ws h3)

theorem ends_join : ∀ ls : List Bytes, (∀ l ∈ ls, Utf8 l ∧ EndsOk l) → EndsOk (joinWith NL ls)
  | [], _ => ends_blank rfl
  | [l], h => by rw [joinWith]; exact (h l (by simp)).2
  | l :: m :: ls, h => by
    have ih := ends_join (m :: ls) fun x hx => h x (by simp [List.mem_cons.1 hx])
    have hu := (utf8_join (m :: ls) fun x hx => (h x (by simp [List.mem_cons.1 hx])).1).1
    have e0 : joinWith NL (l :: m :: ls) = l ++ NL :: joinWith NL (m :: ls) := by simp [joinWith]
    rw [e0]
    have e : l ++ NL :: joinWith NL (m :: ls) = l ++ ([NL] ++ joinWith NL (m :: ls)) := by simp
    rw [e]
    have h10 : Utf8 [NL] := utf8_byte (by decide)
    exact (h l (by simp)).2.append ((ends_blank (by decide)).append ih h10 hu) (h l (by simp)).1 (utf8_append h10 hu)

theorem ends_delimited {d s : Bytes} (hd : Utf8 d) (hv : visibleChars d ≠ []) (h35 : 35 ∉ d) (hs : Utf8 s) : EndsOk (delimited d s) := by
  rw [delimited, delimiterForEveryLine]
  apply ends_join
  intro l hl
  rw [List.mem_map] at hl
  obtain ⟨x, hx, rfl⟩ := hl
  have hu := (utf8_lines s hs).1 x hx
  exact ⟨(keeps_delimiterForLine hd hu).1, ends_delimiterForLine hd hv h35 hu⟩

/-! ## Lists -/

theorem ascii_natBytes (n : Nat) : ∀ b ∈ natBytes n, b < 128 := by
  intro b hb
  have := (natBytes_mem n b hb).2
  rw [u8_le] at this; rw [u8_lt]
  exact Nat.lt_of_le_of_lt this (by decide)

theorem utf8_listPrefix {bullet : Bytes} (hb : Utf8 bullet) (o : Bool) (st : Int) (n i : Nat) : Utf8 (listPrefix o bullet st n i) := by
  rw [listPrefix]
  split
  · exact utf8_append hb (utf8_byte (by decide))
  · refine utf8_append ?_ (utf8_of_ascii (by decide))
    rw [padInt]
    split
    · exact utf8_ascii (by decide) (utf8_append (utf8_rep (by decide) _) (utf8_of_ascii (ascii_natBytes _)))
    · exact utf8_append (utf8_rep (by decide) _) (utf8_of_ascii (ascii_natBytes _))

theorem multiLineListItemGo_keeps {indent : Bytes} (hi : Utf8 indent) : ∀ (ls : List Bytes), (∀ l ∈ ls, Utf8 l) → ∀ first,
    Utf8 (multiLineListItemGo indent first ls) ∧ (ls.flatMap visibleChars).Sublist (visibleChars (multiLineListItemGo indent first ls))
  | [], _, _ => ⟨utf8_nil, List.Sublist.refl _⟩
  | l :: ls, h, first => by
    obtain ⟨i1, i2⟩ := multiLineListItemGo_keeps hi ls (fun x hx => h x (by simp [hx])) false
    rw [multiLineListItemGo]
    have k1 : Keeps l (replaceAll codeNewline (codeNewline ++ indent) l) := by
      refine keeps_replaceAll (by decide) utf8_codeNewline.1 ⟨utf8_append utf8_codeNewline.1 hi, ?_⟩ l (h l (by simp))
      rw [utf8_codeNewline.2]; exact List.nil_sublist _
    have k2 : Keeps l ((if first = true then [] else indent) ++ replaceAll codeNewline (codeNewline ++ indent) l ++ (if ls = [] then [] else [NL])) := by
      refine (k1.after _ ?_).before _ ?_
      · split
        · exact utf8_nil
        · exact hi
      · split
        · exact utf8_nil
        · exact utf8_byte (by decide)
    refine ⟨utf8_append k2.1 i1, ?_⟩
    rw [vis_append i1, List.flatMap_cons]
    exact k2.2.append i2

theorem keeps_multiLineListItem {s : Bytes} (hs : Utf8 s) (n : Nat) : Keeps s (multiLineListItem s n) := by
  obtain ⟨h1, h2⟩ := utf8_lines s hs
  obtain ⟨g1, g2⟩ := multiLineListItemGo_keeps (utf8_rep (c := SP) (by decide) n) (splitOn NL s) h1 true
  exact ⟨g1, by rw [h2]; exact g2⟩

theorem listItemsGo_keeps {un : Bytes → Bytes} (hun : ∀ s, Utf8 s → Keeps s (un s)) {pfx : Nat → Bytes} (hp : ∀ i, Utf8 (pfx i)) (n : Nat) :
    ∀ (items : List Bytes), (∀ x ∈ items, Utf8 x) → ∀ i,
    Utf8 (listItemsGo un pfx n i items) ∧ (items.flatMap visibleChars).Sublist (visibleChars (listItemsGo un pfx n i items))
  | [], _, _ => ⟨utf8_nil, List.Sublist.refl _⟩
  | x :: xs, h, i => by
    obtain ⟨i1, i2⟩ := listItemsGo_keeps hun hp n xs (fun y hy => h y (by simp [hy])) (i + 1)
    rw [listItemsGo]
    have k1 := keeps_newlines (h x (by simp))
    have k2 := k1.trans (keeps_hardBreaks k1.1)
    have k3 := k2.trans (hun _ k2.1)
    have k4 := k3.trans (keeps_multiLineListItem k3.1 n)
    have k5 : Keeps x (pfx i ++ multiLineListItem (un (trimUnnecessaryHardLineBreaks (trimConsecutiveNewlines x))) n ++ (if xs = [] then [] else [NL])) := by
      refine (k4.after _ (hp i)).before _ ?_
      split
      · exact utf8_nil
      · exact utf8_byte (by decide)
    refine ⟨utf8_append k5.1 i1, ?_⟩
    rw [vis_append i1, List.flatMap_cons]
    exact k5.2.append i2

theorem trimmed_items (xs : List Bytes) (h : ∀ x ∈ xs, Utf8 x) :
    (∀ y ∈ (xs.map trimSpace).filter (· ≠ []), Utf8 y) ∧ ((xs.map trimSpace).filter (· ≠ [])).flatMap visibleChars = xs.flatMap visibleChars := by
  induction xs with
  | nil => exact ⟨by simp, rfl⟩
  | cons x xs ih =>
    obtain ⟨i1, i2⟩ := ih fun y hy => h y (by simp [hy])
    have hx := utf8_trimSpace (h x (by simp))
    rw [List.map_cons, List.filter_cons]
    split
    · refine ⟨?_, ?_⟩
      · intro y hy
        rcases List.mem_cons.1 hy with rfl | hy
        · exact hx.1
        · exact i1 y hy
      · rw [List.flatMap_cons, List.flatMap_cons, i2, hx.2]
    · rename_i he
      refine ⟨i1, ?_⟩
      rw [List.flatMap_cons, i2, trimSpace_empty (by simpa using he)]; rfl

theorem list_keeps {un : Bytes → Bytes} (hun : ∀ s, Utf8 s → Keeps s (un s)) (o : Bool) {bullet : Bytes} (hb : Utf8 bullet) (st : Int)
    {xs : List Bytes} (h : ∀ x ∈ xs, Utf8 x) : Utf8 (list un o bullet st xs) ∧ (xs.flatMap visibleChars).Sublist (visibleChars (list un o bullet st xs)) := by
  obtain ⟨t1, t2⟩ := trimmed_items xs h
  rw [list]
  dsimp only
  split
  · rename_i he
    rw [he] at t2
    rw [← t2]
    exact ⟨utf8_nil, List.Sublist.refl _⟩
  · generalize (xs.map trimSpace).filter (· ≠ []) = items at t1 t2 ⊢
    obtain ⟨g1, g2⟩ := listItemsGo_keeps hun (pfx := listPrefix o bullet st items.length) (fun i => utf8_listPrefix hb _ _ _ _)
      (runeCount (listPrefix o bullet st items.length 0)) items t1 0
    have hnn : Utf8 b!"\n\n" := utf8_of_ascii (by decide)
    refine ⟨utf8_append (utf8_append hnn g1) hnn, ?_⟩
    rw [vis_append hnn, vis_append g1, ← t2]
    simpa using g2.trans ((List.sublist_append_right _ _).trans (List.sublist_append_left _ _))

end Verif.Chars
