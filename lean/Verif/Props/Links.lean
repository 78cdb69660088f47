import Verif.Proofs.Links
import Verif.Props.Headings
/-!
# Property C69: links and images are read as what they were written for
-/

namespace Verif.Props
open Verif Verif.Commonmark Verif.TextUtils Verif.Escape Verif.Table

/-! ## C69: links -/

/-- **C69.**  A link is left out exactly if the options say so: the address is empty and links without an address are
skipped, or the content is blank and links without content are skipped. -/
theorem c69_skipped_iff (skipHref skipContent : Bool) (href title content : Bytes) :
    link skipHref skipContent href title content = none ↔
      (href = [] ∧ skipHref = true) ∨ (Spec.AllWhitespace content ∧ skipContent = true) := by
  simp only [link]
  have h0 : (trimSpace content).length = 0 ↔ Spec.AllWhitespace content := by
    rw [List.length_eq_zero_iff, trimSpace_nil_iff]
  split
  · rename_i h; simp [h]
  · rename_i h
    split
    · rename_i h'
      simp [h0.1 h'.1, h'.2]
    · rename_i h'
      simp only [reduceCtorEq, false_iff, not_or]
      exact ⟨h, fun hc => h' ⟨h0.2 hc.1, hc.2⟩⟩

/-- **C69** (partial).  The Markdown of a link consists of the white space around its content and, between them, something that CommonMark reads
as a link with the text, the address and the title (in which line feeds are spaces; without an address there is no title).
If the content is on one line, the text is the content without the white space around it; otherwise see C27.

The conditions on the text hold for the content that is a text (`c69_text_partial`), those on the address by C25; for titles see C24. -/
theorem c69_link_partial {skipHref skipContent : Bool} {href title content out : Bytes}
    (h : link skipHref skipContent href title content = some out) :
    ∃ left mid right text core,
      content = left ++ mid ++ right ∧ Spec.AllWhitespace left ∧ Spec.AllWhitespace right ∧
      Spec.NoLeadingWhitespace mid ∧ Spec.NoTrailingWhitespace mid ∧
      out = left ++ core ++ right ∧ (10 ∉ content → text = mid) ∧
      (Spec.Enclosed text → Spec.PlainDestination href → NoEscapes title → ∀ rest,
        Spec.readInlineLink (core ++ rest) =
          some (text, href, if href = [] then [] else Spec.newlinesAsSpaces title, rest)) := by
  simp only [link] at h
  split at h
  · simp at h
  · split at h
    · simp at h
    · simp only [Option.some.injEq] at h
      obtain ⟨h1, h2, h3, h4, h5⟩ := c23_surrounding_spaces content
      refine ⟨_, _, _, (linkContent content).2.1,
        91 :: ((linkContent content).2.1 ++ b!"](" ++ href ++ titlePart (if href = [] then [] else replaceAll [NL] [SP] title) ++ b!")"),
        h1.symm, h2, h3, h4, h5, ?_, ?_, ?_⟩
      · rw [← h]
        simp [linkContent]
      · intro hn
        have hn' : 10 ∉ (surroundingSpaces content).2.1 := by
          intro hm; apply hn; rw [← h1]; simp [hm]
        simp only [linkContent]
        rw [trimConsecutiveNewlines, Links.tcn_of_no_newline _ _ _ hn', List.nil_append, escapeMultiLine, splitOn_of_no_sep hn']
        rfl
      · intro he hd ht rest
        have : NoEscapes (if href = [] then [] else replaceAll [NL] [SP] title) := by
          split
          · intro a b hab; simp at hab
          · rw [Links.newlines_eq]; exact Links.noEscapes_newlines ht
        rw [Links.newlines_eq] at this ⊢
        exact Links.read_written he hd this rest

/-- **C69** for a text as content (partial).  `t` is the text of the link, `p` and `q` are texts before and after it on the
page.  After un-escaping, the Markdown consists of something that is read as `p` and the white space in front of the
content, a link that is read as a link with the address, the title and a text that is read as the content without
white space around it, and the rest.  Missing: text with line feeds (a bracket whose partner is in the next line is not
escaped, see `c69_counterexample_newline`), text with the bytes 0 and 7 (C08, C09), content other than text. -/
theorem c69_text_partial {dig : Nat → Bool} {hs : List Handler} (hst : IsStock dig hs) {skipHref skipContent : Bool}
    {p t q href title out : Bytes} (hM : MARK ∉ p ++ t ++ q ++ href ++ title) (hp0 : 0 ∉ p) (h0 : 0 ∉ t) (hn : 10 ∉ t)
    (hhref : href ≠ []) (hd : Spec.PlainDestination href) (ht : NoEscapes title)
    (h : link skipHref skipContent href title (linkTextTransform true (escapeContent .smart isCommonmarkChar t)) = some out) :
    ∃ before left mid right text core after, t = left ++ mid ++ right ∧ Spec.AllWhitespace left ∧ Spec.AllWhitespace right ∧
      unEscapeContent .smart hs (escapeContent .smart isCommonmarkChar p ++ out ++ escapeContent .smart isCommonmarkChar q) =
        before ++ core ++ after ∧
      (Spec.readEscapes before).map Prod.snd = p ++ left ∧ (false, 92) ∉ Spec.readEscapes before ∧
      (Spec.readEscapes text).map Prod.snd = mid ∧
      ∀ rest, Spec.readInlineLink (core ++ rest) = some (text, href, Spec.newlinesAsSpaces title, rest) := by
  have hg := hst.good
  simp only [List.mem_append, not_or] at hM
  obtain ⟨⟨⟨⟨hMp, hMt⟩, hMq⟩, hMh⟩, hMtt⟩ := hM
  have hwt := textToks_wf t hMt
  have hwp := textToks_wf p hMp
  have hwq := textToks_wf q hMq
  have hcw := Links.closeToks_wf hwt
  have hlt := Links.closeToks_text t h0
  simp only [linkTextTransform, if_true, escapeContent, escapeLoop_eq] at h ⊢
  rw [Links.replaceClose_enc _ hwt] at h
  generalize Links.closeToks (textToks t) = ts at h hcw hlt
  -- the parts of the link
  simp only [link] at h
  split at h
  · simp at h
  split at h
  · simp at h
  simp only [Option.some.injEq, Links.newlines_eq] at h
  obtain ⟨h1, h2, h3, -, -⟩ := c23_surrounding_spaces (encToks ts)
  simp only [linkContent] at h
  generalize (surroundingSpaces (encToks ts)).1 = left at *
  generalize (surroundingSpaces (encToks ts)).2.1 = mid at *
  generalize (surroundingSpaces (encToks ts)).2.2 = right at *
  have hws : ∀ {r : Bytes}, Spec.AllWhitespace r → ∀ b ∈ r, b ≠ MARK ∧ b ≠ 92 ∧ b ≠ 93 ∧ Spec.isPunct b = false := by
    intro r hr b hb
    have := whitespace_bytes hr b hb
    have k : ∀ c : UInt8, (c = 32 ∨ (9 ≤ c ∧ c ≤ 13) ∨ 128 ≤ c) → c ≠ MARK ∧ c ≠ 92 ∧ c ≠ 93 ∧ Spec.isPunct c = false :=
      forall_u8 (by decide +kernel)
    exact k b this
  obtain ⟨a, b, rfl, hb⟩ := enc_cut_left left (mid ++ right) ts (fun hm => (hws h2 _ hm).1 rfl) (by rw [← h1, List.append_assoc])
  have ha : encToks a = left := by
    rw [encToks_append, hb, List.append_assoc] at h1
    exact (List.append_cancel_right h1).symm
  obtain ⟨c, d, rfl, hc⟩ := enc_cut_right b mid right (by
    intro x hx hx1 hm
    have := hlt.punct x (by simp [hx]) hx1
    rw [(hws h3 _ hm).2.2.2] at this
    exact absurd this (by decide)) hb
  have hdr : encToks d = right := by
    rw [encToks_append, hc] at hb
    exact List.append_cancel_left hb
  have ha' := Links.enc_no_mark a (by rw [ha]; exact fun hm => (hws h2 _ hm).1 rfl)
  have hd' := Links.enc_no_mark d (by rw [hdr]; exact fun hm => (hws h3 _ hm).1 rfl)
  rw [ha] at ha'; rw [hdr] at hd'
  have hsl : a.map Prod.snd = left := by rw [ha']; simp [Links.raw, Function.comp_def]
  have hsr : d.map Prod.snd = right := by rw [hd']; simp [Links.raw, Function.comp_def]
  obtain ⟨t2, rfl, hlt2⟩ := Links.LinkToks.cut_left a _ t hlt (by
    rw [ha']; intro x hx
    simp only [Links.raw, List.mem_map] at hx
    obtain ⟨y, hy, rfl⟩ := hx
    exact ⟨rfl, (hws h2 y hy).2.1⟩)
  obtain ⟨t1, rfl, hlt3⟩ := Links.LinkToks.cut_right c d t2 hlt2 (by
    rw [hd']; intro x hx
    simp only [Links.raw, List.mem_map] at hx
    obtain ⟨y, hy, rfl⟩ := hx
    exact ⟨rfl, (hws h3 y hy).2.1, (hws h3 y hy).2.2.1⟩)
  rw [hsl, hsr] at *
  have hcw' := WF.append.1 hcw
  have hcw'' := WF.append.1 hcw'.2
  have hnt : 10 ∉ t1 := fun hm => hn (by simp [hm])
  have hnm : 10 ∉ mid := by
    rw [← hc]
    exact hlt3.no_newline hnt
  rw [trimConsecutiveNewlines, Links.tcn_of_no_newline _ _ _ hnm, List.nil_append, escapeMultiLine, splitOn_of_no_sep hnm] at h
  simp only [List.length_singleton, if_true] at h
  -- the tokens of the page
  have hMn : MARK ∉ Spec.newlinesAsSpaces title := Links.newlines_no_mark hMtt
  have hMtp : MARK ∉ titlePart (Spec.newlinesAsSpaces title) := Links.titlePart_no_mark hMn
  have hpage : encToks (textToks p) ++ out ++ encToks (textToks q) =
      encToks ((textToks p ++ a) ++ ((false, 91) :: (c ++ (Links.raw (b!"](" ++ href ++ titlePart (Spec.newlinesAsSpaces title) ++ b!")") ++
        (d ++ textToks q))))) := by
    rw [← h]
    simp [Links.enc_raw, ha, hc, hdr]
  have hMall : MARK ∉ b!"](" ++ href ++ titlePart (Spec.newlinesAsSpaces title) ++ b!")" := by
    simp [hMh, hMtp]
  have hwraw := Links.raw_wf hMall
  have hwpa : WF (textToks p ++ a) := WF.append.2 ⟨hwp, hcw'.1⟩
  have hwpost : WF (Links.raw (b!"](" ++ href ++ titlePart (Spec.newlinesAsSpaces title) ++ b!")") ++ (d ++ textToks q)) :=
    WF.append.2 ⟨hwraw, WF.append.2 ⟨hcw''.2, hwq⟩⟩
  generalize hraw : b!"](" ++ href ++ titlePart (Spec.newlinesAsSpaces title) ++ b!")" = tail at *
  rw [hpage, unEscape_enc]
  · obtain ⟨A, rev1, k1, hA, hI, hA1, hA2⟩ := Links.text_part hg ((false, 91) :: (c ++ (Links.raw tail ++ (d ++ textToks q)))) hwpa
      (by
        intro x hx hf
        rcases List.mem_append.1 hx with hx | hx
        · intro e
          have := textToks_marked p x hx
          rw [e] at this
          rw [hf] at this
          exact absurd (this.2 (by decide)) (by decide)
        · rw [ha'] at hx
          simp only [Links.raw, List.mem_map] at hx
          obtain ⟨y, hy, rfl⟩ := hx
          exact (hws h2 y hy).2.1)
      (by
        intro x hx hf
        rcases List.mem_append.1 hx with hx | hx
        · exact (commonmarkChars_lt _ ((textToks_marked p x hx).1 hf)).2.2
        · rw [ha'] at hx
          simp only [Links.raw, List.mem_map] at hx
          obtain ⟨y, hy, rfl⟩ := hx
          simp at hf)
      [] 0 (.inl rfl)
    rw [encToks_cons_f] at hI
    obtain ⟨D, rev2, k2, hD, hD1, hD2⟩ := Links.link_text hg hwpost (by rw [← hraw]; simp [Links.raw]) hlt3 hcw''.1 hnt _ _ hI.step
    obtain ⟨rev3, k3, hR⟩ := Links.W_raw hs (d ++ textToks q) tail rev2 k2
    refine ⟨renToks A, left, t1, right, renToks D, 91 :: (renToks D ++ tail), renToks (W hs rev3 k3 (d ++ textToks q)), by simp, h2, h3,
      ?_, ?_, ?_, hD2, ?_⟩
    · rw [hA, W, hD, hR]
      simp [Links.ren_raw]
    · rw [hA1, List.map_append, textToks_snd p hp0, ha']
      simp [Links.raw, Function.comp_def]
    · intro hm; exact hA2 _ hm rfl
    · intro rest
      have := Links.read_written hD1 hd (Links.noEscapes_newlines ht) rest
      rw [← this, ← hraw]
      simp
  · intro x hx
    rcases List.mem_append.1 hx with hx | hx
    · exact (hwpa x hx).1
    · rcases List.mem_cons.1 hx with rfl | hx
      · decide
      · exact (WF.append.2 ⟨hcw''.1, hwpost⟩ x hx).1

/-! ### Examples and counterexamples -/

/-- Non-vacuity: brackets of all kinds, in a text with white space around. -/
example : (link false false b!"/u" b!"a\nb" (linkTextTransform true (escapeContent .smart isCommonmarkChar b!" [a]] \\(b "))).map
      (fun out => unEscapeContent .smart (commonmarkHandlers fun _ => false) (escapeContent .smart isCommonmarkChar b!"x\\" ++ out)) =
    some b!"x\\\\ [\\[a\\]\\] \\\\(b](/u \"a b\") " := by decide

example : Spec.readInlineLink b!"[\\[a\\]\\] \\\\(b](/u \"a b\") " = some (b!"\\[a\\]\\] \\\\(b", b!"/u", b!"a b", b!" ") := by decide

/-- The full C69 fails: the bracket in the first line of the text is not escaped, because its partner is not in the same line.
`<a href="/u">foo [bar<br>baz</a>` is read as something that does not start with a link. -/
theorem c69_counterexample_newline :
    (link false false b!"/u" [] (linkTextTransform true (escapeContent .smart isCommonmarkChar b!"foo [bar") ++ hardBreak ++
      linkTextTransform true (escapeContent .smart isCommonmarkChar b!"baz"))).map
      (unEscapeContent .smart (commonmarkHandlers fun _ => false)) = some b!"[foo [bar  \nbaz](/u)" ∧
    Spec.readInlineLink b!"[foo [bar  \nbaz](/u)" = none := by decide

/-! ## C69: images -/

/-- **C69.**  An image is left out exactly if its address is blank. -/
theorem c69_image_skipped_iff (assemble : Bytes → Bytes) (src title alt : Bytes) :
    image assemble src title alt = none ↔ Spec.AllWhitespace src := by
  simp only [image]
  rw [← trimSpace_nil_iff]
  split <;> simp_all

/-- **C69** (partial).  The Markdown of an image is an exclamation mark and something that CommonMark reads as a link with the
address, the title (line feeds are spaces) and a text that is read as the alternative text (line feeds are spaces).
Missing: alternative texts with two backslashes in a row or a backslash at the end (C28); the text itself is read back if it has no backslash at
all; for addresses see C25, for titles C24. -/
theorem c69_image_partial {assemble : Bytes → Bytes} {src title alt out : Bytes}
    (h : image assemble src title alt = some out) (hd : Spec.PlainDestination (assemble (trimSpace src)))
    (ht : NoEscapes title) (ha : ¬ [92, 92] <:+: alt) (he : alt.getLast? ≠ some 92) :
    ∃ core text, out = 33 :: core ∧
      (∀ rest, Spec.readInlineLink (core ++ rest) =
        some (text, assemble (trimSpace src), Spec.newlinesAsSpaces title, rest)) ∧
      (92 ∉ alt → (Spec.readEscapes text).map Prod.snd = Spec.newlinesAsSpaces alt) := by
  simp only [image] at h
  split at h
  · simp at h
  · simp only [Option.some.injEq, Links.newlines_eq] at h
    refine ⟨91 :: (escapeAlt (Spec.newlinesAsSpaces alt) ++ b!"](" ++ assemble (trimSpace src) ++ titlePart (Spec.newlinesAsSpaces title) ++ b!")"),
      _, by rw [← h]; simp, fun rest => Links.read_written (Links.escapeAlt_enclosed ?_ ?_) hd (Links.noEscapes_newlines ht) rest, ?_⟩
    · intro hi
      refine ha (map_infix ?_ alt hi)
      intro b hb c hc
      simp at hb; subst hb
      split at hc
      · exact absurd hc (by decide)
      · exact hc
    · simp only [Spec.newlinesAsSpaces, List.getLast?_map]
      cases hl : alt.getLast? with
      | none => simp
      | some x =>
        simp only [Option.map_some, ne_eq, Option.some.injEq]
        split
        · decide
        · rintro rfl; exact he hl
    · intro h92
      apply c28_reads_back_partial
      intro hm
      simp only [Spec.newlinesAsSpaces, List.mem_map] at hm
      obtain ⟨x, hx, hm⟩ := hm
      split at hm
      · exact absurd hm (by decide)
      · exact h92 (hm ▸ hx)

example : image id b!" /i.png " b!"the\ntitle" b!"a [b]\nc" = some b!"![a \\[b\\] c](/i.png \"the title\")" := by decide
example : Spec.readInlineLink b!"[a \\[b\\] c](/i.png \"the title\")" = some (b!"a \\[b\\] c", b!"/i.png", b!"the title", []) := by decide
example : Spec.PlainDestination b!"/i.png" := by unfold Spec.PlainDestination; decide

end Verif.Props
