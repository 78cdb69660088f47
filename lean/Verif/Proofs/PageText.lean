import Verif.Proofs.PageInline
import Verif.Props.Headings
import Verif.Props.Local
/-!
# Pages of blocks: the lines of paragraphs and headings
-/

namespace Verif.Page
open Verif Verif.Spec Verif.Escape Verif.Commonmark Verif.TextUtils

/-! ## Words in encoded texts -/

/-- `encToks` and `renToks` for any escape byte. -/
def encBy (e : UInt8) (ts : Toks) : Bytes := ts.flatMap fun t => if t.1 then [e, t.2] else [t.2]

theorem encToks_by (ts : Toks) : encToks ts = encBy MARK ts := rfl
theorem renToks_by (ts : Toks) : renToks ts = encBy BS ts := rfl

theorem encBy_cons (e m c ts) : encBy e ((m, c) :: ts) = (if m then [e] else []) ++ c :: encBy e ts := by
  cases m <;> rfl

theorem encBy_append (e : UInt8) (a b : Toks) : encBy e (a ++ b) = encBy e a ++ encBy e b := by simp [encBy]

theorem encBy_mem {e : UInt8} {ts : Toks} {b : UInt8} (h : b ∈ encBy e ts) : b = e ∨ b ∈ ts.map Prod.snd := by
  rw [encBy, List.mem_flatMap] at h
  obtain ⟨t, ht, hb⟩ := h
  split at hb
  · simp at hb
    rcases hb with rfl | rfl
    · exact .inl rfl
    · exact .inr (List.mem_map_of_mem ht)
  · simp at hb
    subst hb
    exact .inr (List.mem_map_of_mem ht)

theorem encBy_prefix {e : UInt8} {w : Bytes} (hw : e ∉ w) : ∀ ts : Toks, w <+: encBy e ts → w <+: ts.map Prod.snd := by
  induction w with
  | nil => intro _ _; exact List.nil_prefix
  | cons c w ih =>
    intro ts h
    simp only [List.mem_cons, not_or] at hw
    match ts with
    | [] => simp [encBy] at h
    | (true, d) :: ts =>
      rw [encBy_cons] at h
      simp only [if_true, List.singleton_append, List.cons_prefix_cons] at h
      exact absurd h.1.symm hw.1
    | (false, d) :: ts =>
      rw [encBy_cons] at h
      simp only [Bool.false_eq_true, if_false, List.nil_append, List.cons_prefix_cons] at h
      rw [List.map_cons, List.cons_prefix_cons]
      exact ⟨h.1, ih hw.2 ts h.2⟩

theorem encBy_infix {e : UInt8} {w : Bytes} (hw : e ∉ w) (hne : w ≠ []) : ∀ ts : Toks, w <:+: encBy e ts → w <:+: ts.map Prod.snd := by
  intro ts
  induction ts with
  | nil => intro h; exact h
  | cons t ts ih =>
    intro h
    obtain ⟨m, c⟩ := t
    have raw : w <:+: c :: encBy e ts → w <:+: c :: ts.map Prod.snd := by
      intro h
      rw [List.infix_cons_iff] at h
      rcases h with h | h
      · have := encBy_prefix hw ((false, c) :: ts) (by rw [encBy_cons]; exact h)
        exact this.isInfix
      · exact (ih h).trans (List.suffix_cons _ _).isInfix
    rw [encBy_cons] at h
    cases m with
    | false => exact raw h
    | true =>
      simp only [if_true, List.singleton_append] at h
      rw [List.infix_cons_iff] at h
      rcases h with h | h
      · cases w with
        | nil => exact absurd rfl hne
        | cons d w =>
          rw [List.cons_prefix_cons] at h
          simp only [List.mem_cons, not_or] at hw
          exact absurd h.1.symm hw.1
      · exact raw h

theorem suffix_concat {w s : Bytes} {d c : UInt8} (h : w ++ [d] <:+ s ++ [c]) : d = c ∧ w <:+ s := by
  obtain ⟨x, hx⟩ := h
  rw [← List.append_assoc] at hx
  have ⟨h1, h2⟩ := List.append_inj' hx rfl
  simp at h2
  exact ⟨h2, x, h1⟩

theorem encBy_suffix {e : UInt8} : ∀ (n : Nat) {w : Bytes}, w.length = n → e ∉ w → ∀ ts : Toks, w <:+ encBy e ts → w <:+ ts.map Prod.snd := by
  intro n
  induction n with
  | zero => intro w hn _ _ _; rw [List.length_eq_zero_iff.1 hn]; exact List.nil_suffix
  | succ n ih =>
    intro w hn hw ts h
    rcases List.eq_nil_or_concat w with rfl | ⟨w', d, rfl⟩
    · simp at hn
    · rw [List.concat_eq_append] at *
      simp at hn
      simp only [List.mem_append, not_or] at hw
      rcases List.eq_nil_or_concat ts with rfl | ⟨ts', t, rfl⟩
      · simp [encBy] at h
      · rw [List.concat_eq_append] at *
        obtain ⟨m, c⟩ := t
        rw [encBy_append, encBy_cons] at h
        rw [List.map_append]
        simp only [List.map_cons, List.map_nil]
        cases m with
        | false =>
          obtain ⟨rfl, h'⟩ := suffix_concat (s := encBy e ts') (c := c) (by simpa [encBy] using h)
          obtain ⟨x, hx⟩ := ih hn hw.1 ts' h'
          exact ⟨x, by rw [← hx]; simp⟩
        | true =>
          obtain ⟨rfl, h'⟩ := suffix_concat (s := encBy e ts' ++ [e]) (c := c) (by simpa [encBy] using h)
          rcases List.eq_nil_or_concat w' with rfl | ⟨w'', d', rfl⟩
          · exact ⟨_, rfl⟩
          · rw [List.concat_eq_append] at *
            obtain ⟨rfl, -⟩ := suffix_concat h'
            simp at hw

theorem encBy_noLeading {e : UInt8} (he : ∀ w ∈ whitespace, e ∉ w) {ts : Toks} (h : NoLeadingWhitespace (ts.map Prod.snd)) :
    NoLeadingWhitespace (encBy e ts) := fun w hw hp => h w hw (encBy_prefix (he w hw) ts hp)

theorem encBy_noTrailing {e : UInt8} (he : ∀ w ∈ whitespace, e ∉ w) {ts : Toks} (h : NoTrailingWhitespace (ts.map Prod.snd)) :
    NoTrailingWhitespace (encBy e ts) := fun w hw hp => h w hw (encBy_suffix _ rfl (he w hw) ts hp)

theorem ws_mark : ∀ w ∈ whitespace, MARK ∉ w := by decide
theorem ws_bs : ∀ w ∈ whitespace, BS ∉ w := by decide

/-! ## Entities at the end of a text -/

theorem entityReplace_append (a b : Bytes) : entityReplace (a ++ b) = entityReplace a ++ entityReplace b := by
  simp [Verif.Chars.entityReplace_flatMap]

theorem entityReplace_suffix : ∀ (n : Nat) {w : Bytes}, w.length = n → (∀ b ∈ w, b ∉ b!"&ltg;") → ∀ s : Bytes, w <:+ entityReplace s → w <:+ s := by
  intro n
  induction n with
  | zero => intro w hn _ _ _; rw [List.length_eq_zero_iff.1 hn]; exact List.nil_suffix
  | succ n ih =>
    intro w hn hw s h
    rcases List.eq_nil_or_concat w with rfl | ⟨w', d, rfl⟩
    · simp at hn
    · rw [List.concat_eq_append] at *
      simp at hn
      rcases List.eq_nil_or_concat s with rfl | ⟨s', c, rfl⟩
      · simpa [entityReplace_nil] using h
      · rw [List.concat_eq_append] at *
        rw [entityReplace_append] at h
        have hd := hw d (by simp)
        by_cases h1 : c = 60
        · subst h1
          obtain ⟨rfl, -⟩ := suffix_concat (s := entityReplace s' ++ b!"&lt") (c := 59) (by simpa [entityReplace_lt, entityReplace_nil] using h)
          exact absurd (by decide) hd
        · by_cases h2 : c = 62
          · subst h2
            obtain ⟨rfl, -⟩ := suffix_concat (s := entityReplace s' ++ b!"&gt") (c := 59) (by simpa [entityReplace_gt, entityReplace_nil] using h)
            exact absurd (by decide) hd
          · obtain ⟨rfl, h'⟩ := suffix_concat (s := entityReplace s') (c := c) (by simpa [entityReplace_other h1 h2, entityReplace_nil] using h)
            obtain ⟨x, hx⟩ := ih hn (fun b hb => hw b (by simp [hb])) s' h'
            exact ⟨x, by rw [← hx]; simp⟩

theorem entityReplace_eq_nil {s : Bytes} (h : entityReplace s = []) : s = [] := by
  cases s with
  | nil => rfl
  | cons b s =>
    by_cases h1 : b = 60
    · subst h1; simp [entityReplace_lt] at h
    · by_cases h2 : b = 62
      · subst h2; simp [entityReplace_gt] at h
      · simp [entityReplace_other h1 h2] at h

theorem entityReplace_id {s : Bytes} (h : 38 ∉ entityReplace s) : entityReplace s = s := by
  induction s with
  | nil => rfl
  | cons b s ih =>
    by_cases h1 : b = 60
    · subst h1; simp [entityReplace_lt] at h
    · by_cases h2 : b = 62
      · subst h2; simp [entityReplace_gt] at h
      · rw [entityReplace_other h1 h2] at h ⊢
        rw [ih (fun h' => h (by simp [h']))]

theorem fence_entity (v : Bytes) : startsWithFenceChars (entityReplace v) = startsWithFenceChars v := by
  have h1 : ∀ v : Bytes, (entityReplace v).takeWhile (fun b => b == 96 || b == 126) = v.takeWhile (fun b => b == 96 || b == 126) := by
    intro v
    induction v with
    | nil => rfl
    | cons b v ih =>
      by_cases h1 : b = 60
      · subst h1; rfl
      · by_cases h2 : b = 62
        · subst h2; rfl
        · rw [entityReplace_other h1 h2, List.takeWhile_cons, List.takeWhile_cons, ih]
  have h2 : ∀ v : Bytes, dropSpaces (entityReplace v) = entityReplace (dropSpaces v) := by
    intro v
    induction v with
    | nil => rfl
    | cons b v ih =>
      by_cases h1 : b = 60
      · subst h1; rfl
      · by_cases h2 : b = 62
        · subst h2; rfl
        · rw [entityReplace_other h1 h2]
          simp only [dropSpaces, List.dropWhile_cons] at ih ⊢
          split
          · exact ih
          · rw [entityReplace_other h1 h2]
  rw [startsWithFenceChars, startsWithFenceChars, h2, h1]

/-! ## Texts as they are seen -/

/-- What is known of a text in which white space was collapsed. -/
structure Seen (v : Bytes) : Prop where
  no_tab : 9 ∉ v
  no_nl : 10 ∉ v
  no_cr : 13 ∉ v
  no_two : ¬ [32, 32] <:+: v

theorem oneSpaceAfter_spec : ∀ (t : Bytes) (r : Bool), Seen (oneSpaceAfter r t) ∧ (r = true → (oneSpaceAfter r t).head? ≠ some 32) := by
  intro t
  induction t with
  | nil => intro r; exact ⟨⟨by simp [oneSpaceAfter], by simp [oneSpaceAfter], by simp [oneSpaceAfter], by simp [oneSpaceAfter]⟩, by simp [oneSpaceAfter]⟩
  | cons b t ih =>
    intro r
    rw [oneSpaceAfter]
    obtain ⟨i1, i2⟩ := ih true
    have i2 := i2 rfl
    split
    · split
      · exact ⟨i1, fun _ => i2⟩
      · rename_i hr
        refine ⟨⟨?_, ?_, ?_, ?_⟩, fun h => absurd h hr⟩
        · simp [i1.no_tab]
        · simp [i1.no_nl]
        · simp [i1.no_cr]
        · rw [List.infix_cons_iff]
          rintro (h | h)
          · rw [List.cons_prefix_cons] at h
            obtain ⟨x, hx⟩ := h.2
            rw [← hx] at i2
            simp at i2
          · exact i1.no_two h
    · rename_i hb
      obtain ⟨j1, -⟩ := ih false
      have h32 : b ≠ 32 := by rintro rfl; exact hb rfl
      have h9 : b ≠ 9 := by rintro rfl; exact hb rfl
      have h10 : b ≠ 10 := by rintro rfl; exact hb rfl
      have h13 : b ≠ 13 := by rintro rfl; exact hb rfl
      refine ⟨⟨?_, ?_, ?_, ?_⟩, ?_⟩
      · simp [Ne.symm h9, j1.no_tab]
      · simp [Ne.symm h10, j1.no_nl]
      · simp [Ne.symm h13, j1.no_cr]
      · rw [List.infix_cons_iff]
        rintro (h | h)
        · rw [List.cons_prefix_cons] at h
          exact h32 h.1.symm
        · exact j1.no_two h
      · intro _; simpa using h32

theorem Seen.of_infix {a b : Bytes} (h : Seen b) (hi : a <:+: b) : Seen a where
  no_tab := fun h' => h.no_tab (hi.subset h')
  no_nl := fun h' => h.no_nl (hi.subset h')
  no_cr := fun h' => h.no_cr (hi.subset h')
  no_two := fun h' => h.no_two (h'.trans hi)

theorem shown_seen (t : Bytes) : Seen (shown t) := by
  refine (oneSpaceAfter_spec t false).1.of_infix ?_
  rw [shown]
  have h1 : ∀ s : Bytes, (if s.head? = some 32 then s.tail else s) <:+: s := by
    intro s; split
    · exact (List.tail_suffix s).isInfix
    · exact List.infix_refl _
  have h2 : ∀ s : Bytes, (if s.getLast? = some 32 then s.dropLast else s) <:+: s := by
    intro s; split
    · exact (List.dropLast_prefix s).isInfix
    · exact List.infix_refl _
  exact (h2 _).trans (h1 _)

/-- The facts about a text of a page. -/
structure Text (bullet v : Bytes) : Prop extends TextOK bullet v, Seen v where
  nonempty : v ≠ []

theorem sep_chars : ∀ w ∈ [[11], [194, 133], [226, 128, 168], [226, 128, 169]], w ≠ [] ∧ ∀ b ∈ w, b ∉ b!"&ltg;" := by decide
theorem ws_chars : ∀ w ∈ whitespace, w ≠ [] ∧ ∀ b ∈ w, b ∉ b!"&ltg;" := by decide

theorem not_mem_entity {v : Bytes} {b : UInt8} (hb : b ∉ v) (h : b ∉ b!"&ltg;") : b ∉ entityReplace v := by
  intro h'
  rcases entityReplace_mem v b h' with h' | h'
  · exact hb h'
  · exact h h'

section
variable {bullet v : Bytes} (h : Text bullet v)
include h

theorem Text.u_nul : 0 ∉ entityReplace v := not_mem_entity h.no_nul (by decide)
theorem Text.u_bell : MARK ∉ entityReplace v := not_mem_entity h.no_bell (by decide)
theorem Text.u_nl : NL ∉ entityReplace v := not_mem_entity h.no_nl (by decide)
theorem Text.u_tab : 9 ∉ entityReplace v := not_mem_entity h.no_tab (by decide)
theorem Text.u_cr : 13 ∉ entityReplace v := not_mem_entity h.no_cr (by decide)
theorem Text.u_two : ¬ [32, 32] <:+: entityReplace v := fun h' => h.no_two (entityReplace_infix (by simp) (by decide) _ h')
theorem Text.u_mark : ¬ codeNewline <:+: entityReplace v := fun h' => h.no_mark (entityReplace_infix (by decide) (by decide) _ h')
theorem Text.u_sep : ∀ w ∈ [[11], [194, 133], [226, 128, 168], [226, 128, 169]], ¬ w <:+: entityReplace v := fun w hw h' =>
  h.no_sep w hw (entityReplace_infix (sep_chars w hw).1 (sep_chars w hw).2 _ h')
theorem Text.u_leading : NoLeadingWhitespace (entityReplace v) := fun w hw h' =>
  h.leading w hw (entityReplace_prefix (ws_chars w hw).2 _ h')
theorem Text.u_trailing : NoTrailingWhitespace (entityReplace v) := fun w hw h' =>
  h.trailing w hw (entityReplace_suffix _ rfl (ws_chars w hw).2 _ h')
theorem Text.u_ne : entityReplace v ≠ [] := fun h' => h.nonempty (entityReplace_eq_nil h')

theorem Text.toks_snd : (textToks (entityReplace v)).map Prod.snd = entityReplace v := textToks_snd _ h.u_nul

theorem Text.wf : WF (textToks (entityReplace v)) := textToks_wf _ h.u_bell

theorem Text.ready : Ready (textToks (entityReplace v)) where
  wf := h.wf
  special := fun m c hm hc => (textToks_marked _ (m, c) hm).2 (show c ∈ commonmarkChars by rcases hc with rfl | rfl | rfl | rfl <;> decide)
  marked := fun t ht h1 => ((textToks_marked _ t ht).1 h1)
  no_nul := by
    intro t ht h0
    have : t.2 ∈ (textToks (entityReplace v)).map Prod.snd := List.mem_map_of_mem ht
    rw [h.toks_snd, h0] at this
    exact h.u_nul this
  no_nl := by rw [h.toks_snd]; exact h.u_nl
  no_fence := by
    refine no_fence_text h.u_bell h.u_nul ?_
    intro line hl
    rw [Spec.lines, splitOn_of_no_sep h.u_nl] at hl
    simp at hl
    subst hl
    rw [fence_entity]; exact h.no_fence
  no_sep := by rw [h.toks_snd]; exact h.u_sep
end

/-! ## The line of a paragraph -/

/-- The line is not made of bullets (a list marker in front of it would make a thematic break). -/
def First (bullet l : Bytes) : Prop := bullet = [43] ∨ ∃ x ∈ l, [x] ≠ bullet ∧ x ≠ 32 ∧ x ≠ 9

/-- What is needed of the line of a paragraph. -/
structure ParaLine (bullet : Bytes) (spans : List Span) (l : Bytes) : Prop where
  nonempty : l ≠ []
  blank : l.head? ≠ some 32 ∧ l.head? ≠ some 9
  head : l.head? ≠ some 60 ∧ l.head? ≠ some 62
  thematic : isThematicBreak l = false
  atx : readAtx l = none
  fence : ∀ ls, readFenced (l :: ls) = none
  marker : readMarker l = none
  item : isBulletItem l = false ∧ isOrderedItem l = false
  plain : readInline l = some spans
  first : First bullet l
  bytes : 10 ∉ l ∧ 13 ∉ l ∧ 0 ∉ l
  code : ¬ codeNewline <:+: l
  leading : NoLeadingWhitespace l
  trailing : NoTrailingWhitespace l

theorem dropSpaces_of_head {l : Bytes} (h : l.head? ≠ some 32) : dropSpaces l = l := by
  cases l with
  | nil => rfl
  | cons b l => simp at h; simp [dropSpaces, h]

theorem readAtx_none {l : Bytes} (h : l.head? ≠ some 32) (ha : isAtxHeading l = false) : readAtx l = none := by
  rw [isAtxHeading, dropSpaces_of_head h] at ha
  simp only [readAtx]
  rw [dropIndent3_id h, if_neg]
  intro hc
  simp only [hc.1, hc.2.1, hc.2.2, decide_true, Bool.and_true] at ha
  simp at ha

theorem readFenced_none {l : Bytes} (h : l.head? ≠ some 32) (ha : isFence l = false) (ls : List Bytes) : readFenced (l :: ls) = none := by
  cases l with
  | nil => rfl
  | cons c l =>
    rw [isFence, dropSpaces_of_head h] at ha
    simp only [readFenced]
    rw [if_neg]
    rintro ⟨hc, hn, -⟩
    rcases hc with rfl | rfl
    all_goals
      simp at ha hn
      omega

theorem readMarker_none {l : Bytes} (h : l.head? ≠ some 32) (hb : isBulletItem l = false) (ho : isOrderedItem l = false) : readMarker l = none := by
  cases l with
  | nil => rfl
  | cons c l =>
    rw [isBulletItem, dropSpaces_of_head h] at hb
    simp only [isOrderedItem, dropSpaces_of_head h] at ho
    simp only [readMarker]
    split
    · rename_i hc
      split
      · have : (c == 45 || c == 43 || c == 42) = true := by simpa [or_assoc] using hc
        simp [this, endOrBlank] at hb
      · rfl
    · split
      · rename_i hd
        split
        · rename_i d x y e
          rw [e] at ho
          rw [if_neg]
          rintro ⟨hd', -⟩
          have h1 : (d == 46 || d == 41) = true := by simpa using hd'
          have h2 := hd.1
          simp [h1, h2, endOrBlank] at ho
        · rfl
      · rfl

theorem trimBlank_self {l : Bytes} (h : l.head? ≠ some 32 ∧ l.head? ≠ some 9) (hl : l.getLast? ≠ some 32 ∧ l.getLast? ≠ some 9) : trimBlank l = l := by
  have key : ∀ l : Bytes, l.head? ≠ some 32 ∧ l.head? ≠ some 9 → (l.dropWhile fun b => b == 32 || b == 9) = l := by
    intro l h
    cases l with
    | nil => rfl
    | cons b l => simp at h; simp [h]
  rw [trimBlank, key l h, key _ (by simpa using hl)]
  simp

theorem noLeading_head {l : Bytes} (h : NoLeadingWhitespace l) : l.head? ≠ some 32 ∧ l.head? ≠ some 9 := by
  cases l with
  | nil => simp
  | cons b l =>
    simp
    refine ⟨?_, ?_⟩
    · rintro rfl; exact h [32] (by decide) ⟨l, rfl⟩
    · rintro rfl; exact h [9] (by decide) ⟨l, rfl⟩

theorem noLeading_head_cr {l : Bytes} (h : NoLeadingWhitespace l) : l.head? ≠ some 13 := by
  cases l with
  | nil => simp
  | cons b l =>
    simp
    rintro rfl; exact h [13] (by decide) ⟨l, rfl⟩

theorem noTrailing_last {l : Bytes} (h : NoTrailingWhitespace l) : l.getLast? ≠ some 32 ∧ l.getLast? ≠ some 9 := by
  rcases List.eq_nil_or_concat l with rfl | ⟨t, b, rfl⟩
  · simp
  · rw [List.concat_eq_append] at *
    simp
    refine ⟨?_, ?_⟩
    · rintro rfl; exact h [32] (by decide) ⟨t, rfl⟩
    · rintro rfl; exact h [9] (by decide) ⟨t, rfl⟩

/-- A line of bullets and spaces. -/
theorem bullets_only {b : UInt8} (hb : b = 45 ∨ b = 42) {l : Bytes} (hne : l ≠ []) (hall : ∀ x ∈ l, x = b ∨ x = 32 ∨ x = 9)
    (hh : l.head? ≠ some 32 ∧ l.head? ≠ some 9) (hlast : l.getLast? ≠ some 32 ∧ l.getLast? ≠ some 9)
    (ht : isThematicBreak l = false) (hi : isBulletItem l = false) : l = [b, b] := by
  have hb32 : b ≠ 32 ∧ b ≠ 9 := by rcases hb with rfl | rfl <;> decide
  -- the non-blank bytes
  have hf : ∀ l : Bytes, (∀ x ∈ l, x = b ∨ x = 32 ∨ x = 9) → l.filter (fun b => b != 32 && b != 9) = List.replicate ((l.filter (fun b => b != 32 && b != 9)).length) b := by
    intro l hl
    rw [List.eq_replicate_iff]
    refine ⟨rfl, ?_⟩
    intro x hx
    rw [List.mem_filter] at hx
    rcases hl x hx.1 with rfl | rfl | rfl
    · rfl
    · simp at hx
    · simp at hx
  have hcount : (l.filter (fun b => b != 32 && b != 9)).length < 3 := by
    have h1 := hf l hall
    cases e : (l.filter (fun b => b != 32 && b != 9)) with
    | nil => simp
    | cons c s =>
      have hc : c = b := by
        rw [e] at h1
        simp only [List.length_cons, List.replicate_succ, List.cons.injEq] at h1
        exact h1.1
      subst hc
      simp only [isThematicBreak, e] at ht
      have hall2 : (c :: s).all (fun x => x == c) = true := by
        rw [List.all_eq_true]
        intro x hx
        rw [e] at h1
        rw [h1] at hx
        simp [List.mem_replicate] at hx
        simp [hx]
      rw [hall2] at ht
      have h3 : (c == 45 || c == 95 || c == 42) = true := by rcases hb with rfl | rfl <;> decide
      rw [h3] at ht
      simp only [Bool.and_true, decide_eq_false_iff_not] at ht
      omega
  cases l with
  | nil => exact absurd rfl hne
  | cons c l =>
    simp at hh
    have hc : c = b := by
      rcases hall c (by simp) with rfl | rfl | rfl
      · rfl
      · exact absurd rfl hh.1
      · exact absurd rfl hh.2
    subst hc
    rw [isBulletItem, dropSpaces_of_head (by simpa using hh.1)] at hi
    have hc3 : (c == 45 || c == 43 || c == 42) = true := by rcases hb with rfl | rfl <;> decide
    simp only [hc3, Bool.true_and] at hi
    cases l with
    | nil => simp [endOrBlank] at hi
    | cons d l =>
      simp [endOrBlank] at hi
      have hd : d = c := by
        rcases hall d (by simp) with rfl | rfl | rfl
        · rfl
        · exact absurd rfl hi.1.1
        · exact absurd rfl hi.1.2
      subst hd
      rcases List.eq_nil_or_concat l with rfl | ⟨t, x, rfl⟩
      · rfl
      · rw [List.concat_eq_append] at *
        exfalso
        have hx : x = d := by
          rcases hall x (by simp) with h | h | h
          · exact h
          · subst h; simp [List.getLast?_cons] at hlast
          · subst h; simp [List.getLast?_cons] at hlast
        subst hx
        simp [hb32] at hcount
        omega

theorem para_line {dig : Nat → Bool} {hs : List Handler} (hst : IsStock dig hs) (hdig : Props.DigitsOK dig) {bullet v : Bytes}
    (hbul : bullet ∈ [b!"-", b!"+", b!"*"]) (h : Text bullet v) :
    ParaLine bullet [.text v] (renToks (W hs [] 0 (textToks (entityReplace v)))) := by
  have hout : Props.out hs (entityReplace v) = renToks (W hs [] 0 (textToks (entityReplace v))) := by
    rw [Props.out, escapeContent, escapeLoop_eq, unEscape_enc _ (fun x hx => (h.wf x hx).1)]
  have hbs : ∀ d ∈ W hs [] 0 (textToks (entityReplace v)), d.1 = false → d.2 ≠ BS :=
    backslash_escaped hst.good h.wf fun m hm => (textToks_marked _ _ hm).2 (show BS ∈ commonmarkChars by decide)
  have hsnd : (W hs [] 0 (textToks (entityReplace v))).map Prod.snd = entityReplace v := by rw [W_snd, h.toks_snd]
  have hplain := plain_W hst h.ready
  have hmem : ∀ b ∈ renToks (W hs [] 0 (textToks (entityReplace v))), b = 92 ∨ b ∈ entityReplace v := by
    intro b hb
    rw [renToks_by] at hb
    have := encBy_mem hb
    rwa [hsnd] at this
  have hlead : NoLeadingWhitespace (renToks (W hs [] 0 (textToks (entityReplace v)))) := by
    rw [renToks_by]; exact encBy_noLeading ws_bs (by rw [hsnd]; exact h.u_leading)
  have htrail : NoTrailingWhitespace (renToks (W hs [] 0 (textToks (entityReplace v)))) := by
    rw [renToks_by]; exact encBy_noTrailing ws_bs (by rw [hsnd]; exact h.u_trailing)
  have hnl : 10 ∉ renToks (W hs [] 0 (textToks (entityReplace v))) := by
    intro hb; rcases hmem _ hb with hb | hb
    · exact absurd hb (by decide)
    · exact h.u_nl hb
  have hcode : ¬ codeNewline <:+: renToks (W hs [] 0 (textToks (entityReplace v))) := by
    intro hc
    rw [renToks_by] at hc
    have := encBy_infix (by decide) (by decide) _ hc
    rw [hsnd] at this
    exact h.u_mark this
  have h92 : (92 : UInt8) ∈ renToks (W hs [] 0 (textToks (entityReplace v))) ∨ renToks (W hs [] 0 (textToks (entityReplace v))) = entityReplace v := by
    by_cases hx : ∃ d ∈ W hs [] 0 (textToks (entityReplace v)), d.1 = true
    · left
      obtain ⟨d, hd, h1⟩ := hx
      rw [renToks, List.mem_flatMap]
      exact ⟨d, hd, by rw [if_pos h1]; simp⟩
    · right
      refine (renToks_raw _ ?_).trans hsnd
      intro t ht
      cases ht1 : t.1 with
      | false => rfl
      | true => exact absurd ⟨t, ht, ht1⟩ hx
  generalize hD : W hs [] 0 (textToks (entityReplace v)) = D at *
  generalize hl : renToks D = l at *
  have hline : l ∈ Spec.lines (Props.out hs (entityReplace v)) := by
    rw [hout, Spec.lines, splitOn_of_no_sep hnl]; simp
  obtain ⟨hb1, hb2⟩ := noLeading_head hlead
  have hlast := noTrailing_last htrail
  have hne : l ≠ [] := by
    rintro rfl
    have : D = [] := by
      cases D with
      | nil => rfl
      | cons d D => obtain ⟨m, c⟩ := d; cases m <;> simp at hl
    rw [this] at hsnd
    exact h.u_ne hsnd.symm
  have hth := Props.c09_no_thematic_break_partial hst _ h.u_bell h.u_tab l hline
  have hbi := Props.c07_no_bullet_item hst _ h.u_bell l hline
  have hoi := Props.c08_no_ordered_item hst hdig _ h.u_bell l hline
  have hplain' : readInline l = some [.text v] := by
    rw [readInline, trimBlank_self ⟨hb1, hb2⟩ hlast, ← hl]
    rw [read_plain hsnd hplain hbs h.no_entity h.nonempty none _ (by omega)]; rfl
  refine ⟨hne, ⟨hb1, hb2⟩, ⟨?_, ?_⟩, hth, ?_, ?_, readMarker_none hb1 hbi hoi, ⟨hbi, hoi⟩, hplain', ?_, ⟨hnl, ?_, ?_⟩, hcode, hlead, htrail⟩
  · intro h60
    rcases hmem 60 (List.mem_of_mem_head? h60) with hb | hb
    · exact absurd hb (by decide)
    · exact (entityReplace_not v).1 hb
  · intro h60
    rcases hmem 62 (List.mem_of_mem_head? h60) with hb | hb
    · exact absurd hb (by decide)
    · exact (entityReplace_not v).2 hb
  · exact readAtx_none hb1 (Props.c05_no_atx_heading hst _ h.u_bell l hline)
  · exact readFenced_none hb1 (Props.c11_no_fence hst _ h.u_bell l hline)
  · by_cases hp : bullet = [43]
    · exact .inl hp
    · right
      apply Classical.byContradiction
      intro hno
      obtain ⟨b, rfl, hb⟩ : ∃ b, bullet = [b] ∧ (b = 45 ∨ b = 42) := by
        simp at hbul
        rcases hbul with rfl | rfl | rfl
        · exact ⟨45, rfl, .inl rfl⟩
        · exact absurd rfl hp
        · exact ⟨42, rfl, .inr rfl⟩
      have hall : ∀ x ∈ l, x = b ∨ x = 32 ∨ x = 9 := by
        intro x hx
        apply Classical.byContradiction
        intro hc
        simp only [not_or] at hc
        exact hno ⟨x, hx, by simpa using hc.1, hc.2⟩
      have hlbb := bullets_only hb hne hall ⟨hb1, hb2⟩ hlast hth hbi
      rcases h92 with h92 | h92
      · rw [hlbb] at h92
        rcases hb with rfl | rfl <;> simp at h92
      · rw [h92] at hlbb
        have h38 : 38 ∉ entityReplace v := by rw [hlbb]; rcases hb with rfl | rfl <;> decide
        rw [entityReplace_id h38] at hlbb
        exact h.no_bullets hlbb
  · intro hb; rcases hmem _ hb with hb | hb
    · exact absurd hb (by decide)
    · exact h.u_cr hb
  · intro hb; rcases hmem _ hb with hb | hb
    · exact absurd hb (by decide)
    · exact h.u_nul hb

end Verif.Page
