import Verif.Spec.Sections
import Verif.Proofs.Fenced
import Verif.Proofs.Marks
import Verif.Proofs.LocalRaw
/-!
# A rule cuts the bytes

The steps after the rendering treat what is before the end of a rule and what is behind it separately.
-/
set_option linter.unusedSimpArgs false

namespace Verif.Cut
open Verif Verif.Spec Verif.Props Verif.Commonmark Verif.TextUtils Verif.Escape

/-- A visible ASCII character. -/
def Ink (d : UInt8) : Prop := 33 ≤ d ∧ d ≤ 126

/-- No such character is in these bytes. -/
def inkless (w : Bytes) : Bool := w.all fun b => decide (b < 33) || decide (126 < b)

theorem Ink.not_mem {d : UInt8} (h : Ink d) {w : Bytes} (hw : inkless w = true) : d ∉ w := by
  intro hd
  have := List.all_eq_true.1 hw d hd
  rw [Bool.or_eq_true, decide_eq_true_eq, decide_eq_true_eq] at this
  obtain ⟨h1, h2⟩ := h
  rw [UInt8.le_iff_toNat_le] at h1 h2
  rw [UInt8.lt_iff_toNat_lt, UInt8.lt_iff_toNat_lt] at this
  omega

theorem Ink.of_rule {d : UInt8} (h : d = 42 ∨ d = 45 ∨ d = 95) : Ink d := by
  rcases h with rfl | rfl | rfl <;> exact ⟨by decide, by decide⟩

theorem Ink.ws {d : UInt8} (h : Ink d) : ∀ w ∈ whitespace, d ∉ w := fun w hw =>
  h.not_mem ((by decide : ∀ w ∈ whitespace, inkless w = true) w hw)

theorem Ink.ne {d : UInt8} (h : Ink d) : d ≠ NL ∧ d ≠ SP ∧ d ≠ 7 := by
  have := h.not_mem (w := [NL, SP, 7]) (by decide)
  simpa using this

/-- Neither a newline nor a space. -/
def Firm (d : UInt8) : Prop := d ≠ NL ∧ d ≠ SP

theorem Ink.firm {d : UInt8} (h : Ink d) : Firm d := ⟨h.ne.1, h.ne.2.1⟩

/-! ## White space at the ends -/

theorem trimLeft_behind {d : UInt8} (hd : Ink d) (x z : Bytes) : trimLeft (x ++ [d] ++ z) = trimLeft (x ++ [d]) ++ z := by
  obtain ⟨l, hl, hs, hn⟩ := trimLeft_spec (x ++ [d])
  have hdl := not_mem_ws hl hd.ws
  generalize trimLeft (x ++ [d]) = t at hs hn ⊢
  have hdt : d ∈ t := by
    have : d ∈ l ++ t := by rw [← hs]; simp
    rcases List.mem_append.1 this with h | h
    · exact absurd h hdl
    · exact h
  rw [hs, List.append_assoc, trimLeft_ws hl]
  apply trimLeft_eq
  intro w hw hp
  obtain ⟨q, hq⟩ := hp
  rcases List.append_eq_append_iff.1 hq with ⟨t', h, -⟩ | ⟨t', rfl, -⟩
  · exact hn w hw ⟨t', h.symm⟩
  · exact hd.ws _ hw (by simp [hdt])

theorem trimRight_behind {d : UInt8} (hd : Ink d) (x z : Bytes) : trimRight (x ++ [d] ++ z) = x ++ [d] ++ trimRight z := by
  obtain ⟨r, hr, hs, hn⟩ := trimRight_spec z
  generalize trimRight z = t at hs hn ⊢
  rw [hs, ← List.append_assoc, trimRight_ws hr]
  apply trimRight_eq
  intro w hw hp
  obtain ⟨q, hq⟩ := hp
  rcases List.append_eq_append_iff.1 hq with ⟨t', h, rfl⟩ | ⟨t', -, h⟩
  case inr => exact hn w hw ⟨t', h.symm⟩
  · rcases List.eq_nil_or_concat t' with rfl | ⟨t'', c, rfl⟩
    · exact hn _ hw (by simp)
    · rw [List.concat_eq_append] at h hw
      rw [← List.append_assoc] at h
      have := List.append_inj_right' h rfl
      simp only [List.cons.injEq, and_true] at this
      exact hd.ws _ hw (by simp [this])

/-! ## Newlines and hard line breaks -/

theorem newlines_behind {d : UInt8} (hd : Firm d) (z : Bytes) : ∀ (x : Bytes) (k : Nat) (buf : Bytes),
    trimNewlinesGo k buf (x ++ [d] ++ z) = trimNewlinesGo k buf (x ++ [d]) ++ trimNewlinesGo 0 [] z := by
  intro x
  induction x with
  | nil => intro k buf; simp [trimNewlinesGo, hd.1, hd.2]
  | cons b x ih =>
    intro k buf
    simp only [List.cons_append, trimNewlinesGo]
    split
    · split
      · rw [ih]; simp
      · rw [ih]
    · split
      · rw [ih]
      · rw [ih]; simp

theorem newlines_ends {d : UInt8} (hd : Firm d) : ∀ (x : Bytes) (k : Nat) (buf : Bytes),
    ∃ x', trimNewlinesGo k buf (x ++ [d]) = x' ++ [d] := by
  intro x
  induction x with
  | nil => intro k buf; exact ⟨buf, by simp [trimNewlinesGo, hd.1, hd.2]⟩
  | cons b x ih =>
    intro k buf
    simp only [List.cons_append, trimNewlinesGo]
    split
    · split
      · obtain ⟨x', h⟩ := ih (k + 1) []; exact ⟨buf ++ NL :: x', by rw [h]; simp⟩
      · exact ih _ _
    · split
      · exact ih _ _
      · obtain ⟨x', h⟩ := ih 0 []; exact ⟨buf ++ b :: x', by rw [h]; simp⟩

theorem replace_behind {old : Bytes} (new : Bytes) {d : UInt8} (hd : d ∉ old) (hne : old ≠ []) (x z : Bytes) :
    replaceAll old new (x ++ [d] ++ z) = replaceAll old new (x ++ [d]) ++ replaceAll old new z := by
  have h1 := replaceAll_cut new hd hne x z
  have h2 := replaceAll_cut new hd hne x []
  rw [List.append_assoc, List.singleton_append, h1, h2]
  simp

theorem replace_ends {old : Bytes} (new : Bytes) {d : UInt8} (hd : d ∉ old) (hne : old ≠ []) (x : Bytes) :
    ∃ x', replaceAll old new (x ++ [d]) = x' ++ [d] := ⟨_, by have h2 := replaceAll_cut new hd hne x []; simpa using h2⟩

theorem Ink.breaks {d : UInt8} (hd : Ink d) : d ∉ b!"  \n\n" ∧ d ∉ b!"  \n  \n" ∧ d ∉ b!"  \n \n" ∧ d ∉ codeNewline := by
  exact ⟨hd.not_mem (by decide), hd.not_mem (by decide), hd.not_mem (by decide), hd.not_mem (by decide)⟩

theorem Firm.breaks {d : UInt8} (hd : Firm d) : d ∉ b!"  \n\n" ∧ d ∉ b!"  \n  \n" ∧ d ∉ b!"  \n \n" := by
  obtain ⟨h1, h2⟩ := hd
  refine ⟨?_, ?_, ?_⟩ <;> simp [h1, h2]

theorem breaks_behind {d : UInt8} (hd : Firm d) (x z : Bytes) :
    trimUnnecessaryHardLineBreaks (x ++ [d] ++ z) = trimUnnecessaryHardLineBreaks (x ++ [d]) ++ trimUnnecessaryHardLineBreaks z := by
  obtain ⟨h1, h2, h3⟩ := hd.breaks
  simp only [trimUnnecessaryHardLineBreaks]
  rw [replace_behind _ h1 (by decide)]
  obtain ⟨x1, e1⟩ := replace_ends b!"\n\n" h1 (by decide) x
  rw [e1, replace_behind _ h2 (by decide)]
  obtain ⟨x2, e2⟩ := replace_ends b!"\n\n" h2 (by decide) x1
  rw [e2, replace_behind _ h3 (by decide)]

theorem breaks_ends {d : UInt8} (hd : Firm d) (x : Bytes) : ∃ x', trimUnnecessaryHardLineBreaks (x ++ [d]) = x' ++ [d] := by
  obtain ⟨h1, h2, h3⟩ := hd.breaks
  simp only [trimUnnecessaryHardLineBreaks]
  obtain ⟨x1, e1⟩ := replace_ends b!"\n\n" h1 (by decide) x
  obtain ⟨x2, e2⟩ := replace_ends b!"\n\n" h2 (by decide) x1
  rw [e1, e2]
  exact replace_ends _ h3 (by decide) _

/-! ## All steps -/

/-- The steps behind the first one. -/
def finish (mode : Mode) (hs : List Handler) (s : Bytes) : Bytes :=
  restoreCodeNewlines (unEscapeContent mode hs (trimUnnecessaryHardLineBreaks (trimConsecutiveNewlines s)))

theorem unEscape_nil (mode : Mode) (hs : List Handler) : unEscapeContent mode hs [] = [] := by
  cases mode with
  | disabled => rfl
  | smart => exact unEscape_enc [] (by simp)

theorem finish_nil (mode : Mode) (hs : List Handler) : finish mode hs [] = [] := by
  show restoreCodeNewlines (unEscapeContent mode hs []) = []
  rw [unEscape_nil]; rfl

theorem trimRight_two (t : Bytes) : trimRight (NL :: NL :: t) = [] ∨ ∃ t', trimRight (NL :: NL :: t) = NL :: NL :: t' := by
  obtain ⟨r, hr, hs, hn⟩ := trimRight_spec (NL :: NL :: t)
  generalize trimRight (NL :: NL :: t) = u at hs hn ⊢
  cases u with
  | nil => exact .inl rfl
  | cons a u =>
    rw [List.cons_append, List.cons.injEq] at hs
    cases u with
    | nil => exact absurd (List.suffix_refl [a]) (hn [a] (by rw [← hs.1]; decide))
    | cons b u =>
      rw [List.cons_append, List.cons.injEq] at hs
      exact .inr ⟨u, by rw [← hs.1, ← hs.2.1]⟩

theorem replace_two {old : Bytes} {o : List UInt8} (e : old = SP :: o) (new t : Bytes) : replaceAll old new (NL :: NL :: t) = NL :: NL :: replaceAll old new t := by
  subst e
  have hno : ∀ s : Bytes, ¬ (SP :: o) <+: NL :: s := by
    intro s h
    rw [List.cons_prefix_cons] at h
    exact absurd h.1 (by decide)
  rw [replaceAll_nomatch (hno _), replaceAll_nomatch (hno _)]

theorem tidy_two (t : Bytes) : ∃ t', trimUnnecessaryHardLineBreaks (trimConsecutiveNewlines (NL :: NL :: t)) = NL :: NL :: t' := by
  have e : trimConsecutiveNewlines (NL :: NL :: t) = NL :: NL :: trimNewlinesGo 2 [] t := by simp [trimConsecutiveNewlines, trimNewlinesGo]
  rw [e]
  simp only [trimUnnecessaryHardLineBreaks]
  rw [replace_two rfl, replace_two rfl, replace_two rfl]
  exact ⟨_, rfl⟩

/-! ### White space at the end of what is before a blank line -/

/-- The bytes do not end with white space. -/
def Solid (s : Bytes) : Prop := s ≠ [] ∧ NoTrailingWhitespace s

theorem ws_newline : ∀ w ∈ whitespace, NL ∈ w → w = [NL] := by decide

theorem Solid.behind {s : Bytes} (h : Solid s) (x : Bytes) : Solid (x ++ NL :: s) := by
  refine ⟨by simp, fun w hw hs => ?_⟩
  obtain ⟨q, hq⟩ := hs
  have hq' : q ++ w = (x ++ [NL]) ++ s := by rw [hq]; simp
  rcases List.append_eq_append_iff.1 hq' with ⟨a, h1, h2⟩ | ⟨a, h1, h2⟩
  · rcases List.eq_nil_or_concat a with rfl | ⟨a', c, rfl⟩
    · exact h.2 w hw (by rw [h2]; exact List.suffix_refl _)
    · rw [List.concat_eq_append] at h1 h2
      rw [← List.append_assoc] at h1
      have hc := List.append_inj_right' h1 rfl
      simp only [List.cons.injEq, and_true] at hc
      subst hc
      have := ws_newline w hw (by rw [h2]; simp)
      rw [this] at h2
      cases a' with
      | nil => simp at h2; exact h.1 h2
      | cons c a' => simp at h2
  · exact h.2 w hw ⟨a, h2.symm⟩

theorem Solid.of_suffix {s t : Bytes} (h : Solid s) (ht : t <:+ s) (hne : t ≠ []) : Solid t := ⟨hne, fun w hw hs => h.2 w hw (hs.trans ht)⟩

theorem Solid.last {s : Bytes} (h : Solid s) : ∃ x d, s = x ++ [d] ∧ Firm d := by
  rcases List.eq_nil_or_concat s with rfl | ⟨x, d, rfl⟩
  · exact absurd rfl h.1
  rw [List.concat_eq_append] at *
  refine ⟨x, d, rfl, ?_, ?_⟩
  · rintro rfl; exact h.2 [NL] (by decide) ⟨x, rfl⟩
  · rintro rfl; exact h.2 [SP] (by decide) ⟨x, rfl⟩

theorem Ink.solid {d : UInt8} (hd : Ink d) (x : Bytes) : Solid (x ++ [d]) := by
  refine ⟨by simp, fun w hw hs => ?_⟩
  obtain ⟨q, hq⟩ := hs
  rcases List.eq_nil_or_concat w with rfl | ⟨w', c, rfl⟩
  · exact absurd hw (by decide)
  rw [List.concat_eq_append] at *
  rw [← List.append_assoc] at hq
  have hc := List.append_inj_right' hq rfl
  simp only [List.cons.injEq, and_true] at hc
  exact hd.ws _ hw (by simp [hc])

theorem Solid.trimLeft {s : Bytes} (h : Solid s) : Solid (trimLeft s) := by
  obtain ⟨l, ⟨ws, hws, hl⟩, hs, -⟩ := trimLeft_spec s
  refine h.of_suffix ⟨l, hs.symm⟩ ?_
  intro he
  rw [he, List.append_nil] at hs
  rcases List.eq_nil_or_concat ws with rfl | ⟨ws', w, rfl⟩
  · exact h.1 (by rw [hs, ← hl]; rfl)
  · refine h.2 w (hws w (by simp)) ?_
    rw [hs, ← hl]
    exact ⟨ws'.flatten, by simp⟩

theorem Solid.trimLeft_append {s : Bytes} (h : Solid s) {z : Bytes} (hz : z = [] ∨ ∃ z', z = NL :: z') : Verif.trimLeft (s ++ z) = Verif.trimLeft s ++ z := by
  have hne := h.trimLeft.1
  obtain ⟨l, hl, hs, hn⟩ := trimLeft_spec s
  generalize Verif.trimLeft s = t at hs hn hne ⊢
  rw [hs, List.append_assoc, trimLeft_ws hl]
  apply trimLeft_eq
  intro w hw hp
  obtain ⟨q, hq⟩ := hp
  rcases List.append_eq_append_iff.1 hq with ⟨t', h, -⟩ | ⟨t', rfl, h⟩
  · exact hn w hw ⟨t', h.symm⟩
  · rcases hz with rfl | ⟨z', rfl⟩
    · have := List.append_eq_nil_iff.1 h.symm
      rw [this.1] at hw
      exact hn t (by simpa using hw) (List.prefix_refl _)
    · cases t' with
      | nil => exact hn t (by simpa using hw) (List.prefix_refl _)
      | cons c t' =>
        rw [List.cons_append, List.cons.injEq] at h
        have := ws_newline _ hw (by simp [h.1])
        cases t with
        | nil => exact hne rfl
        | cons a t => simp at this

theorem Solid.trimRight_append {s : Bytes} (h : Solid s) {z : Bytes} (hz : z = [] ∨ ∃ z', z = NL :: z') : Verif.trimRight (s ++ z) = s ++ Verif.trimRight z := by
  obtain ⟨r, hr, hs, hn⟩ := trimRight_spec z
  generalize Verif.trimRight z = t at hs hn ⊢
  rw [hs, ← List.append_assoc, trimRight_ws hr]
  apply trimRight_eq
  cases t with
  | nil => rw [List.append_nil]; exact h.2
  | cons c t =>
    have hc : c = NL := by
      rcases hz with rfl | ⟨z', rfl⟩
      · simp at hs
      · rw [List.cons_append, List.cons.injEq] at hs; exact hs.1.symm
    subst hc
    cases t with
    | nil => exact absurd (List.suffix_refl _) (hn [NL] (by decide))
    | cons c t =>
      have := Solid.behind (s := c :: t) ⟨by simp, fun w hw hs => hn w hw (hs.trans (List.suffix_cons _ _))⟩ s
      exact this.2

theorem post_cut {dig : Nat → Bool} {hs : List Handler} (hst : Escape.IsStock dig hs) (h0 : dig 0 = false) (h1 : dig 10 = false) (mode : Mode)
    {x : Bytes} (hx : Solid x) (t : Bytes) :
    postRender mode hs (x ++ NL :: NL :: t) = postRender mode hs x ++ finish mode hs (trimRight (NL :: NL :: t)) ∧
      (finish mode hs (trimRight (NL :: NL :: t)) = [] ∨ ∃ v, finish mode hs (trimRight (NL :: NL :: t)) = NL :: NL :: v) := by
  have htx : ∀ z, (z = [] ∨ ∃ z', z = NL :: z') → trimSpace (x ++ z) = trimLeft x ++ trimRight z := by
    intro z hz
    rw [trimSpace, hx.trimLeft_append hz, hx.trimLeft.trimRight_append hz]
  have htx0 : trimSpace x = trimLeft x := by rw [trimSpace, trimRight_eq hx.trimLeft.2]
  have key : ∀ z, (z = [] ∨ ∃ t', z = NL :: NL :: t') → finish mode hs (trimLeft x ++ z) = finish mode hs (trimLeft x) ++ finish mode hs z ∧
      (finish mode hs z = [] ∨ ∃ v, finish mode hs z = NL :: NL :: v) := by
    intro z hz
    rcases hz with rfl | ⟨t', rfl⟩
    · rw [finish_nil]; simp
    · obtain ⟨x1, d, e1, hd⟩ := hx.trimLeft.last
      obtain ⟨x2, e2⟩ := newlines_ends hd x1 0 []
      have e3 : trimUnnecessaryHardLineBreaks (trimConsecutiveNewlines (x1 ++ [d] ++ NL :: NL :: t')) =
          trimUnnecessaryHardLineBreaks (trimConsecutiveNewlines (x1 ++ [d])) ++ trimUnnecessaryHardLineBreaks (trimConsecutiveNewlines (NL :: NL :: t')) := by
        rw [trimConsecutiveNewlines, newlines_behind hd, e2, breaks_behind hd, ← e2]
        rfl
      obtain ⟨t2, e4⟩ := tidy_two t'
      have e5 : unEscapeContent mode hs (NL :: NL :: t2) = NL :: NL :: unEscapeContent mode hs t2 := by
        have := unEscape_split hst h0 h1 mode [] t2
        rw [List.nil_append, unEscape_nil] at this
        exact this
      have hr : ∀ u v, restoreCodeNewlines (u ++ NL :: v) = restoreCodeNewlines u ++ NL :: restoreCodeNewlines v := by
        intro u v
        exact replaceAll_cut [NL] (by decide) (by decide) u v
      have hr0 : ∀ v, restoreCodeNewlines (NL :: v) = NL :: restoreCodeNewlines v := fun v => hr [] v
      rw [e1, finish, e3, e4, unEscape_split hst h0 h1 mode, hr, hr0, finish, finish, e4, e5, hr0, hr0]
      exact ⟨rfl, .inr ⟨_, rfl⟩⟩
  have hz := key _ (trimRight_two t)
  refine ⟨?_, hz.2⟩
  show finish mode hs (trimSpace _) = finish mode hs (trimSpace _) ++ _
  rw [htx _ (.inr ⟨_, rfl⟩), htx0, hz.1]

/-- A line of visible ASCII characters and spaces. -/
structure Line (r : Bytes) : Prop where
  ne : r ≠ []
  chars : ∀ b ∈ r, Ink b ∨ b = 32
  first : r.head? ≠ some 32
  last : r.getLast? ≠ some 32

theorem Line.of_rule {r : Bytes} (hr : PlainRule r) : Line r := by
  refine ⟨hr.ne, fun b hb => ?_, hr.first, hr.last⟩
  rcases hr.chars b hb with h | h | h | h
  · exact .inl (.of_rule (.inl h))
  · exact .inl (.of_rule (.inr (.inl h)))
  · exact .inl (.of_rule (.inr (.inr h)))
  · exact .inr h

theorem Line.not_mem {r : Bytes} (hr : Line r) {b : UInt8} (h1 : inkless [b] = true) (h2 : b ≠ 32) : b ∉ r := by
  intro h
  rcases hr.chars b h with h | h
  · exact h.not_mem h1 (by simp)
  · exact h2 h

/-- A rule alone, behind empty lines. -/
theorem post_rule (mode : Mode) (hs : List Handler) {r p : Bytes} (hr : Line r) (hp : ∀ b ∈ p, b = NL) : postRender mode hs (p ++ r) = r := by
  have hnl : NL ∉ r := hr.not_mem (by decide) (by decide)
  have hrc : ∀ b ∈ r, b ≠ 32 → Ink b := by
    intro b hb h
    rcases hr.chars b hb with h' | h'
    · exact h'
    · exact absurd h' h
  have hws : Spec.AllWhitespace p := by
    refine ⟨p.map fun _ => [NL], ?_, ?_⟩
    · intro w hw
      obtain ⟨b, -, rfl⟩ := List.mem_map.1 hw
      decide
    · clear hr hnl hrc
      induction p with
      | nil => rfl
      | cons b p ih => simp [ih fun x hx => hp x (by simp [hx]), hp b (by simp)]
  have hlead : NoLeadingWhitespace r := by
    rcases hr' : r with _ | ⟨b, r'⟩
    · exact absurd hr' hr.ne
    · intro w hw hpre
      have hb := hr.first
      rw [hr'] at hb
      simp only [List.head?_cons, ne_eq, Option.some.injEq] at hb
      have := (hrc b (by rw [hr']; simp) hb).ws w hw
      cases w with
      | nil => exact absurd hw (by decide)
      | cons c w =>
        rw [List.cons_prefix_cons] at hpre
        exact this (by simp [hpre.1])
  have htrail : NoTrailingWhitespace r := by
    rcases List.eq_nil_or_concat r with hr' | ⟨r', b, hr'⟩
    · exact absurd hr' hr.ne
    · rw [List.concat_eq_append] at hr'
      intro w hw hsuf
      have hb := hr.last
      rw [hr'] at hb
      simp only [List.getLast?_append, List.getLast?_singleton, Option.some_or, ne_eq, Option.some.injEq] at hb
      have := (hrc b (by rw [hr']; simp) hb).ws w hw
      rcases List.eq_nil_or_concat w with rfl | ⟨w', c, rfl⟩
      · exact absurd hw (by decide)
      · rw [List.concat_eq_append] at hsuf this
        rw [hr'] at hsuf
        obtain ⟨u, hu⟩ := hsuf
        rw [← List.append_assoc] at hu
        have he := List.append_inj_right' hu rfl
        simp only [List.cons.injEq, and_true] at he
        exact this (by simp [he])
  have htrim : trimSpace (p ++ r) = r := by
    rw [trimSpace, trimLeft_ws hws, trimLeft_eq hlead, trimRight_eq htrail]
  have htc : ∀ (s : Bytes) k buf, NL ∉ s → trimNewlinesGo k buf s = buf ++ s := by
    intro s
    induction s with
    | nil => intro k buf _; simp [trimNewlinesGo]
    | cons b s ih =>
      intro k buf h
      simp only [List.mem_cons, not_or] at h
      rw [trimNewlinesGo, if_neg (Ne.symm h.1)]
      split
      · rename_i hb; rw [ih _ _ h.2, hb]; simp
      · rw [ih _ _ h.2]; simp
  have hid : ∀ old new : Bytes, (∃ b ∈ old, b ∉ r) → replaceAll old new r = r := by
    intro old new ⟨b, hb, hn⟩
    exact replaceAll_id fun hi => hn (hi.subset hb)
  have hun : unEscapeContent mode hs r = r := by
    cases mode with
    | disabled => rfl
    | smart =>
      have e : ∀ s : Bytes, encToks (s.map (false, ·)) = s ∧ renToks (s.map (false, ·)) = s ∧ ∀ rev k, W hs rev k (s.map (false, ·)) = s.map (false, ·) := by
        intro s
        induction s with
        | nil => exact ⟨rfl, rfl, fun _ _ => by simp [W]⟩
        | cons b s ih =>
          refine ⟨by rw [List.map_cons, encToks_cons_f, ih.1], by rw [List.map_cons, renToks_cons_f, ih.2.1], fun rev k => ?_⟩
          rw [List.map_cons, W, ih.2.2]
      obtain ⟨e1, e2, e3⟩ := e r
      have := unEscape_enc (hs := hs) (r.map (false, ·)) (by
        intro t ht
        obtain ⟨b, hb, rfl⟩ := List.mem_map.1 ht
        intro h7
        simp only at h7
        exact hr.not_mem (b := 7) (by decide) (by decide) (h7 ▸ hb))
      rw [e1, e3, e2] at this
      exact this
  have h239 : (239 : UInt8) ∉ r := hr.not_mem (by decide) (by decide)
  show restoreCodeNewlines (unEscapeContent mode hs (trimUnnecessaryHardLineBreaks (trimConsecutiveNewlines (trimSpace (p ++ r))))) = r
  rw [htrim, trimConsecutiveNewlines, htc r 0 [] hnl, List.nil_append]
  simp only [trimUnnecessaryHardLineBreaks]
  rw [hid _ _ ⟨NL, by decide, hnl⟩, hid _ _ ⟨NL, by decide, hnl⟩, hid _ _ ⟨NL, by decide, hnl⟩, hun, restoreCodeNewlines, hid _ _ ⟨239, by decide, h239⟩]

theorem newlines_front {d : UInt8} (hd : Ink d) (z : Bytes) : ∀ (x : Bytes) (k : Nat) (buf : Bytes),
    trimNewlinesGo k buf (x ++ d :: z) = trimNewlinesGo k buf x ++ d :: trimNewlinesGo 0 [] z := by
  intro x
  induction x with
  | nil => intro k buf; simp [trimNewlinesGo, hd.ne]
  | cons b x ih =>
    intro k buf
    simp only [List.cons_append, trimNewlinesGo]
    split
    · split
      · rw [ih]; simp
      · rw [ih]
    · split
      · rw [ih]
      · rw [ih]; simp

theorem newlines_line : ∀ (s : Bytes) (k : Nat) (buf : Bytes), NL ∉ s → trimNewlinesGo k buf s = buf ++ s := by
  intro s
  induction s with
  | nil => intro k buf _; simp [trimNewlinesGo]
  | cons b s ih =>
    intro k buf h
    simp only [List.mem_cons, not_or] at h
    rw [trimNewlinesGo, if_neg (Ne.symm h.1)]
    split
    · rename_i hb; rw [ih _ _ h.2, hb]; simp
    · rw [ih _ _ h.2]; simp

/-- What ends with a rule still ends with it afterwards. -/
theorem post_ends (mode : Mode) (hs : List Handler) {r : Bytes} (x : Bytes) (hr : Line r) :
    ∃ u, postRender mode hs (x ++ r) = u ++ r := by
  have hnl : NL ∉ r := hr.not_mem (by decide) (by decide)
  have h7 : ∀ b ∈ r, b ≠ MARK := by
    intro b hb e
    exact hr.not_mem (b := MARK) (by decide) (by decide) (e ▸ hb)
  have h239 : (239 : UInt8) ∉ r := hr.not_mem (by decide) (by decide)
  rcases hr' : r with _ | ⟨d, y⟩
  · exact absurd hr' hr.ne
  have hd : Ink d := by
    have hb := hr.first
    rw [hr'] at hb
    simp only [List.head?_cons, ne_eq, Option.some.injEq] at hb
    rcases hr.chars d (by rw [hr']; simp) with h | h
    · exact h
    · exact absurd h hb
  rcases List.eq_nil_or_concat r with he | ⟨r0, d', he⟩
  · exact absurd he hr.ne
  rw [List.concat_eq_append] at he
  have hd' : Ink d' := by
    have hb := hr.last
    rw [he] at hb
    simp only [List.getLast?_append, List.getLast?_singleton, Option.some_or, ne_eq, Option.some.injEq] at hb
    rcases hr.chars d' (by rw [he]; simp) with h | h
    · exact h
    · exact absurd h hb
  obtain ⟨x', hx', e1⟩ := trimLeft_cut hd.ws x y
  have e2 : trimSpace (x ++ d :: y) = x' ++ d :: y := by
    have h1 := trimRight_behind hd' (x' ++ r0) []
    have h2 : trimRight [] = [] := rfl
    rw [List.append_assoc, List.append_assoc, List.append_assoc, h2] at h1
    rw [trimSpace, e1, ← hr', he]
    simpa using h1
  rw [hr'] at hnl h7 h239
  simp only [List.mem_cons, not_or] at hnl h239
  have e3 : trimUnnecessaryHardLineBreaks (trimConsecutiveNewlines (x' ++ d :: y)) = trimUnnecessaryHardLineBreaks (trimConsecutiveNewlines x') ++ d :: y := by
    obtain ⟨b1, b2, b3, -⟩ := hd.breaks
    have hid : ∀ old new : Bytes, NL ∈ old → replaceAll old new y = y := by
      intro old new h
      exact replaceAll_id fun hi => hnl.2 (hi.subset h)
    rw [trimConsecutiveNewlines, newlines_front hd, newlines_line y 0 [] hnl.2, List.nil_append]
    simp only [trimUnnecessaryHardLineBreaks, trimConsecutiveNewlines]
    rw [replaceAll_cut _ b1 (by decide), hid _ _ (by decide), replaceAll_cut _ b2 (by decide), hid _ _ (by decide),
      replaceAll_cut _ b3 (by decide), hid _ _ (by decide)]
  have e4 : ∃ u, unEscapeContent mode hs (trimUnnecessaryHardLineBreaks (trimConsecutiveNewlines x') ++ d :: y) = u ++ d :: y := by
    cases mode with
    | disabled => exact ⟨_, rfl⟩
    | smart =>
      rw [unEscapeContent, applyChanges_append, applyChanges_nomark _ _ fun h => h7 _ h rfl]
      exact ⟨_, rfl⟩
  obtain ⟨u, e4⟩ := e4
  refine ⟨restoreCodeNewlines u, ?_⟩
  show restoreCodeNewlines (unEscapeContent mode hs (trimUnnecessaryHardLineBreaks (trimConsecutiveNewlines (trimSpace (x ++ d :: y))))) = _
  rw [e2, e3, e4, restoreCodeNewlines, replaceAll_cut _ hd.breaks.2.2.2 (by decide),
    replaceAll_id (s := y) fun hi => h239.2 (hi.subset (by decide))]
  rfl

end Verif.Cut
