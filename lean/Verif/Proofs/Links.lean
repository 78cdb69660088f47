import Verif.Spec.Links
import Verif.Props.Titles
import Verif.Props.Spaces
import Verif.Props.Newlines
import Verif.Proofs.TableCells
import Verif.Proofs.EscapeInline
/-!
# Lemmas about links and images
-/

namespace Verif.Links
open Verif Verif.Commonmark Verif.TextUtils Verif.Escape

theorem readBracket_cons {b : UInt8} (h : b ≠ 92) (d : Nat) (c : UInt8) (s : Bytes) :
    Spec.readBracket d (b :: c :: s) = if b = 93 ∧ d = 0 then some ([], c :: s)
      else (Spec.readBracket (if b = 91 then d + 1 else if b = 93 then d - 1 else d) (c :: s)).map fun r => (b :: r.1, r.2) := by
  rw [Spec.readBracket, if_neg (by simp [h])]

/-- Enclosed text is passed, and the number of open brackets stays. -/
theorem readBracket_enclosed {t : Bytes} (h : Spec.Enclosed t) : ∀ (d : Nat) (rest : Bytes),
    Spec.readBracket d (t ++ 93 :: rest) = (Spec.readBracket d (93 :: rest)).map fun r => (t ++ r.1, r.2) := by
  have hd : ∀ (s rest : Bytes), ∃ c r, s ++ 93 :: rest = c :: r := by
    intro s rest; cases s <;> simp
  have key : ∀ {b : UInt8} {s : Bytes}, b ≠ 91 → b ≠ 93 → (∀ c r, ∀ rest, s ++ 93 :: rest = c :: r → ¬ (b = 92 ∧ Spec.isPunct c = true)) →
      (∀ (d : Nat) (rest : Bytes), Spec.readBracket d (s ++ 93 :: rest) = (Spec.readBracket d (93 :: rest)).map fun r => (s ++ r.1, r.2)) →
      ∀ (d : Nat) (rest : Bytes), Spec.readBracket d (b :: s ++ 93 :: rest) = (Spec.readBracket d (93 :: rest)).map fun r => (b :: s ++ r.1, r.2) := by
    intro b s h1 h2 h3 ih d rest
    obtain ⟨c, r, hcr⟩ := hd s rest
    have := h3 c r rest hcr
    rw [List.cons_append, hcr, Spec.readBracket, if_neg (by simpa using this), if_neg (by simp [h2]), ← hcr, if_neg h1, if_neg h2, ih]
    simp [Function.comp_def]
  induction h with
  | nil => intro d rest; simp
  | @escaped c s h1 _ ih =>
    intro d rest
    rw [List.cons_append, List.cons_append, Spec.readBracket, if_pos (by simp [h1]), ih]
    simp [Function.comp_def]
  | @plain b s h1 h2 h3 _ ih => exact key h1 h2 (fun c r rest _ h => h3 h.1) ih
  | @backslash c s h1 _ ih =>
    refine key (by decide) (by decide) ?_ ih
    intro c' r rest h
    simp at h
    rw [← h.1, h1]; simp
  | @brackets s t _ _ ih1 ih2 =>
    intro d rest
    obtain ⟨c, r, hcr⟩ := hd s (t ++ 93 :: rest)
    obtain ⟨c', r', hcr'⟩ := hd t rest
    rw [List.cons_append, List.append_assoc, List.cons_append, hcr, readBracket_cons (by decide), if_neg (by simp), ← hcr, if_pos rfl,
      ih1, hcr', readBracket_cons (by decide), if_neg (by simp), ← hcr', if_neg (by decide), if_pos rfl, Nat.add_sub_cancel, ih2]
    simp [Function.comp_def]

theorem readBracket_close {t : Bytes} (h : Spec.Enclosed t) (rest : Bytes) :
    Spec.readBracket 0 (t ++ 93 :: rest) = some (t, rest) := by
  rw [readBracket_enclosed h]
  cases rest with
  | nil => simp [Spec.readBracket]
  | cons c rest => rw [readBracket_cons (by decide), if_pos ⟨rfl, rfl⟩]; simp

theorem readDestination_plain {d : Bytes} (h : Spec.PlainDestination d) {c : UInt8} (hc : c = 41 ∨ c = 32) (rest : Bytes) :
    Spec.readDestination 0 false (d ++ c :: rest) = (d, c :: rest) := by
  have main : ∀ (d : Bytes) (esc : Bool), (∀ b ∈ d, 32 < b ∧ b ≠ 127 ∧ b ∉ b!"()<>") → d.getLast? ≠ some 92 →
      (d = [] → esc = false) → Spec.readDestination 0 esc (d ++ c :: rest) = (d, c :: rest) := by
    intro d
    induction d with
    | nil =>
      intro esc _ _ he
      rw [he rfl]
      rcases hc with rfl | rfl <;> simp [Spec.readDestination]
    | cons b d ih =>
      intro esc h1 h2 _
      have hb := h1 b (by simp)
      have h1' : ∀ x ∈ d, 32 < x ∧ x ≠ 127 ∧ x ∉ b!"()<>" := fun x hx => h1 x (by simp [hx])
      have hne : b ≠ 40 ∧ b ≠ 41 := by
        obtain ⟨-, -, hm⟩ := hb
        constructor <;> rintro rfl <;> exact hm (by decide)
      have hle : ¬ b ≤ 32 := by
        have := hb.1
        rw [UInt8.le_iff_toNat_le]
        rw [UInt8.lt_iff_toNat_lt] at this
        omega
      have h2' : d.getLast? ≠ some 92 := by
        intro h
        apply h2
        rw [List.getLast?_cons, h]; rfl
      have step : ∀ esc', (d = [] → esc' = false) → Spec.readDestination 0 esc' (d ++ c :: rest) = (d, c :: rest) :=
        fun esc' he => ih esc' h1' h2' he
      rw [List.cons_append, Spec.readDestination]
      by_cases hx : (esc && Spec.isPunctuation b) = true
      · rw [if_pos hx]
        simp only [step false (fun _ => rfl)]
      · rw [if_neg hx, if_neg (by simp [hle, hb.2.1]), if_neg hne.1, if_neg hne.2]
        have : d = [] → decide (b = 92) = false := by
          rintro rfl
          simp only [decide_eq_false_iff_not]
          rintro rfl
          exact h2 rfl
        simp only [step _ this]
  exact main d false h.1 h.2 (fun _ => rfl)

theorem newlines_eq (s : Bytes) : replaceAll [NL] [SP] s = Spec.newlinesAsSpaces s := replaceAll_one_map NL SP s

/-- What is written for a text, a destination and a title is read as these. -/
theorem read_written {text dest title : Bytes} (h1 : Spec.Enclosed text) (h2 : Spec.PlainDestination dest)
    (h3 : Props.NoEscapes title) (rest : Bytes) :
    Spec.readInlineLink (91 :: (text ++ b!"](" ++ dest ++ titlePart title ++ b!")") ++ rest) = some (text, dest, title, rest) := by
  have e : 91 :: (text ++ b!"](" ++ dest ++ titlePart title ++ b!")") ++ rest =
      91 :: (text ++ 93 :: (40 :: (dest ++ (titlePart title ++ 41 :: rest)))) := by simp
  rw [e, Spec.readInlineLink, readBracket_close h1]
  by_cases ht : title = []
  · subst ht
    simp only [titlePart, ne_eq, not_true_eq_false, if_false, List.nil_append]
    rw [readDestination_plain h2 (.inl rfl)]
    rfl
  · obtain ⟨s, hs, hr⟩ := Props.c24_title_partial title (41 :: rest) ht h3
    rw [hs]
    simp only [List.cons_append]
    rw [readDestination_plain h2 (.inr rfl)]
    simp only [hr]

theorem tcn_of_no_newline : ∀ (s buf : Bytes) (k : Nat), 10 ∉ s → trimNewlinesGo k buf s = buf ++ s := by
  intro s
  induction s with
  | nil => intro buf k _; simp [trimNewlinesGo]
  | cons b s ih =>
    intro buf k h
    simp at h
    rw [trimNewlinesGo, if_neg (Ne.symm h.1)]
    split
    · rename_i hb; rw [ih _ _ h.2, hb]; simp
    · rw [ih _ _ h.2]; simp

theorem noEscapes_newlines {t : Bytes} (h : Props.NoEscapes t) : Props.NoEscapes (Spec.newlinesAsSpaces t) := by
  intro a b hab
  simp only [Spec.newlinesAsSpaces] at hab
  obtain ⟨a', b', rfl, -, hb⟩ := List.map_eq_append_iff.1 hab
  cases b' with
  | nil => simp at hb
  | cons x b' =>
    simp only [List.map_cons, List.cons.injEq] at hb
    have hx : x = 92 := by
      have := hb.1
      split at this
      · exact absurd this (by decide)
      · exact this
    subst hx
    obtain ⟨c, r, rfl, hc⟩ := h a' b' rfl
    refine ⟨_, _, hb.2.symm, ?_⟩
    show Spec.isPunct (if c = 10 then 32 else c) = false
    split
    · decide
    · exact hc

theorem escapeAlt_enclosed {alt : Bytes} (h : ¬ [92, 92] <:+: alt) (he : alt.getLast? ≠ some 92) : Spec.Enclosed (escapeAlt alt) := by
  have main : ∀ (n : Nat) (alt : Bytes) (prev : Option UInt8), alt.length ≤ n → prev ≠ some 92 →
      ¬ [92, 92] <:+: alt → alt.getLast? ≠ some 92 → Spec.Enclosed (escapeAltGo prev alt) := by
    intro n
    induction n with
    | zero =>
      intro alt prev hl _ _ _
      have : alt = [] := List.length_eq_zero_iff.1 (by omega)
      subst this; exact .nil
    | succ n ih =>
      intro alt prev hl hprev hno hend
      cases alt with
      | nil => exact .nil
      | cons x alt =>
        simp at hl
        have hno' : ¬ [92, 92] <:+: alt := fun hi => hno (hi.trans (List.suffix_cons x alt).isInfix)
        have hend' : alt.getLast? ≠ some 92 := by
          intro h; apply hend; rw [List.getLast?_cons, h]; rfl
        rw [escapeAltGo]
        by_cases hx : (x = 91 ∨ x = 93) ∧ prev ≠ some 92
        · rw [if_pos hx]
          refine .escaped (by rcases hx.1 with rfl | rfl <;> decide) ?_
          exact ih alt (some x) hl (by rcases hx.1 with rfl | rfl <;> decide) hno' hend'
        · rw [if_neg hx]
          have hx' : ¬ (x = 91 ∨ x = 93) := fun h' => hx ⟨h', hprev⟩
          by_cases h92 : x = 92
          · subst h92
            cases alt with
            | nil => exact absurd rfl hend
            | cons y alt =>
              have hy : y ≠ 92 := by
                rintro rfl; exact hno ⟨[], alt, rfl⟩
              rw [escapeAltGo, if_neg (by simp)]
              by_cases hyp : Spec.isPunct y = true
              · refine .escaped hyp ?_
                refine ih alt (some y) (by simp at hl; omega) (by simpa using hy) ?_ ?_
                · exact fun hi => hno' (hi.trans (List.suffix_cons y alt).isInfix)
                · intro h; apply hend'; rw [List.getLast?_cons, h]; rfl
              · have e : y :: escapeAltGo (some y) alt = escapeAltGo none (y :: alt) := by
                  rw [escapeAltGo, if_neg]
                  rintro ⟨h' | h', -⟩ <;> subst h' <;> exact hyp (by decide)
                refine .backslash (by simpa using hyp) ?_
                rw [e]
                exact ih (y :: alt) none (by simpa using hl) (by simp) hno' hend'
          · simp only [not_or] at hx'
            exact .plain hx'.1 hx'.2 h92 (ih alt (some x) hl (by simpa using h92) hno' hend')
  exact main _ alt none (Nat.le_refl _) (by simp) h he

/-! ## Texts in links -/

/-- Tokens of a text, in which closing brackets are escaped, and the text. -/
inductive LinkToks : Toks → Bytes → Prop
  | nil : LinkToks [] []
  | close {ts t} : LinkToks ts t → LinkToks ((false, 92) :: (false, 93) :: ts) (93 :: t)
  | plain {c ts t} : c ≠ 91 → c ≠ 92 → c ≠ 93 → LinkToks ts t → LinkToks ((false, c) :: ts) (c :: t)
  | marked {c ts t} : c ≠ 93 → Spec.isPunct c = true → LinkToks ts t → LinkToks ((true, c) :: ts) (c :: t)

/-- The tokens after marked closing brackets have been replaced. -/
def closeToks (ts : Toks) : Toks := ts.flatMap fun t => if t = (true, 93) then [(false, 92), (false, 93)] else [t]

theorem replaceClose_enc : ∀ (ts : Toks), WF ts → replaceAll [MARK, 93] [BS, 93] (encToks ts) = encToks (closeToks ts) := by
  intro ts
  induction ts with
  | nil => intro _; rfl
  | cons t ts ih =>
    intro hw
    have ih := ih hw.tail
    have hc := hw.head.1
    obtain ⟨m, c⟩ := t
    cases m with
    | false =>
      rw [encToks_cons_f, replaceAll_nomatch (by intro h; simp at h; exact hc h.1.symm), ih]
      simp [closeToks]
    | true =>
      by_cases hp : c = 93
      · subst hp
        have := replaceAll_match [MARK, 93] [BS, 93] (encToks ts) (by simp)
        simp only [List.cons_append, List.nil_append] at this
        rw [encToks_cons_t, this, ih]
        simp [closeToks]
      · rw [encToks_cons_t, replaceAll_nomatch (by intro h; simp at h; exact hp h.symm),
          replaceAll_nomatch (by intro h; simp at h; exact hc h.1.symm), ih]
        simp [closeToks, hp]

theorem closeToks_wf {ts : Toks} (h : WF ts) : WF (closeToks ts) := by
  intro t ht
  simp only [closeToks, List.mem_flatMap] at ht
  obtain ⟨x, hx, ht⟩ := ht
  split at ht
  · simp at ht
    rcases ht with rfl | rfl <;> exact ⟨by decide, by simp⟩
  · simp at ht; subst ht; exact h t hx

theorem closeToks_text : ∀ (t : Bytes), 0 ∉ t → LinkToks (closeToks (textToks t)) t := by
  intro t
  induction t with
  | nil => intro _; exact .nil
  | cons b t ih =>
    intro h
    simp at h
    have ih := ih h.2
    simp only [textToks, if_neg (Ne.symm h.1)]
    by_cases hb : b ∈ commonmarkChars
    · by_cases h93 : b = 93
      · subst h93
        simpa [closeToks, hb] using LinkToks.close ih
      · simpa [closeToks, hb, h93] using LinkToks.marked h93 (commonmarkChars_lt b hb).2.2 ih
    · have h1 : b ≠ 91 := by rintro rfl; exact hb (by decide)
      have h2 : b ≠ 92 := by rintro rfl; exact hb (by decide)
      have h3 : b ≠ 93 := by rintro rfl; exact hb (by decide)
      simpa [closeToks, hb] using LinkToks.plain h1 h2 h3 ih

/-- Link tokens can be cut, unless between a backslash and its bracket. -/
theorem LinkToks.cut_left : ∀ (a b : Toks) (t : Bytes), LinkToks (a ++ b) t → (∀ x ∈ a, x.1 = false ∧ x.2 ≠ 92) →
    ∃ t2, t = a.map Prod.snd ++ t2 ∧ LinkToks b t2 := by
  intro a
  induction a with
  | nil => intro b t h _; exact ⟨t, rfl, h⟩
  | cons x a ih =>
    intro b t h hx
    have h1 := hx x (by simp)
    have h2 : ∀ y ∈ a, y.1 = false ∧ y.2 ≠ 92 := fun y hy => hx y (by simp [hy])
    rw [List.cons_append] at h
    generalize hL : x :: (a ++ b) = L at h
    cases h with
    | nil => simp at hL
    | close h => simp at hL; rw [hL.1] at h1; simp at h1
    | plain g1 g2 g3 h =>
      simp at hL
      rw [← hL.2] at h
      obtain ⟨t2, rfl, h'⟩ := ih b _ h h2
      exact ⟨t2, by simp [hL.1], h'⟩
    | marked g1 g2 h => simp at hL; rw [hL.1] at h1; simp at h1

theorem LinkToks.cut_right : ∀ (a b : Toks) (t : Bytes), LinkToks (a ++ b) t → (∀ x ∈ b, x.1 = false ∧ x.2 ≠ 92 ∧ x.2 ≠ 93) →
    ∃ t1, t = t1 ++ b.map Prod.snd ∧ LinkToks a t1 := by
  intro a b t h
  generalize hL : a ++ b = L at h
  induction h generalizing a with
  | nil => intro _; simp at hL; rw [hL.1, hL.2]; exact ⟨[], rfl, .nil⟩
  | @close ts t h ih =>
    intro hb
    cases a with
    | nil =>
      rw [List.nil_append] at hL; subst hL
      exact absurd rfl (hb (false, 93) (by simp)).2.2
    | cons x a =>
      cases a with
      | nil =>
        simp at hL
        exact absurd rfl (hb (false, 93) (by rw [hL.2]; simp)).2.2
      | cons y a =>
        simp at hL
        obtain ⟨t1, rfl, h'⟩ := ih a hL.2.2 hb
        refine ⟨93 :: t1, rfl, ?_⟩
        rw [hL.1, hL.2.1]; exact .close h'
  | @plain c ts t h1 h2 h3 h ih =>
    intro hb
    cases a with
    | nil =>
      rw [List.nil_append] at hL; subst hL
      obtain ⟨t1, e1, e2⟩ := LinkToks.cut_left ((false, c) :: ts) [] (c :: t) (by simpa using LinkToks.plain h1 h2 h3 h) (by
        intro x hx
        exact ⟨(hb x hx).1, (hb x hx).2.1⟩)
      cases e2
      exact ⟨[], by simpa using e1, .nil⟩
    | cons x a =>
      simp at hL
      obtain ⟨t1, rfl, h'⟩ := ih a hL.2 hb
      refine ⟨c :: t1, rfl, ?_⟩
      rw [hL.1]; exact .plain h1 h2 h3 h'
  | @marked c ts t h1 h2 h ih =>
    intro hb
    cases a with
    | nil =>
      rw [List.nil_append] at hL; subst hL
      exact absurd (hb (true, c) (by simp)).1 (by simp)
    | cons x a =>
      simp at hL
      obtain ⟨t1, rfl, h'⟩ := ih a hL.2 hb
      refine ⟨c :: t1, rfl, ?_⟩
      rw [hL.1]; exact .marked h1 h2 h'

theorem LinkToks.punct {ts : Toks} {t : Bytes} (h : LinkToks ts t) : ∀ x ∈ ts, x.1 = true → Spec.isPunct x.2 = true := by
  induction h with
  | nil => simp
  | close _ ih => grind
  | plain _ _ _ _ ih => grind
  | marked _ h _ ih => grind

theorem LinkToks.no_newline {ts : Toks} {t : Bytes} (h : LinkToks ts t) : NL ∉ t → NL ∉ encToks ts := by
  induction h with
  | nil => simp
  | close _ ih =>
    intro hn hm
    simp only [encToks_cons_f, List.mem_cons] at hm
    rcases hm with h | h | h
    · exact absurd h (by decide)
    · exact absurd h (by decide)
    · exact ih (fun hm => hn (by simp [hm])) h
  | plain _ _ _ _ ih =>
    intro hn hm
    simp only [encToks_cons_f, List.mem_cons] at hm hn
    rcases hm with h | h
    · exact hn (.inl h)
    · exact ih (fun hm => hn (.inr hm)) h
  | marked _ _ _ ih =>
    intro hn hm
    simp only [encToks_cons_t, List.mem_cons] at hm hn
    rcases hm with h | h | h
    · exact absurd h (by decide)
    · exact hn (.inl h)
    · exact ih (fun hm => hn (.inr hm)) h

theorem titlePart_no_mark {t : Bytes} (h : MARK ∉ t) : MARK ∉ titlePart t := by
  rw [titlePart]
  split
  · have h2 : MARK ∉ replaceAll [34] [92, 34] t := by
      rw [replaceAll_one]
      intro hm
      obtain ⟨x, hx, hm⟩ := List.mem_flatMap.1 hm
      split at hm
      · simp at hm
      · simp at hm; exact h (hm ▸ hx)
    simp only [surroundByQuotes, surroundBy]
    intro hm
    rcases List.mem_cons.1 hm with hm | hm
    · exact absurd hm (by decide)
    · revert hm
      split
      · simp
      · split
        · simpa using h2
        · split <;> simpa using h
  · simp

theorem newlines_no_mark {t : Bytes} (h : MARK ∉ t) : MARK ∉ Spec.newlinesAsSpaces t := by
  intro hm
  simp only [Spec.newlinesAsSpaces, List.mem_map] at hm
  obtain ⟨x, hx, hm⟩ := hm
  split at hm
  · exact absurd hm (by decide)
  · exact h (hm ▸ hx)

theorem bracketLoop_found : ∀ (ts : Toks), WF ts → 93 ∈ (ts.map Prod.snd).takeWhile (· != NL) →
    bracketLoop (encToks ts) = some 1 := by
  intro ts hw h
  cases hb : bracketLoop (encToks ts) with
  | none => exact absurd h (bracketLoop_none ts hw hb)
  | some n => rw [bracketLoop_some _ _ hb]

theorem takeWhile_mem {a b : Bytes} (ha : NL ∉ a) (hb : 93 ∈ b.takeWhile (· != NL)) : 93 ∈ (a ++ b).takeWhile (· != NL) := by
  induction a with
  | nil => exact hb
  | cons x a ih =>
    simp at ha
    have := ih ha.2
    rw [List.cons_append, List.takeWhile_cons, if_pos (by simpa using Ne.symm ha.1)]
    exact List.mem_cons_of_mem _ this

theorem readEscapes_cons {b : UInt8} (h : b ≠ 92) (s : Bytes) : Spec.readEscapes (b :: s) = (false, b) :: Spec.readEscapes s := by
  cases s with
  | nil => rfl
  | cons c s => rw [Spec.readEscapes, if_neg (by simp [h])]

theorem readEscapes_pair {c : UInt8} (h : Spec.isPunct c = true) (s : Bytes) : Spec.readEscapes (92 :: c :: s) = (true, c) :: Spec.readEscapes s := by
  rw [Spec.readEscapes, if_pos (by simp [h])]

/-- The text of a link in the output: brackets are escaped and a parser reads the text. -/
theorem link_text {dig} {hs : List Handler} (hg : Good dig hs) {post : Toks} (hwp : WF post)
    (hp : 93 ∈ (post.map Prod.snd).takeWhile (· != NL)) : ∀ {ts : Toks} {t : Bytes}, LinkToks ts t → WF ts → NL ∉ t →
    ∀ rev k, Inv rev k (encToks (ts ++ post)) → ∃ D rev' k', W hs rev k (ts ++ post) = D ++ W hs rev' k' post ∧
      Spec.Enclosed (renToks D) ∧ (Spec.readEscapes (renToks D)).map Prod.snd = t := by
  intro ts t h
  induction h with
  | nil => intro _ _ rev k _; exact ⟨[], rev, k, rfl, .nil, rfl⟩
  | @close ts t h ih =>
    intro hw hn rev k hi
    simp only [List.cons_append, encToks_cons_f] at hi
    obtain ⟨D, rev', k', h1, h2, h3⟩ := ih hw.tail.tail (fun hm => hn (by simp [hm])) (93 :: 92 :: rev) (k - 1 - 1) hi.step.step
    refine ⟨(false, 92) :: (false, 93) :: D, rev', k', by simp [W, h1], ?_, ?_⟩
    · simp only [renToks_cons_f]; exact .escaped (by decide) h2
    · simp only [renToks_cons_f]; rw [readEscapes_pair (by decide)]; simp [h3]
  | @plain c ts t g1 g2 g3 h ih =>
    intro hw hn rev k hi
    simp only [List.cons_append, encToks_cons_f] at hi
    obtain ⟨D, rev', k', h1, h2, h3⟩ := ih hw.tail (by simp at hn; exact hn.2) (c :: rev) (k - 1) hi.step
    refine ⟨(false, c) :: D, rev', k', by simp [W, h1], ?_, ?_⟩
    · simp only [renToks_cons_f]; exact .plain g1 g3 g2 h2
    · simp only [renToks_cons_f]; rw [readEscapes_cons g2]; simp [h3]
  | @marked c ts t g1 g2 h ih =>
    intro hw hn rev k hi
    have hn' : NL ∉ t := by simp at hn; exact hn.2
    have htn : NL ∉ ts.map Prod.snd := by
      have : ∀ {ts : Toks} {t : Bytes}, LinkToks ts t → NL ∉ t → NL ∉ ts.map Prod.snd := by
        intro ts t h
        induction h with
        | nil => simp
        | close _ ih =>
          intro hn
          rw [List.map_cons, List.map_cons, List.mem_cons, List.mem_cons]
          rintro (h | h | h)
          · exact absurd h (by decide)
          · exact absurd h (by decide)
          · exact ih (fun hm => hn (by simp [hm])) h
        | plain _ _ _ _ ih => intro hn; simp at hn ⊢; exact ⟨hn.1, by simpa using ih hn.2⟩
        | marked _ _ _ ih => intro hn; simp at hn ⊢; exact ⟨hn.1, by simpa using ih hn.2⟩
      exact this h hn'
    have hloop : bracketLoop (encToks (ts ++ post)) = some 1 := by
      apply bracketLoop_found _ (WF.append.2 ⟨hw.tail, hwp⟩)
      rw [List.map_append]
      exact takeWhile_mem htn hp
    simp only [List.cons_append, encToks_cons_t] at hi
    have plain : c ≠ 91 → c ≠ 92 → ∀ D, Spec.Enclosed (renToks D) → (Spec.readEscapes (renToks D)).map Prod.snd = t →
        Spec.Enclosed (renToks ((false, c) :: D)) ∧ (Spec.readEscapes (renToks ((false, c) :: D))).map Prod.snd = c :: t := by
      intro a1 a2 D h2 h3
      simp only [renToks_cons_f]
      exact ⟨.plain a1 g1 a2 h2, by rw [readEscapes_cons a2]; simp [h3]⟩
    cases k with
    | zero =>
      cases hce : checkElements hs (MARK :: rev) c (encToks (ts ++ post)) with
      | none =>
        have hc : c ≠ 92 := by
          rintro rfl
          have := checkElements_none hce isBackslash (hg.mem _ (by simp [commonmarkHandlers]))
          simp [isBackslash] at this
        have hc' : c ≠ 91 := by
          rintro rfl
          have := checkElements_none hce isImageOrLink (hg.mem _ (by simp [commonmarkHandlers]))
          have e : ∀ x, isImageOrLink (MARK :: rev) 91 x = bracketLoop x := by intro x; simp [isImageOrLink]
          rw [e, hloop] at this
          simp at this
        obtain ⟨D, rev', k', h1, h2, h3⟩ := ih hw.tail hn' (c :: MARK :: rev) 0 (.inl rfl)
        refine ⟨(false, c) :: D, rev', k', by rw [List.cons_append, W, hce]; simp [h1], ?_⟩
        exact plain hc' hc D h2 h3
      | some n =>
        obtain ⟨D, rev', k', h1, h2, h3⟩ := ih hw.tail hn' (c :: MARK :: rev) (n - 2) (Inv.check (hw.head.2 rfl) hg.ok hce)
        refine ⟨(true, c) :: D, rev', k', by rw [List.cons_append, W, hce]; simp [h1], ?_, ?_⟩
        · simp only [renToks_cons_t]; exact .escaped g2 h2
        · simp only [renToks_cons_t]; rw [readEscapes_pair g2]; simp [h3]
    | succ k =>
      have hr : regionByte c := Classical.byContradiction fun hr => by
        have := hi.zero_of_not_region hr; omega
      have hc : c ≠ 92 := by rintro rfl; revert hr; unfold regionByte; decide
      have hc' : c ≠ 91 := by rintro rfl; revert hr; unfold regionByte; decide
      have h' := Inv.step (Inv.step hi)
      obtain ⟨D, rev', k', h1, h2, h3⟩ := ih hw.tail hn' (c :: MARK :: rev) (k - 1)
        (by rwa [show k + 1 - 1 - 1 = k - 1 by omega] at h')
      refine ⟨(false, c) :: D, rev', k', by simp [W, h1], ?_⟩
      exact plain hc' hc D h2 h3

/-- A part of the output that comes from tokens in which every backslash is marked: a parser reads the text and ends behind it. -/
theorem text_part {dig} {hs : List Handler} (hg : Good dig hs) (post : Toks) : ∀ {a : Toks}, WF a →
    (∀ x ∈ a, x.1 = false → x.2 ≠ 92) → (∀ x ∈ a, x.1 = true → Spec.isPunct x.2 = true) →
    ∀ rev k, Inv rev k (encToks (a ++ post)) → ∃ D rev' k', W hs rev k (a ++ post) = D ++ W hs rev' k' post ∧
      Inv rev' k' (encToks post) ∧ (Spec.readEscapes (renToks D)).map Prod.snd = a.map Prod.snd ∧
      (∀ d ∈ Spec.readEscapes (renToks D), d ≠ (false, 92)) := by
  intro a
  induction a with
  | nil => intro _ _ _ rev k hi; exact ⟨[], rev, k, rfl, hi, rfl, by simp [Spec.readEscapes]⟩
  | cons x a ih =>
    intro hw h1 h2 rev k hi
    have ih := ih hw.tail (fun y hy => h1 y (by simp [hy])) (fun y hy => h2 y (by simp [hy]))
    obtain ⟨m, c⟩ := x
    have plain : c ≠ 92 → ∀ D, (Spec.readEscapes (renToks D)).map Prod.snd = a.map Prod.snd →
        (∀ d ∈ Spec.readEscapes (renToks D), d ≠ (false, 92)) →
        (Spec.readEscapes (renToks ((false, c) :: D))).map Prod.snd = ((m, c) :: a).map Prod.snd ∧
        ∀ d ∈ Spec.readEscapes (renToks ((false, c) :: D)), d ≠ (false, 92) := by
      intro hc D h3 h4
      simp only [renToks_cons_f]
      rw [readEscapes_cons hc]
      refine ⟨by simp [h3], ?_⟩
      intro d hd
      rcases List.mem_cons.1 hd with rfl | hd
      · simpa using hc
      · exact h4 d hd
    cases m with
    | false =>
      simp only [List.cons_append, encToks_cons_f] at hi
      obtain ⟨D, rev', k', g1, g2, g3, g4⟩ := ih (c :: rev) (k - 1) hi.step
      exact ⟨(false, c) :: D, rev', k', by simp [W, g1], g2, plain (h1 (false, c) (by simp) rfl) D g3 g4⟩
    | true =>
      simp only [List.cons_append, encToks_cons_t] at hi
      cases k with
      | zero =>
        cases hce : checkElements hs (MARK :: rev) c (encToks (a ++ post)) with
        | none =>
          have hc : c ≠ 92 := by
            rintro rfl
            have := checkElements_none hce isBackslash (hg.mem _ (by simp [commonmarkHandlers]))
            simp [isBackslash] at this
          obtain ⟨D, rev', k', g1, g2, g3, g4⟩ := ih (c :: MARK :: rev) 0 (.inl rfl)
          exact ⟨(false, c) :: D, rev', k', by rw [List.cons_append, W, hce]; simp [g1], g2, plain hc D g3 g4⟩
        | some n =>
          obtain ⟨D, rev', k', g1, g2, g3, g4⟩ := ih (c :: MARK :: rev) (n - 2) (Inv.check (hw.head.2 rfl) hg.ok hce)
          refine ⟨(true, c) :: D, rev', k', by rw [List.cons_append, W, hce]; simp [g1], g2, ?_⟩
          simp only [renToks_cons_t]
          rw [readEscapes_pair (h2 (true, c) (by simp) rfl)]
          refine ⟨by simp [g3], ?_⟩
          intro d hd
          rcases List.mem_cons.1 hd with rfl | hd
          · simp
          · exact g4 d hd
      | succ k =>
        have hr : regionByte c := Classical.byContradiction fun hr => by
          have := hi.zero_of_not_region hr; omega
        have hc : c ≠ 92 := by rintro rfl; revert hr; unfold regionByte; decide
        have h' := Inv.step (Inv.step hi)
        obtain ⟨D, rev', k', g1, g2, g3, g4⟩ := ih (c :: MARK :: rev) (k - 1)
          (by rwa [show k + 1 - 1 - 1 = k - 1 by omega] at h')
        exact ⟨(false, c) :: D, rev', k', by simp [W, g1], g2, plain hc D g3 g4⟩

/-- Bytes that are not marked. -/
def raw (s : Bytes) : Toks := s.map fun b => (false, b)

theorem enc_raw (s : Bytes) : encToks (raw s) = s := by
  induction s with
  | nil => rfl
  | cons b s ih => simp [raw] at ih ⊢; exact ih

theorem ren_raw (s : Bytes) : renToks (raw s) = s := by
  induction s with
  | nil => rfl
  | cons b s ih => simp [raw] at ih ⊢; exact ih

theorem raw_wf {s : Bytes} (h : MARK ∉ s) : WF (raw s) := by
  intro t ht
  simp only [raw, List.mem_map] at ht
  obtain ⟨b, hb, rfl⟩ := ht
  exact ⟨fun e => h (e ▸ hb), by simp⟩

theorem W_raw (hs : List Handler) (post : Toks) : ∀ (s rev : Bytes) (k : Nat), ∃ rev' k', W hs rev k (raw s ++ post) = raw s ++ W hs rev' k' post := by
  intro s
  induction s with
  | nil => intro rev k; exact ⟨rev, k, rfl⟩
  | cons b s ih =>
    intro rev k
    obtain ⟨rev', k', h⟩ := ih (b :: rev) (k - 1)
    exact ⟨rev', k', by simp only [raw, List.map_cons, List.cons_append, W] at h ⊢; rw [h]⟩

theorem enc_no_mark : ∀ (ts : Toks), MARK ∉ encToks ts → ts = raw (encToks ts) := by
  intro ts
  induction ts with
  | nil => intro _; rfl
  | cons t ts ih =>
    intro h
    obtain ⟨m, c⟩ := t
    cases m with
    | false => simp at h; simp [raw] at ih ⊢; exact ih h.2
    | true => simp at h

end Verif.Links
