import Verif.Proofs.PageHeading
import Verif.Proofs.Links
/-!
# The loop that escapes, on a line with elements in it

On one line the decision about each character does not depend on the others, except at the start of the line.
-/

namespace Verif.Page
open Verif Verif.Spec Verif.Escape Verif.Commonmark

/-- A character of a line: as it is, marked, or with a backslash in front of it. -/
inductive Tok
  | raw (c : UInt8)
  | mark (c : UInt8)
  | esc (c : UInt8)
deriving DecidableEq

/-- The character. -/
def Tok.byte : Tok → UInt8
  | .raw c => c
  | .mark c => c
  | .esc c => c

/-- As it is rendered. -/
def Tok.enc : Tok → Bytes
  | .raw c => [c]
  | .mark c => [MARK, c]
  | .esc c => [BS, c]

/-- As input of the loop. -/
def Tok.flat : Tok → Toks
  | .raw c => [(false, c)]
  | .mark c => [(true, c)]
  | .esc c => [(false, BS), (false, c)]

/-- A line as it is rendered. -/
def encX (X : List Tok) : Bytes := X.flatMap Tok.enc
/-- A line as input of the loop. -/
def flatX (X : List Tok) : Toks := X.flatMap Tok.flat

theorem enc_flat (X : List Tok) : encToks (flatX X) = encX X := by
  induction X with
  | nil => rfl
  | cons x X ih =>
    have e : flatX (x :: X) = x.flat ++ flatX X := rfl
    have e2 : encX (x :: X) = x.enc ++ encX X := rfl
    rw [e, e2, encToks_append, ih]
    cases x <;> rfl

theorem encX_append (a b : List Tok) : encX (a ++ b) = encX a ++ encX b := List.flatMap_append
theorem flatX_append (a b : List Tok) : flatX (a ++ b) = flatX a ++ flatX b := List.flatMap_append

variable {dig : Nat → Bool} {hs : List Handler}

/-- What the loop does with each character; `post` is what comes later. -/
def P (hs : List Handler) (rev : Bytes) : List Tok → Bytes → Toks
  | [], _ => []
  | .raw c :: X, post => (false, c) :: P hs (c :: rev) X post
  | .mark c :: X, post => ((checkElements hs (MARK :: rev) c (encX X ++ post)).isSome, c) :: P hs (c :: MARK :: rev) X post
  | .esc c :: X, post => (true, c) :: P hs (c :: BS :: rev) X post

theorem P_append (a b : List Tok) (post : Bytes) : ∀ rev, P hs rev (a ++ b) post = P hs rev a (encX b ++ post) ++ P hs ((encX a).reverse ++ rev) b post := by
  induction a with
  | nil => intro rev; rfl
  | cons x a ih =>
    intro rev
    cases x with
    | raw c => rw [List.cons_append, P, P, ih]; simp [encX, Tok.enc]
    | mark c => rw [List.cons_append, P, P, ih]; simp [encX, Tok.enc]
    | esc c => rw [List.cons_append, P, P, ih]; simp [encX, Tok.enc]

theorem P_snd (post : Bytes) : ∀ (X : List Tok) rev, (P hs rev X post).map Prod.snd = X.map Tok.byte := by
  intro X
  induction X with
  | nil => intro rev; rfl
  | cons x X ih => intro rev; cases x <;> simp [P, ih, Tok.byte]

/-- A character in the result comes from one of the line. -/
theorem P_split (post : Bytes) : ∀ (X : List Tok) (rev : Bytes) (A B : Toks) (e : Bool) (c : UInt8), P hs rev X post = A ++ (e, c) :: B →
    ∃ XA x XB rev1, X = XA ++ x :: XB ∧ x.byte = c ∧ B = P hs (x.enc.reverse ++ rev1) XB post ∧
      ((x = .raw c ∧ e = false) ∨ (x = .esc c ∧ e = true) ∨
        (x = .mark c ∧ e = (checkElements hs (MARK :: rev1) c (encX XB ++ post)).isSome)) := by
  intro X
  induction X with
  | nil => intro rev A B e c h; simp [P] at h
  | cons x X ih =>
    intro rev A B e c h
    cases A with
    | nil =>
      cases x with
      | raw d =>
        rw [P, List.nil_append, List.cons.injEq, Prod.mk.injEq] at h
        obtain ⟨⟨rfl, rfl⟩, rfl⟩ := h
        exact ⟨[], _, X, rev, rfl, rfl, rfl, .inl ⟨rfl, rfl⟩⟩
      | mark d =>
        rw [P, List.nil_append, List.cons.injEq, Prod.mk.injEq] at h
        obtain ⟨⟨rfl, rfl⟩, rfl⟩ := h
        exact ⟨[], _, X, rev, rfl, rfl, rfl, .inr (.inr ⟨rfl, rfl⟩)⟩
      | esc d =>
        rw [P, List.nil_append, List.cons.injEq, Prod.mk.injEq] at h
        obtain ⟨⟨rfl, rfl⟩, rfl⟩ := h
        exact ⟨[], _, X, rev, rfl, rfl, rfl, .inr (.inl ⟨rfl, rfl⟩)⟩
    | cons a A =>
      have : ∃ rev', P hs rev' X post = A ++ (e, c) :: B := by
        cases x with
        | raw d => rw [P, List.cons_append, List.cons.injEq] at h; exact ⟨_, h.2⟩
        | mark d => rw [P, List.cons_append, List.cons.injEq] at h; exact ⟨_, h.2⟩
        | esc d => rw [P, List.cons_append, List.cons.injEq] at h; exact ⟨_, h.2⟩
      obtain ⟨rev', h'⟩ := this
      obtain ⟨XA, y, XB, rev1, rfl, h1, h2, h3⟩ := ih rev' A B e c h'
      exact ⟨x :: XA, y, XB, rev1, rfl, h1, h2, h3⟩

/-- The input of the loop as characters. -/
def embed (ts : Toks) : List Tok := ts.map fun t => if t.1 then .mark t.2 else .raw t.2

theorem flat_embed (ts : Toks) : flatX (embed ts) = ts := by
  induction ts with
  | nil => rfl
  | cons t ts ih =>
    obtain ⟨m, c⟩ := t
    rw [flatX, embed, List.map_cons, List.flatMap_cons, ← embed, ← flatX, ih]
    cases m <;> rfl

theorem enc_embed (ts : Toks) : encX (embed ts) = encToks ts := by rw [← enc_flat, flat_embed]

/-- Characters with a backslash are like a backslash and a character. -/
theorem ren_embed (post : Bytes) : ∀ (X : List Tok) (rev : Bytes), renToks (P hs rev (embed (flatX X)) post) = renToks (P hs rev X post) := by
  intro X
  induction X with
  | nil => intro rev; rfl
  | cons x X ih =>
    intro rev
    have henc : encX (embed (flatX X)) = encX X := by rw [enc_embed, enc_flat]
    cases x with
    | raw c =>
      have : embed (flatX (.raw c :: X)) = .raw c :: embed (flatX X) := rfl
      rw [this, P, P, renToks_cons_f, renToks_cons_f, ih]
    | mark c =>
      have : embed (flatX (.mark c :: X)) = .mark c :: embed (flatX X) := rfl
      rw [this, P, P, henc]
      cases (checkElements hs (MARK :: rev) c (encX X ++ post)).isSome with
      | true => rw [renToks_cons_t, renToks_cons_t, ih]
      | false => rw [renToks_cons_f, renToks_cons_f, ih]
    | esc c =>
      have : embed (flatX (.esc c :: X)) = .raw BS :: .raw c :: embed (flatX X) := rfl
      rw [this, P, P, P, renToks_cons_f, renToks_cons_f, renToks_cons_t, ih]

/-! ## The loop -/

theorem stock_cases (h : IsStock dig hs) {rev c rest n} (hc : checkElements hs rev c rest = some n) :
    n = 1 ∨ isAtxHeader rev c rest = some n ∨ isDivider rev c rest = some n ∨ isFencedCode rev c rest = some n := by
  obtain ⟨g, hg, hgn⟩ := checkElements_mem hc
  rcases h.mem g hg with hg | rfl
  · simp only [commonmarkHandlers, List.mem_cons, List.not_mem_nil, or_false] at hg
    rcases hg with rfl|rfl|rfl|rfl|rfl|rfl|rfl|rfl|rfl|rfl|rfl
    · left; revert hgn; simp only [isItalicOrBold]; grind
    · left; revert hgn; simp only [Escape.isBlockQuote]; grind
    · exact .inr (.inl hgn)
    · left
      simp only [isSetextHeader] at hgn
      split at hgn
      · cases hgn
      · exact setextLoop_some _ _ _ hgn
    · exact .inr (.inr (.inl hgn))
    · left; revert hgn; simp only [isOrderedList]; grind
    · left; revert hgn; simp only [isUnorderedList]; grind
    · left
      simp only [isImageOrLink] at hgn
      split at hgn
      · grind
      · split at hgn
        · exact bracketLoop_some _ _ hgn
        · cases hgn
    · exact .inr (.inr (.inr hgn))
    · left; revert hgn; simp only [Escape.isInlineCode]; grind
    · left; revert hgn; simp only [isBackslash]; grind
  · left; revert hgn; simp only [isStrikethrough]; grind

theorem stock_one (h : IsStock dig hs) {rev c rest n} (hl : atLineStart rev = false) (hc : checkElements hs rev c rest = some n) : n = 1 := by
  rcases stock_cases h hc with h | h | h | h
  · exact h
  · simp only [isAtxHeader, hl] at h; grind
  · simp only [isDivider, hl] at h; grind
  · simp only [isFencedCode, hl] at h; grind

theorem stock_hash (h : IsStock dig hs) {rev rest} (hl : atLineStart rev = false) : checkElements hs rev 35 rest = none := by
  cases hc : checkElements hs rev 35 rest with
  | none => rfl
  | some n =>
    obtain ⟨g, hg, hgn⟩ := checkElements_mem hc
    exfalso
    rcases h.mem g hg with hg | rfl
    · simp only [commonmarkHandlers, List.mem_cons, List.not_mem_nil, or_false] at hg
      rcases hg with rfl|rfl|rfl|rfl|rfl|rfl|rfl|rfl|rfl|rfl|rfl
      · simp [isItalicOrBold] at hgn
      · simp [Escape.isBlockQuote] at hgn
      · simp [isAtxHeader, hl] at hgn
      · simp [isSetextHeader] at hgn
      · simp [isDivider] at hgn
      · simp [isOrderedList] at hgn
      · simp [isUnorderedList] at hgn
      · simp [isImageOrLink] at hgn
      · simp [isFencedCode] at hgn
      · simp [Escape.isInlineCode] at hgn
      · simp [isBackslash] at hgn
    · simp [isStrikethrough] at hgn

theorem within {rev : Bytes} {c : UInt8} (h : atLineStart rev = false) (hc : c ≠ NL) : atLineStart (c :: rev) = false := by
  rw [atLineStart_cons, if_neg hc]
  split
  · exact h
  · rfl

/-- Within a line. -/
theorem W_within (h : IsStock dig hs) : ∀ (ts : Toks) (rev : Bytes), atLineStart rev = false → NL ∉ ts.map Prod.snd →
    W hs rev 0 ts = P hs rev (embed ts) [] := by
  intro ts
  induction ts with
  | nil => intro rev _ _; rfl
  | cons t ts ih =>
    intro rev hl hn
    obtain ⟨m, c⟩ := t
    simp only [List.map_cons, List.mem_cons, not_or] at hn
    cases m with
    | false =>
      have : embed ((false, c) :: ts) = .raw c :: embed ts := rfl
      rw [this, P, W, ih _ (within hl (Ne.symm hn.1)) hn.2]
    | true =>
      have : embed ((true, c) :: ts) = .mark c :: embed ts := rfl
      have hl' := within hl (show MARK ≠ NL by decide)
      have := ih _ (within hl' (Ne.symm hn.1)) hn.2
      rw [‹embed _ = _›, P, enc_embed, List.append_nil, W]
      cases hc : checkElements hs (MARK :: rev) c (encToks ts) with
      | none => simp only [Option.isSome_none, this]
      | some n =>
        have h1 := stock_one h hl' hc
        subst h1
        simp only [Option.isSome_some, this]

/-- Skipping over number signs within a line changes nothing. -/
theorem W_hashes (h : IsStock dig hs) : ∀ (ts : Toks) (k : Nat) (rev : Bytes), WF ts → atLineStart rev = false →
    (∀ b ∈ (encToks ts).take (k + 1), b = MARK ∨ b = 35) → W hs rev k ts = W hs rev 0 ts := by
  intro ts
  induction ts with
  | nil => intro k rev _ _ _; cases k <;> rfl
  | cons t ts ih =>
    intro k rev hw hl hb
    cases k with
    | zero => rfl
    | succ k =>
      obtain ⟨m, c⟩ := t
      have h7 := hw.head.1
      cases m with
      | false =>
        rw [encToks_cons_f, List.take_succ_cons] at hb
        have hc : c = 35 := by
          rcases hb c (by simp) with h | h
          · exact absurd h h7
          · exact h
        subst hc
        rw [W, W, Nat.add_sub_cancel, ih k _ hw.tail (within hl (by decide)) (fun b h => hb b (by simp [h]))]
      | true =>
        rw [encToks_cons_t, List.take_succ_cons, List.take_succ_cons] at hb
        have hc : c = 35 := by
          rcases hb c (by simp) with h | h
          · exact absurd h h7
          · exact h
        subst hc
        have hl' := within hl (show MARK ≠ NL by decide)
        have hl2 := within hl' (show (35 : UInt8) ≠ NL by decide)
        rw [W, W, stock_hash h hl']
        simp only
        congr 1
        cases k with
        | zero => rfl
        | succ k => exact ih k _ hw.tail hl2 (fun b h => hb b (by simp [h]))

theorem dividerLoop_no {c x : UInt8} (hx : x ≠ MARK ∧ x ≠ SP ∧ x ≠ c ∧ x ≠ NL) : ∀ (s : Bytes) (count n : Nat), x ∈ s → NL ∉ s → c ≠ NL → dividerLoop c count n s = none := by
  intro s
  induction s with
  | nil => intro _ _ h; simp at h
  | cons b s ih =>
    intro count n hm hn hc
    simp only [List.mem_cons, not_or] at hm hn
    rw [dividerLoop]
    split
    · rename_i hb
      rcases hm with rfl | hm
      · exact absurd hb hx.1
      · exact ih _ _ hm hn.2 hc
    · split
      · rename_i hb
        rcases hm with rfl | hm
        · exact absurd hb hx.2.1
        · exact ih _ _ hm hn.2 hc
      · split
        · rename_i hb
          rcases hm with rfl | hm
          · exact absurd hb hx.2.2.1
          · exact ih _ _ hm hn.2 hc
        · rw [if_neg (Ne.symm hn.1)]

/-- A line that does not begin with a space, backtick or tilde, and with something to see. -/
theorem W_line (h : IsStock dig hs) {ts : Toks} (hw : WF ts) (hn : NL ∉ ts.map Prod.snd) (hsp : (ts.map Prod.snd).head? ≠ some SP)
    (hf : ∀ c, ts.head? = some (true, c) → c ≠ 96 ∧ c ≠ 126) (hv : ∃ x ∈ ts.map Prod.snd, x ∉ [32, 9, 45, 95, 42]) :
    W hs [] 0 ts = P hs [] (embed ts) [] := by
  cases ts with
  | nil => rfl
  | cons t ts =>
    obtain ⟨m, c⟩ := t
    have h7 := hw.head.1
    simp only [List.map_cons, List.mem_cons, not_or] at hn
    simp only [List.map_cons, List.head?_cons, ne_eq, Option.some.injEq] at hsp
    have hl : ∀ r, atLineStart (c :: r) = false := by
      intro r
      rw [atLineStart_cons, if_neg (Ne.symm hn.1), if_neg]
      rintro (h | h)
      · exact h7 h
      · exact hsp h
    cases m with
    | false =>
      have : embed ((false, c) :: ts) = .raw c :: embed ts := rfl
      rw [this, P, W, W_within h _ _ (hl _) hn.2]
    | true =>
      have : embed ((true, c) :: ts) = .mark c :: embed ts := rfl
      rw [this, P, enc_embed, List.append_nil, W, ← W_within h _ _ (hl _) hn.2]
      cases hc : checkElements hs (MARK :: []) c (encToks ts) with
      | none => simp only [Option.isSome_none]
      | some n =>
        simp only [Option.isSome_some]
        congr 1
        rcases stock_cases h hc with h1 | h1 | h1 | h1
        · subst h1; rfl
        · have hloop : atxLoop 1 1 (encToks ts) = some n := by
            simp only [isAtxHeader] at h1
            split at h1
            · cases h1
            · split at h1
              · cases h1
              · exact h1
          rcases atxLoop_spec _ _ _ _ (Nat.le_refl 1) hloop with h2 | ⟨h2, h3⟩
          · subst h2; rfl
          · by_cases hn2 : n < 2
            · have : n - 2 = 0 := by omega
              rw [this]
            · refine W_hashes h ts _ _ hw.tail (hl _) ?_
              have : n - 2 + 1 = n - 1 := by omega
              rw [this]; exact h3
        · exfalso
          simp only [isDivider] at h1
          split at h1
          · cases h1
          · rename_i hcd
            split at h1
            · cases h1
            · obtain ⟨x, hx, hxn⟩ := hv
              simp only [List.mem_cons, List.not_mem_nil, or_false, not_or] at hxn
              have hcd' : c = 45 ∨ c = 95 ∨ c = 42 := by
                apply Classical.byContradiction
                intro hc3
                simp only [not_or] at hc3
                exact hcd hc3
              simp only [List.map_cons, List.mem_cons] at hx
              rcases hx with rfl | hx
              · rcases hcd' with h | h | h
                · exact hxn.2.2.1 h
                · exact hxn.2.2.2.1 h
                · exact hxn.2.2.2.2 h
              · obtain ⟨⟨m, y⟩, ht, rfl⟩ := List.mem_map.1 hx
                have hxe : y ∈ encToks ts := by
                  rw [encToks, List.mem_flatMap]
                  refine ⟨_, ht, ?_⟩
                  cases m <;> simp
                have hne : NL ∉ encToks ts := by
                  intro hm
                  rcases encBy_mem (encToks_by ts ▸ hm) with h | h
                  · exact absurd h (by decide)
                  · exact hn.2 h
                rw [dividerLoop_no (c := c) (x := y) ⟨(hw.tail _ ht).1, hxn.1, by rcases hcd' with rfl | rfl | rfl <;> simp [hxn],
                  fun h => hn.2 (h ▸ hx)⟩ _ 1 1 hxe hne (Ne.symm hn.1)] at h1
                cases h1
        · exfalso
          have := hf c rfl
          simp [isFencedCode, this] at h1

end Verif.Page
