import Verif.Proofs.PageQuoteLoop
/-!
# Quotes
-/
namespace Verif.Page
open Verif Verif.Escape Verif.Spec Verif.Commonmark Verif.TextUtils

variable {dig : Nat → Bool} {hs : List Handler} {bullet : Bytes}

/-- The marker of a quote behind newlines. -/
def quoteGo : Toks → Toks
  | [] => []
  | t :: ts => if t.2 = NL then t :: (false, 62) :: (false, 32) :: quoteGo ts else t :: quoteGo ts

/-- The marker of a quote in front of every line. -/
def quoteToks (ts : Toks) : Toks := (false, 62) :: (false, 32) :: quoteGo ts

theorem quoteGo_append (a b : Toks) : quoteGo (a ++ b) = quoteGo a ++ quoteGo b := by
  induction a with
  | nil => rfl
  | cons t a ih =>
    rw [List.cons_append, quoteGo, quoteGo, ih]
    split <;> rfl

theorem quoteGo_line {ts : Toks} (h : NL ∉ ts.map Prod.snd) : quoteGo ts = ts := by
  induction ts with
  | nil => rfl
  | cons t ts ih =>
    rw [List.map_cons, List.mem_cons, not_or] at h
    rw [quoteGo, if_neg (Ne.symm h.1), ih h.2]

theorem quoteToks_nl (a b : Toks) : quoteToks (a ++ (false, NL) :: b) = quoteToks a ++ (false, NL) :: quoteToks b := by
  rw [quoteToks, quoteGo_append, quoteGo, if_pos rfl]; rfl

theorem enc_quote (ts : Toks) : encToks (quoteToks ts) = prefixLines (encToks ts) [62, 32] := by
  have : ∀ ts, encToks (quoteGo ts) = prefixLinesGo [62, 32] (encToks ts) := by
    intro ts
    induction ts with
    | nil => rfl
    | cons t ts ih =>
      obtain ⟨m, c⟩ := t
      rw [quoteGo]
      cases m with
      | false =>
        rw [encToks_cons_f, prefixLinesGo]
        split
        · rw [encToks_cons_f, encToks_cons_f, encToks_cons_f, ih]; rfl
        · rw [encToks_cons_f, ih]
      | true =>
        rw [encToks_cons_t, prefixLinesGo, if_neg (show ¬ (MARK = NL) by decide), prefixLinesGo]
        split
        · rw [encToks_cons_t, encToks_cons_f, encToks_cons_f, ih]; rfl
        · rw [encToks_cons_t, ih]
  rw [quoteToks, encToks_cons_f, encToks_cons_f, this]
  rfl

theorem snd_quote (ts : Toks) : (quoteToks ts).map Prod.snd = prefixLines (ts.map Prod.snd) [62, 32] := by
  have : ∀ ts, (quoteGo ts).map Prod.snd = prefixLinesGo [62, 32] (ts.map Prod.snd) := by
    intro ts
    induction ts with
    | nil => rfl
    | cons t ts ih =>
      rw [quoteGo, List.map_cons, prefixLinesGo]
      split
      · rw [List.map_cons, List.map_cons, List.map_cons, ih]; rfl
      · rw [List.map_cons, ih]
  rw [quoteToks, List.map_cons, List.map_cons, this]
  rfl

theorem wf_quote {ts : Toks} (h : WF ts) : WF (quoteToks ts) := by
  have : ∀ ts, WF ts → WF (quoteGo ts) := by
    intro ts
    induction ts with
    | nil => intro _ t ht; simp [quoteGo] at ht
    | cons t ts ih =>
      intro h x hx
      rw [quoteGo] at hx
      have ih' := ih h.tail
      split at hx
      · simp only [List.mem_cons] at hx
        rcases hx with rfl | rfl | rfl | hx
        · exact h.head
        · simp
        · simp
        · exact ih' x hx
      · simp only [List.mem_cons] at hx
        rcases hx with rfl | hx
        · exact h.head
        · exact ih' x hx
  intro x hx
  simp only [quoteToks, List.mem_cons] at hx
  rcases hx with rfl | rfl | hx
  · simp
  · simp
  · exact this ts h x hx

theorem tokLines_quote (ts : Toks) : tokLines (quoteToks ts) = (tokLines ts).map ([(false, 62), (false, 32)] ++ ·) := by
  have : ∀ ts, ∃ l ls, tokLines ts = l :: ls ∧ tokLines (quoteGo ts) = l :: ls.map ([(false, 62), (false, 32)] ++ ·) := by
    intro ts
    induction ts with
    | nil => exact ⟨[], [], rfl, rfl⟩
    | cons t ts ih =>
      obtain ⟨l, ls, e1, e2⟩ := ih
      rw [quoteGo, tokLines]
      split
      · rename_i ht
        refine ⟨[], _, rfl, ?_⟩
        rw [tokLines, if_pos ht, tokLines, if_neg (by decide), tokLines, if_neg (by decide), e2, e1]
        rfl
      · rename_i ht
        rw [tokLines, if_neg ht, e2, e1]
        exact ⟨_, _, rfl, rfl⟩
  obtain ⟨l, ls, e1, e2⟩ := this ts
  rw [quoteToks, tokLines, if_neg (by decide), tokLines, if_neg (by decide), e2, e1]
  rfl

/-! ## The lines -/

/-- The lines in a quote, without its markers. -/
def qlines (hs : List Handler) (ts : Toks) : List Bytes := (tokLines ts).map fun L => renToks (W hs [32, 62] 0 L)

theorem qlines_ne (ts : Toks) : qlines hs ts ≠ [] := by
  rw [qlines, ne_eq, List.map_eq_nil_iff]; exact tokLines_ne ts

theorem qlines_append (a b : Toks) : qlines hs (a ++ (false, NL) :: b) = qlines hs a ++ qlines hs b := by
  rw [qlines, tokLines_append, List.map_append]; rfl

theorem qlines_one {ts : Toks} (h : NL ∉ ts.map Prod.snd) : qlines hs ts = [renToks (W hs [32, 62] 0 ts)] := by
  rw [qlines, tokLines_one h]; rfl

theorem qlines_mem {ts : Toks} {l : Bytes} (h : l ∈ qlines hs ts) {b : UInt8} (hb : b ∈ l) : b = 92 ∨ (b ∈ ts.map Prod.snd ∧ b ≠ 10) := by
  rw [qlines, List.mem_map] at h
  obtain ⟨L, hL, rfl⟩ := h
  rw [renToks_by] at hb
  have := encBy_mem hb
  rw [W_snd] at this
  rcases this with h | h
  · exact .inl h
  · have ht := tokLines_mem hL
    refine .inr ⟨?_, ?_⟩
    · rw [List.mem_map] at h ⊢
      obtain ⟨t, h1, h2⟩ := h
      exact ⟨t, ht.2 t h1, h2⟩
    · rintro rfl; exact ht.1 h

theorem qlines_nl {ts : Toks} {l : Bytes} (h : l ∈ qlines hs ts) : 10 ∉ l := by
  intro hb
  rcases qlines_mem h hb with h | h
  · exact absurd h (by decide)
  · exact h.2 rfl

theorem prefix_inside (rev : Bytes) : digitsToLineStart (32 :: 62 :: rev) = false := by
  rw [digitsToLineStart, if_neg (by decide), if_pos rfl, digitsToLineStart, if_neg (by decide), if_neg (by decide), if_neg (by decide), if_neg (by decide)]

theorem W_prefix (hst : IsStock dig hs) {L : Toks} (h : NL ∉ L.map Prod.snd) (rev : Bytes) :
    W hs rev 0 ((false, 62) :: (false, 32) :: L) = (false, 62) :: (false, 32) :: W hs [32, 62] 0 L := by
  have := W_raw (hs := hs) [(false, 62), (false, 32)] L rev (by simp)
  rw [List.cons_append, List.cons_append, List.nil_append] at this
  rw [this]
  show [(false, 62), (false, 32)] ++ W hs (32 :: 62 :: rev) 0 L = _
  rw [W_inside hst (rev' := [32, 62]) (prefix_inside rev) (prefix_inside []) h]
  rfl

/-- What the loop does with a quote. -/
theorem out_quote (hst : IsStock dig hs) : ∀ (n : Nat) (ts : Toks) (rev : Bytes), ts.length = n → WF ts →
    renToks (W hs rev 0 (quoteToks ts)) = unl ((qlines hs ts).map ([62, 32] ++ ·)) := by
  intro n
  induction n using Nat.strongRecOn with
  | _ n ih =>
    intro ts rev hn hw
    rcases tok_cases ts hw with h | ⟨a, b, rfl, h⟩
    · rw [quoteToks, quoteGo_line h, W_prefix hst h, qlines_one h, renToks_cons_f, renToks_cons_f]
      rfl
    · have hwa := (WF.append.1 hw).1
      have hwb : WF b := (WF.append.1 hw).2.tail
      rw [quoteToks_nl, qlines_append, List.map_append, qlines_one h]
      rw [W_front hst _ (quoteToks a) rev 0 (wf_quote hwa) (.inl rfl), ren_append, quoteToks, quoteGo_line h, W_prefix hst h]
      rw [W, renToks_cons_f, renToks_cons_f, renToks_cons_f, ih b.length (by rw [← hn]; simp; omega) b _ rfl hwb]
      rw [List.map_cons, List.map_nil, List.singleton_append, unl_cons _ (by simp [qlines_ne])]
      rfl

theorem qlines_quote (hst : IsStock dig hs) (ts : Toks) : qlines hs (quoteToks ts) = (qlines hs ts).map ([62, 32] ++ ·) := by
  rw [qlines, tokLines_quote, qlines, List.map_map, List.map_map]
  apply List.map_congr_left
  intro L hL
  show renToks (W hs [32, 62] 0 ((false, 62) :: (false, 32) :: L)) = _
  rw [W_prefix hst (tokLines_mem hL).1, renToks_cons_f, renToks_cons_f]
  rfl

/-! ## White space -/

theorem go_prefix {p w : Bytes} (hw : 10 ∉ w) : ∀ s, w <+: prefixLinesGo p s → w <+: s := by
  induction w with
  | nil => intro s _; exact List.nil_prefix
  | cons c w ih =>
    intro s h
    rw [List.mem_cons, not_or] at hw
    cases s with
    | nil => exact h
    | cons b s =>
      rw [prefixLinesGo] at h
      split at h
      · rename_i hb
        rw [List.cons_prefix_cons] at h
        exact absurd (h.1.trans hb).symm hw.1
      · rw [List.cons_prefix_cons] at h ⊢
        exact ⟨h.1, ih hw.2 s h.2⟩

theorem prefix_code {s : Bytes} (h : ¬ codeNewline <:+: s) : ¬ codeNewline <:+: prefixLines s [62, 32] := by
  have skip : ∀ (b : UInt8) (s : Bytes), b ≠ 239 → codeNewline <:+: b :: s → codeNewline <:+: s := by
    intro b s hb hi
    rcases List.infix_cons_iff.1 hi with hi | hi
    · rw [codeNewline, List.cons_prefix_cons] at hi
      exact absurd hi.1.symm hb
    · exact hi
  have go : ∀ s, codeNewline <:+: prefixLinesGo [62, 32] s → codeNewline <:+: s := by
    intro s
    induction s with
    | nil => exact id
    | cons b s ih =>
      intro hi
      rw [prefixLinesGo] at hi
      split at hi
      · rename_i hb
        refine (ih ?_).trans ⟨[b], [], by simp⟩
        exact skip 32 _ (by decide) (skip 62 _ (by decide) (skip b _ (by rw [hb]; decide) hi))
      · rcases List.infix_cons_iff.1 hi with hi | hi
        · rw [codeNewline, List.cons_prefix_cons] at hi
          refine List.IsPrefix.isInfix ?_
          rw [codeNewline, List.cons_prefix_cons]
          exact ⟨hi.1, go_prefix (by decide) s hi.2⟩
        · exact (ih hi).trans ⟨[b], [], by simp⟩
  intro hi
  exact h (go s (skip 32 _ (by decide) (skip 62 _ (by decide) hi)))

theorem danger_prefix : ∀ (s : Bytes) (d e f : Nat), danger d s = some f → e ≤ max d 1 → (danger e (prefixLinesGo [62, 32] s)).isSome := by
  intro s
  induction s with
  | nil => intros; rfl
  | cons b s ih =>
    intro d e f hd he
    rw [danger] at hd
    rw [prefixLinesGo]
    split
    · rename_i hb
      rw [if_pos hb] at hd
      split at hd
      · rw [danger, if_pos hb, if_pos (by omega)]
        show (danger (e + 1) (62 :: 32 :: prefixLinesGo [62, 32] s)).isSome
        rw [danger, if_neg (by decide), if_neg (by decide), danger, if_neg (by decide), if_pos rfl]
        exact ih _ _ _ hd (by omega)
      · cases hd
    · rename_i hb
      rw [if_neg hb] at hd
      rw [danger, if_neg hb]
      split
      · rename_i h2
        rw [if_pos h2] at hd
        exact ih _ _ _ hd (by omega)
      · rename_i h2
        rw [if_neg h2] at hd
        exact ih _ _ _ hd (by omega)

theorem ws_sp_only : ∀ w ∈ whitespace, 32 ∈ w → w = [32] := by decide

theorem go_append (p a b : Bytes) : prefixLinesGo p (a ++ b) = prefixLinesGo p a ++ prefixLinesGo p b := by
  induction a with
  | nil => rfl
  | cons c a ih => rw [List.cons_append, prefixLinesGo, prefixLinesGo, ih]; split <;> simp

theorem go_mem {p s : Bytes} {b : UInt8} (h : b ∈ prefixLinesGo p s) : b ∈ p ∨ b ∈ s := by
  induction s with
  | nil => exact .inr h
  | cons c s ih =>
    rw [prefixLinesGo] at h
    split at h
    · simp only [List.mem_cons, List.mem_append] at h ⊢
      rcases h with h | h | h
      · exact .inr (.inl h)
      · exact .inl h
      · rcases ih h with h | h
        · exact .inl h
        · exact .inr (.inr h)
    · simp only [List.mem_cons] at h ⊢
      rcases h with h | h
      · exact .inr (.inl h)
      · rcases ih h with h | h
        · exact .inl h
        · exact .inr (.inr h)

theorem go_last {s : Bytes} {c : UInt8} (hc : c ≠ 10) (p : Bytes) : prefixLinesGo p (s ++ [c]) = prefixLinesGo p s ++ [c] := by
  rw [go_append]
  simp [prefixLinesGo, hc]

theorem suffix_two {w a : Bytes} : ∀ {x y : Bytes}, w <:+ x ++ y → w <:+ y ∨ ∃ z, z ≠ [] ∧ z <:+ x ∧ w = z ++ y := by
  intro x y h
  obtain ⟨t, e⟩ := h
  rcases List.append_eq_append_iff.1 e with ⟨z, e1, e2⟩ | ⟨z, e1, e2⟩
  · by_cases hz : z = []
    · left
      subst hz
      rw [List.nil_append] at e2
      exact ⟨[], by rw [e2]; rfl⟩
    · exact .inr ⟨z, hz, ⟨t, e1.symm⟩, e2⟩
  · left
    exact ⟨z, e2.symm⟩

theorem trailing_of_suffix {s p t : Bytes} (h : NoTrailingWhitespace s) (e : s = t ++ p) : NoTrailingWhitespace p := by
  intro w hw hp
  exact h w hw (hp.trans ⟨t, e.symm⟩)

theorem trailing_sp {p : Bytes} (hne : p ≠ []) (h : NoTrailingWhitespace p) (t : Bytes) : NoTrailingWhitespace (t ++ 32 :: p) := by
  intro w hw hp
  by_cases h32 : 32 ∈ w
  · rw [ws_sp_only w hw h32] at hp
    obtain ⟨z, e⟩ := hp
    have hl : (t ++ 32 :: p).getLast? = some 32 := by rw [← e]; simp
    rw [List.getLast?_append, List.getLast?_cons_of_ne_nil hne, List.getLast?_eq_some_getLast hne, Option.some_or, ← List.getLast?_eq_some_getLast hne] at hl
    obtain ⟨p', rfl⟩ := getLast_concat_of hl
    exact h [32] (by decide) ⟨p', rfl⟩
  · exact h w hw (suffix_cut h32 hp)

theorem last_line (s : Bytes) : 10 ∉ s ∨ ∃ t p, s = t ++ 10 :: p ∧ 10 ∉ p := by
  induction s with
  | nil => left; simp
  | cons b s ih =>
    rcases ih with h | ⟨t, p, rfl, h⟩
    · by_cases hb : b = 10
      · right; exact ⟨[], s, by rw [hb]; rfl, h⟩
      · left; simp [h, Ne.symm hb]
    · right; exact ⟨b :: t, p, rfl, h⟩

theorem go_line {s p : Bytes} (h : 10 ∉ s) : prefixLinesGo p s = s := by
  induction s with
  | nil => rfl
  | cons b s ih =>
    rw [List.mem_cons, not_or] at h
    rw [prefixLinesGo, if_neg (Ne.symm h.1), ih h.2]

/-- A piece in a quote is a piece. -/
theorem solid_prefix {s : Bytes} (h : Solid s) (hc : ¬ codeNewline <:+: s) : Solid (prefixLines s [62, 32]) := by
  have hc' := prefix_code hc
  refine ⟨by simp [prefixLines], ?_, ?_, fun d hd => ?_, fun h => hc' h.isInfix⟩
  · exact noLeading_of_head (by decide) _
  · rw [prefixLines]
    rcases last_line s with h10 | ⟨t, p, e, h10⟩
    · rw [go_line h10]
      exact trailing_sp h.ne h.trailing [62]
    · have hp : p ≠ [] := by
        rintro rfl
        exact h.trailing [10] (by decide) ⟨t, e.symm⟩
      have e2 : prefixLinesGo [62, 32] s = prefixLinesGo [62, 32] t ++ 10 :: 62 :: 32 :: p := by
        rw [e, go_append, prefixLinesGo, if_pos rfl, go_line h10]
        rfl
      rw [e2]
      have := trailing_sp hp (trailing_of_suffix (t := t ++ [10]) h.trailing (by rw [e]; simp)) ([62, 32] ++ (prefixLinesGo [62, 32] t ++ [10, 62]))
      simpa using this
  · rw [soft_id hc', prefixLines]
    obtain ⟨s', c, e, h1, h2⟩ := last_split h.ne h.trailing
    have hsafe := h.safe 1 (by omega)
    rw [soft_id hc, e, danger_append] at hsafe
    cases hd1 : danger 1 s' with
    | none => rw [hd1] at hsafe; cases hsafe
    | some g =>
      have := danger_prefix s' 1 1 g hd1 (by omega)
      obtain ⟨g', hg'⟩ := Option.isSome_iff_exists.1 this
      show danger d (62 :: 32 :: prefixLinesGo [62, 32] s) = some 0
      rw [danger, if_neg (by decide), if_neg (by decide), danger, if_neg (by decide), if_pos rfl, e, go_last h1, danger_append]
      show (danger 1 _).bind _ = _
      rw [hg']
      simp [danger, h1, h2]

theorem unl_prefix : ∀ {ls : List Bytes}, ls ≠ [] → (∀ l ∈ ls, 10 ∉ l) → unl (ls.map ([62, 32] ++ ·)) = prefixLines (unl ls) [62, 32]
  | [], h, _ => absurd rfl h
  | [l], _, h => by rw [prefixLines, unl, go_line (h l (by simp))]; rfl
  | l :: l2 :: ls, _, h => by
    have ih := unl_prefix (ls := l2 :: ls) (by simp) fun x hx => h x (by simp [hx])
    rw [List.map_cons, unl_cons _ (by simp), ih, unl, prefixLines, prefixLines, go_append, prefixLinesGo, if_pos rfl, go_line (h l (by simp))]
    simp

/-! ## Reading -/

/-- A quote is read if what is in it is read. -/
theorem reads_quote {Q : List Bytes} {mds : List Md} (hne : Q ≠ []) (h : ∀ f, 2 * size Q < f → readBlocks f Q = some mds) :
    Reads false (Q.map ([62, 32] ++ ·)) [.quote mds] := by
  intro tail r ht hr f hf
  have hs : ∀ Q : List Bytes, size (Q.map ([62, 32] ++ ·)) = size Q + 2 * Q.length := by
    intro Q
    induction Q with
    | nil => rfl
    | cons l Q ih => rw [List.map_cons, size, size, ih]; simp; omega
  have htake : ∀ Q : List Bytes, (Q.map ([62, 32] ++ ·) ++ tail).takeWhile (b!"> ".isPrefixOf ·) = Q.map ([62, 32] ++ ·) ∧
      (Q.map ([62, 32] ++ ·) ++ tail).dropWhile (b!"> ".isPrefixOf ·) = tail := by
    intro Q
    induction Q with
    | nil =>
      rcases ht.cases with rfl | ⟨t, rfl⟩
      · exact ⟨rfl, rfl⟩
      · exact ⟨rfl, rfl⟩
    | cons l Q ih =>
      have e : b!"> ".isPrefixOf ([62, 32] ++ l) = true := by simp [List.isPrefixOf]
      rw [List.map_cons, List.cons_append, List.takeWhile_cons, List.dropWhile_cons, e, if_pos rfl, if_pos rfl, ih.1, ih.2]
      exact ⟨rfl, rfl⟩
  cases f with
  | zero => omega
  | succ f =>
    have hlen : 0 < Q.length := List.length_pos_iff.2 hne
    rw [size_append, hs] at hf
    have hq := h f (by omega)
    obtain ⟨t1, t2⟩ := htake Q
    have hmap : (Q.map ([62, 32] ++ ·)).map (·.drop 2) = Q := by
      rw [List.map_map]
      exact List.map_id' Q
    cases Q with
    | nil => exact absurd rfl hne
    | cons l Q =>
      rw [List.map_cons, List.cons_append] at t1 t2 ⊢
      rw [List.map_cons] at hmap
      have e0 : [62, 32] ++ l = 62 :: 32 :: l := rfl
      have e1 : isBlankLine ([62, 32] ++ l) = false := by rw [e0]; simp [isBlankLine]
      have e2 : isThematicBreak ([62, 32] ++ l) = false := by rw [e0, isThematicBreak]; simp
      have e3 : readAtx ([62, 32] ++ l) = none := by
        rw [readAtx, dropIndent3_id (by simp), e0]; simp
      have e4 : ∀ ls, readFenced (([62, 32] ++ l) :: ls) = none := by intro ls; rw [e0]; simp [readFenced]
      have e5 : readMarker ([62, 32] ++ l) = none := by rw [e0, readMarker.eq_def]; simp [isDigit]
      have e6 : ¬ [62, 32] ++ l = b!"<!--THE END-->" := by rw [e0]; simp
      have e7 : ([62, 32] ++ l).head? = some 62 := rfl
      rw [readBlocks_cons, e1, e2, e3, e4, e5]
      rw [if_neg (by simp), if_neg (by rw [e7]; decide), if_neg (by simp)]
      simp only [e6, if_false]
      rw [if_pos e7, t1, t2, hmap, hq, hr f (by omega), if_pos]
      · rfl
      · refine ⟨by simp, ?_⟩
        rcases ht.cases with rfl | ⟨t, rfl⟩
        · rfl
        · rfl

/-! ## Pieces in quotes -/

/-- A piece as it is read in a quote. -/
def Piece.quoted (hs : List Handler) (p : Piece) : Piece := rawPiece (unl (qlines hs p.toks)) p.md p.isList

/-- What is needed of a piece in a quote. -/
structure QOK (hs : List Handler) (bullet : Bytes) (p : Piece) : Prop where
  ok : (p.quoted hs).OK hs bullet
  plain : ¬ codeNewline <:+: p.toks.map Prod.snd

/-- No code with several lines. -/
def Piece.flat (p : Piece) : Prop := ¬ codeNewline <:+: p.toks.map Prod.snd

theorem code_unl : ∀ {ls : List Bytes}, codeNewline <:+: unl ls → ∃ l ∈ ls, codeNewline <:+: l
  | [], h => by rw [unl] at h; exact absurd (List.infix_nil.1 h) (by decide)
  | [l], h => ⟨l, by simp, h⟩
  | l :: l2 :: ls, h => by
    rw [unl, show l ++ 10 :: unl (l2 :: ls) = l ++ [10] ++ unl (l2 :: ls) by simp] at h
    by_cases h1 : codeNewline <:+: l
    · exact ⟨l, by simp, h1⟩
    · have : codeNewline <:+: unl (l2 :: ls) := by
        obtain ⟨x, y, e⟩ := h
        rw [List.append_assoc, List.append_assoc, List.singleton_append] at e
        rcases List.append_eq_append_iff.1 e with ⟨z, e1, e2⟩ | ⟨z, e1, e2⟩
        · exfalso
          rcases List.append_eq_append_iff.1 e2 with ⟨z2, e3, e4⟩ | ⟨z2, e3, e4⟩
          · exact h1 ⟨x, z2, by rw [e1, e3]; simp⟩
          · cases z2 with
            | nil => rw [List.append_nil] at e3; exact h1 ⟨x, [], by rw [e1, e3]; simp⟩
            | cons c z2 =>
              rw [List.cons_append, List.cons.injEq] at e4
              have : (10 : UInt8) ∈ codeNewline := by rw [e3, e4.1]; simp
              exact absurd this (by decide)
        · cases z with
          | nil =>
            rw [List.nil_append] at e2
            rw [codeNewline, List.cons_append, List.cons.injEq] at e2
            exact absurd e2.1 (by decide)
          | cons c z =>
            rw [List.cons_append, List.cons.injEq] at e2
            exact ⟨z, y, by rw [e2.2]; simp⟩
      obtain ⟨l', h1, h2⟩ := code_unl this
      exact ⟨l', List.mem_cons_of_mem _ h1, h2⟩

theorem tokLines_infix {ts L : Toks} (h : L ∈ tokLines ts) : L <:+: ts := by
  have : ∀ (ts : Toks), ∃ l ls, tokLines ts = l :: ls ∧ l <+: ts ∧ ∀ x ∈ ls, x <:+: ts := by
    intro ts
    induction ts with
    | nil => exact ⟨[], [], rfl, List.prefix_refl _, by simp⟩
    | cons t ts ih =>
      obtain ⟨l, ls, e, h1, h2⟩ := ih
      rw [tokLines, e]
      split
      · refine ⟨_, _, rfl, List.nil_prefix, ?_⟩
        intro x hx
        rcases List.mem_cons.1 hx with rfl | hx
        · exact h1.isInfix.trans ⟨[t], [], by simp⟩
        · exact (h2 x hx).trans ⟨[t], [], by simp⟩
      · refine ⟨_, _, rfl, ?_, ?_⟩
        · exact (List.prefix_cons_inj t).2 h1
        · intro x hx
          exact (h2 x hx).trans ⟨[t], [], by simp⟩
  obtain ⟨l, ls, e, h1, h2⟩ := this ts
  rw [e] at h
  rcases List.mem_cons.1 h with rfl | h
  · exact h1.isInfix
  · exact h2 L h

theorem qlines_code {ts : Toks} (h : ¬ codeNewline <:+: ts.map Prod.snd) : ∀ l ∈ qlines hs ts, ¬ codeNewline <:+: l := by
  intro l hl hi
  rw [qlines, List.mem_map] at hl
  obtain ⟨L, hL, rfl⟩ := hl
  rw [renToks_by] at hi
  have := encBy_infix (by decide) (by decide) _ hi
  rw [W_snd] at this
  exact h (this.trans ((tokLines_infix hL).map _))

theorem quoted_fin {p : Piece} (h : p.flat) : (p.quoted hs).fin hs = qlines hs p.toks := by
  rw [Piece.fin, Piece.quoted, rawPiece_out, restoreCodeNewlines, replaceAll_id, lines_unl (qlines_ne _) fun l hl => qlines_nl hl]
  intro hi
  obtain ⟨l, h1, h2⟩ := code_unl hi
  exact qlines_code h l h1 h2

theorem seq_quoted : ∀ {ps : List Piece}, (∀ p ∈ ps, p.flat) → ps ≠ [] → seqLines hs (ps.map (Piece.quoted hs)) = qlines hs (joinToks ps)
  | [], _, h => absurd rfl h
  | [p], h, _ => by
    rw [List.map_cons, List.map_nil, seqLines, quoted_fin (h p (by simp))]; rfl
  | p :: q :: ps, h, _ => by
    have ih := seq_quoted (ps := q :: ps) (fun x hx => h x (List.mem_cons_of_mem _ hx)) (by simp)
    rw [List.map_cons, List.map_cons, seqLines, ← List.map_cons, ih, quoted_fin (h p (by simp)), joinToks, qlines_append]
    congr 1

theorem quoted_apart : ∀ {ps : List Piece}, ListsApart ps → ListsApart (ps.map (Piece.quoted hs))
  | [], _ => trivial
  | [p], _ => trivial
  | p :: q :: ps, h => ⟨h.1, quoted_apart (ps := q :: ps) h.2⟩

/-- A quote. -/
def quotePiece (ps : List Piece) : Piece := ⟨quoteToks (joinToks ps), [.quote (ps.flatMap Piece.md)], false⟩

theorem flat_join : ∀ {ps : List Piece}, (∀ p ∈ ps, p.flat) → ¬ codeNewline <:+: (joinToks ps).map Prod.snd
  | [], _ => by
    intro h
    exact absurd (List.infix_nil.1 h) (by decide)
  | [p], h => h p (by simp)
  | p :: q :: ps, h => by
    have ih := flat_join (ps := q :: ps) (fun x hx => h x (List.mem_cons_of_mem _ hx))
    intro hi
    have e : (joinToks (p :: q :: ps)).map Prod.snd = unl [p.toks.map Prod.snd, [], (joinToks (q :: ps)).map Prod.snd] := by
      simp [joinToks, unl]
    rw [e] at hi
    obtain ⟨l, h1, h2⟩ := code_unl hi
    simp only [List.mem_cons, List.not_mem_nil, or_false] at h1
    rcases h1 with rfl | rfl | rfl
    · exact h p (by simp) h2
    · exact absurd (List.infix_nil.1 h2) (by decide)
    · exact ih h2

theorem glue_unl {ps : List Piece} (h : ∀ p ∈ ps, p.flat) (hne : ps ≠ []) : unl (qlines hs (joinToks ps)) = glue ((ps.map (Piece.quoted hs)).map (Piece.out hs)) := by
  have hap : ∀ (a b : List Bytes), a ≠ [] → b ≠ [] → unl (a ++ b) = unl a ++ 10 :: unl b := by
    intro a
    induction a with
    | nil => intro b h; exact absurd rfl h
    | cons l a ih =>
      intro b _ hb
      by_cases ha : a = []
      · subst ha; rw [List.singleton_append, unl_cons _ hb]; rfl
      · rw [List.cons_append, unl_cons _ (by simp [ha]), unl_cons _ ha, ih b ha hb]; simp
  induction ps with
  | nil => exact absurd rfl hne
  | cons p ps ih =>
    cases ps with
    | nil =>
      rw [List.map_cons, List.map_nil, List.map_cons, List.map_nil, glue, Piece.quoted, rawPiece_out]; rfl
    | cons q ps =>
      have ih' := ih (fun x hx => h x (List.mem_cons_of_mem _ hx)) (by simp)
      rw [List.map_cons, List.map_cons, glue_cons _ (by simp), ← ih', joinToks, qlines_append, hap _ _ (qlines_ne _) (qlines_ne _), Piece.quoted, rawPiece_out]
      have e : qlines hs ((false, NL) :: joinToks (q :: ps)) = [] :: qlines hs (joinToks (q :: ps)) := rfl
      rw [e, unl_cons _ (qlines_ne _)]
      rfl

theorem quote_ok (hst : IsStock dig hs) (hbul : bullet ∈ [b!"-", b!"+", b!"*"]) {ps : List Piece} (hne : ps ≠ [])
    (hok : ∀ p ∈ ps, p.OK hs bullet) (hq : ∀ p ∈ ps, QOK hs bullet p) (hap : ListsApart ps) :
    (quotePiece ps).OK hs bullet ∧ QOK hs bullet (quotePiece ps) := by
  have hflat : ∀ p ∈ ps, p.flat := fun p hp => (hq p hp).plain
  have hwf := wf_quote (wf_join ps hok)
  have hcode := flat_join hflat
  have hqne : ps.map (Piece.quoted hs) ≠ [] := by simpa using hne
  have hqok : ∀ q ∈ ps.map (Piece.quoted hs), q.OK hs bullet := by
    intro q h
    rw [List.mem_map] at h
    obtain ⟨p, hp, rfl⟩ := h
    exact (hq p hp).ok
  have hmd : (ps.map (Piece.quoted hs)).flatMap Piece.md = ps.flatMap Piece.md := by rw [List.flatMap_map]; rfl
  have hread := reads_seq (ps.map (Piece.quoted hs)) hqne hqok (quoted_apart hap) [] (.inl rfl)
  rw [seq_quoted hflat hne, List.append_nil, hmd] at hread
  have hout : (quotePiece ps).out hs = unl ((qlines hs (joinToks ps)).map ([62, 32] ++ ·)) := out_quote hst _ _ [] rfl (wf_join ps hok)
  have hout' : (quotePiece ps).out hs = prefixLines (unl (qlines hs (joinToks ps))) [62, 32] := by
    rw [hout, unl_prefix (qlines_ne _) fun l hl => qlines_nl hl]
  have hcu : ¬ codeNewline <:+: unl (qlines hs (joinToks ps)) := by
    intro hi
    obtain ⟨l, h1, h2⟩ := code_unl hi
    exact qlines_code hcode l h1 h2
  have hfin : (quotePiece ps).fin hs = (qlines hs (joinToks ps)).map ([62, 32] ++ ·) := by
    rw [Piece.fin, restoreCodeNewlines, replaceAll_id (by rw [hout']; exact prefix_code hcu), hout, lines_unl (by simp [qlines_ne])]
    intro l hl
    rw [List.mem_map] at hl
    obtain ⟨l', h1, rfl⟩ := hl
    have := qlines_nl h1
    simp [this]
  have hraw : (quotePiece ps).raw = prefixLines (glue (ps.map Piece.raw)) [62, 32] := by
    rw [Piece.raw, quotePiece, enc_quote, enc_join]
  have hsr : Solid (quotePiece ps).raw := by
    rw [hraw]
    refine solid_prefix (glue_solid (by simpa using hne) ?_) ?_
    · intro x hx
      rw [List.mem_map] at hx
      obtain ⟨p, hp, rfl⟩ := hx
      exact (hok p hp).raw
    · intro hi
      rw [← enc_join, encToks_by] at hi
      exact hcode (encBy_infix (by decide) (by decide) _ hi)
  have hso : Solid ((quotePiece ps).out hs) := by
    rw [hout', glue_unl hflat hne]
    refine solid_prefix (glue_solid (by simpa using hne) ?_) ?_
    · intro x hx
      rw [List.mem_map] at hx
      obtain ⟨p, hp, rfl⟩ := hx
      exact (hqok p hp).out
    · rw [← glue_unl hflat hne]; exact hcu
  have hbeg : Begins bullet false ((quotePiece ps).fin hs) := by
    rw [hfin]
    cases e : qlines hs (joinToks ps) with
    | nil => exact absurd e (qlines_ne _)
    | cons l ls =>
      refine ⟨[62, 32] ++ l, ls.map ([62, 32] ++ ·), rfl, ⟨by simp, by simp, by simp⟩, first_of (x := 62) hbul (by simp) (by decide), fun _ => .inl ?_⟩
      show readMarker (62 :: 32 :: l) = none
      rw [readMarker.eq_def]; simp [isDigit]
  have hb : 13 ∉ (quotePiece ps).out hs ∧ 0 ∉ (quotePiece ps).out hs := by
    have key : ∀ b, b ≠ 10 → b ≠ 62 → b ≠ 32 → (∀ p ∈ ps, b ∉ (p.quoted hs).out hs) → b ∉ (quotePiece ps).out hs := by
      intro b b1 b2 b3 hb hm
      rw [hout', prefixLines, List.mem_append] at hm
      have hc : b ∈ unl (qlines hs (joinToks ps)) := by
        rcases hm with hm | hm
        · simp [b2, b3] at hm
        · rcases go_mem hm with hm | hm
          · simp [b2, b3] at hm
          · exact hm
      · rw [glue_unl hflat hne] at hc
        rcases glue_mem hc with hc | ⟨x, hx, hc⟩
        · exact b1 hc
        · rw [List.mem_map] at hx
          obtain ⟨y, hy, rfl⟩ := hx
          rw [List.mem_map] at hy
          obtain ⟨p, hp, rfl⟩ := hy
          exact hb p hp hc
    exact ⟨key 13 (by decide) (by decide) (by decide) fun p hp => (hq p hp).ok.bytes.1, key 0 (by decide) (by decide) (by decide) fun p hp => (hq p hp).ok.bytes.2⟩
  have hreads : Reads false ((quotePiece ps).fin hs) (quotePiece ps).md := by
    rw [hfin]
    exact reads_quote (qlines_ne _) hread
  have h1 : (quotePiece ps).OK hs bullet := ⟨hwf, hsr, hso, hreads, hbeg, hb, out_mark hwf⟩
  have hplain : (quotePiece ps).flat := by
    rw [Piece.flat, quotePiece, snd_quote]; exact prefix_code hcode
  have hsame : unl (qlines hs (quotePiece ps).toks) = (quotePiece ps).out hs := by
    rw [quotePiece, qlines_quote hst, ← hout]; rfl
  have hqf : ((quotePiece ps).quoted hs).fin hs = (quotePiece ps).fin hs := by
    rw [Piece.fin, Piece.quoted, rawPiece_out, hsame]; rfl
  refine ⟨h1, ⟨?_, hplain⟩⟩
  have hwf' : WF ((quotePiece ps).quoted hs).toks := by
    rw [Piece.quoted, hsame]; exact rawPiece_wf h1.mark _ _
  refine ⟨hwf', ?_, ?_, ?_, ?_, ?_, out_mark hwf'⟩
  · rw [Piece.quoted, rawPiece_raw, hsame]; exact hso
  · rw [Piece.quoted, rawPiece_out, hsame]; exact hso
  · rw [hqf]; exact hreads
  · rw [hqf]; exact hbeg
  · rw [Piece.quoted, rawPiece_out, hsame]; exact hb

theorem qok_same {p : Piece} (h : p.OK hs bullet) (hsame : unl (qlines hs p.toks) = p.out hs) (hc : p.flat) : QOK hs bullet p := by
  have hqf : (p.quoted hs).fin hs = p.fin hs := by
    rw [Piece.fin, Piece.quoted, rawPiece_out, hsame]; rfl
  have hwf' : WF (p.quoted hs).toks := by
    rw [Piece.quoted, hsame]; exact rawPiece_wf h.mark _ _
  refine ⟨⟨hwf', ?_, ?_, ?_, ?_, ?_, out_mark hwf'⟩, hc⟩
  · rw [Piece.quoted, rawPiece_raw, hsame]; exact h.out
  · rw [Piece.quoted, rawPiece_out, hsame]; exact h.out
  · rw [hqf]; exact h.reads
  · rw [hqf]; exact h.begins
  · rw [Piece.quoted, rawPiece_out, hsame]; exact h.bytes

theorem W_all_raw {ts : Toks} (h : ∀ t ∈ ts, t.1 = false) (rev : Bytes) : W hs rev 0 ts = ts := by
  have := W_raw (hs := hs) ts [] rev h
  rw [List.append_nil] at this
  rw [this]; simp [W]

theorem qlines_raw (s : Bytes) : unl (qlines hs (s.map (false, ·))) = s := by
  have key : ∀ (s : Bytes), ∃ l ls, tokLines (s.map ((false, ·) : UInt8 → Bool × UInt8)) = l :: ls ∧ unl ((l :: ls).map (List.map Prod.snd)) = s := by
    intro s
    induction s with
    | nil => exact ⟨[], [], rfl, rfl⟩
    | cons b s ih =>
      obtain ⟨l, ls, e1, e2⟩ := ih
      rw [List.map_cons, tokLines]
      split
      · rename_i hb
        refine ⟨[], _, rfl, ?_⟩
        rw [e1, List.map_cons, unl_cons _ (by simp), e2]
        simp only at hb
        rw [hb]; rfl
      · rw [e1]
        refine ⟨_, _, rfl, ?_⟩
        rw [← e2]
        cases ls <;> simp [unl]
  obtain ⟨l, ls, e1, e2⟩ := key s
  have : qlines hs (s.map (false, ·)) = (tokLines (s.map (false, ·))).map (List.map Prod.snd) := by
    rw [qlines]
    apply List.map_congr_left
    intro L hL
    have hraw : ∀ t ∈ L, t.1 = false := fun t ht => raw_first s t ((tokLines_mem hL).2 t ht)
    rw [W_all_raw hraw, renToks_raw _ hraw]
  rw [this, e1, e2]

theorem flat_raw {s : Bytes} {md : List Md} {isList : Bool} : (rawPiece s md isList).flat ↔ ¬ codeNewline <:+: s := by
  rw [Piece.flat, rawPiece, List.map_map]
  have : s.map (Prod.snd ∘ ((false, ·) : UInt8 → Bool × UInt8)) = s := List.map_id _
  rw [this]

theorem qok_raw {s : Bytes} {md : List Md} {isList : Bool} (h : (rawPiece s md isList).OK hs bullet) (hc : ¬ codeNewline <:+: s) :
    QOK hs bullet (rawPiece s md isList) :=
  qok_same h (by rw [rawPiece_out]; exact qlines_raw s) (flat_raw.2 hc)

end Verif.Page
