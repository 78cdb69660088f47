import Verif.Proofs.EscapeInline
/-!
# Un-escaping does not look beyond a blank line

The stock handlers decide about a marked character from the bytes around it.  The lemmas of this file
show that none of them sees what lies behind a blank line, in either direction.
-/

namespace Verif.Escape
open Verif

variable {hs : List Handler}

theorem isCont_nl : isCont NL = false := by decide

theorem takeWhile_append_nl (s y : Bytes) : (s ++ NL :: y).takeWhile isCont = s.takeWhile isCont := by
  induction s with
  | nil => simp [isCont_nl]
  | cons b s ih => simp only [List.cons_append, List.takeWhile_cons, ih]

theorem decodeRune_append_nl (b : UInt8) (s y : Bytes) :
    decodeRune (b :: (s ++ NL :: y)) = decodeRune (b :: s) := by
  rw [decodeRune_conts, takeWhile_append_nl, ← decodeRune_conts]

theorem getNextAsRune_append (s y : Bytes) :
    (isSpaceRune (getNextAsRune (s ++ NL :: y)) || getNextAsRune (s ++ NL :: y) == 0) =
      (isSpaceRune (getNextAsRune s) || getNextAsRune s == 0) := by
  induction s with
  | nil =>
    have h : getNextAsRune (NL :: y) = 10 := by
      rw [getNextAsRune, if_neg (by decide), decodeRune_ascii _ _ (by decide)]; rfl
    rw [List.nil_append, h]; rfl
  | cons b s ih =>
    simp only [List.cons_append, getNextAsRune]
    split
    · exact ih
    · rw [decodeRune_append_nl]

theorem getNext_append (s y : Bytes) :
    (isSpaceByte (getNext (s ++ NL :: y)) || getNext (s ++ NL :: y) == 0) =
      (isSpaceByte (getNext s) || getNext s == 0) := by
  induction s with
  | nil => simp [getNext]; decide
  | cons b s ih =>
    simp only [List.cons_append, getNext]
    split
    · exact ih
    · rfl

theorem fencedCodeLoop_append (s y : Bytes) : ∀ count n,
    fencedCodeLoop count n (s ++ NL :: y) = fencedCodeLoop count n s := by
  induction s with
  | nil => intro count n; simp [fencedCodeLoop]
  | cons b s ih => intro count n; simp only [List.cons_append, fencedCodeLoop, ih]

theorem dividerLoop_append (c : UInt8) (hc : c ≠ NL) (s y : Bytes) : ∀ count n,
    dividerLoop c count n (s ++ NL :: y) = dividerLoop c count n s := by
  induction s with
  | nil =>
    intro count n
    have h1 : ¬ (NL : UInt8) = MARK := by decide
    have h2 : ¬ (NL : UInt8) = SP := by decide
    simp only [List.nil_append, dividerLoop]
    rw [if_neg h1, if_neg h2, if_neg (Ne.symm hc), if_pos trivial]
  | cons b s ih => intro count n; simp only [List.cons_append, dividerLoop, ih]

theorem bracketLoop_append (s y : Bytes) : bracketLoop (s ++ NL :: y) = bracketLoop s := by
  induction s with
  | nil => simp [bracketLoop]
  | cons b s ih => simp only [List.cons_append, bracketLoop, ih]

theorem atxLoop_append (s y : Bytes) : ∀ count n,
    (atxLoop count n (s ++ NL :: y)).isSome = (atxLoop count n s).isSome := by
  induction s with
  | nil => intro count n; simp [atxLoop]
  | cons b s ih =>
    intro count n
    simp only [List.cons_append, atxLoop]
    split
    · split
      · rfl
      · exact ih _ _
    · split
      · exact ih _ _
      · rfl

/-- What follows a newline plays no role, except for how far a heading marker is skipped. -/
theorem stock_append {dig} (h : IsStock dig hs) (rev : Bytes) (c : UInt8) (rest y : Bytes) (hc : c ≠ 35) :
    checkElements hs rev c (rest ++ NL :: y) = checkElements hs rev c rest := by
  have key : ∀ g ∈ hs, g rev c (rest ++ NL :: y) = g rev c rest := by
    intro g hg
    rcases h.mem g hg with hg | rfl
    · simp only [commonmarkHandlers, List.mem_cons, List.not_mem_nil, or_false] at hg
      rcases hg with rfl|rfl|rfl|rfl|rfl|rfl|rfl|rfl|rfl|rfl|rfl
      · simp only [isItalicOrBold, getNextAsRune_append]
      · rfl
      · simp only [isAtxHeader]; rw [if_pos hc, if_pos hc]
      · rfl
      · simp only [isDivider]
        split
        · rfl
        · rename_i hcc
          rw [dividerLoop_append c (by rintro rfl; exact hcc (by decide))]
      · simp only [isOrderedList, getNext_append]
      · simp only [isUnorderedList, getNext_append]
      · simp only [isImageOrLink, bracketLoop_append]
        split
        · cases rest with
          | nil => simp
          | cons b rest => rfl
        · rfl
      · simp only [isFencedCode, fencedCodeLoop_append]
      · rfl
      · rfl
    · simp only [isStrikethrough, getNextAsRune_append]
  clear h
  induction hs with
  | nil => rfl
  | cons g gs ih =>
    simp only [checkElements]
    rw [key g (by simp), ih (fun g' hg' => key g' (by simp [hg']))]

theorem checkElements_of_only {h : Handler} {rev c rest} (hm : h ∈ hs)
    (ho : ∀ g ∈ hs, g rev c rest = none ∨ g rev c rest = h rev c rest) :
    checkElements hs rev c rest = h rev c rest := by
  cases hce : checkElements hs rev c rest with
  | none => exact (checkElements_none hce h hm).symm
  | some n =>
    obtain ⟨g, hg, hgn⟩ := checkElements_mem hce
    rcases ho g hg with h' | h'
    · rw [h'] at hgn; simp at hgn
    · rw [← h', hgn]

theorem stock_hash {dig} (h : IsStock dig hs) (rev : Bytes) (rest : Bytes) :
    checkElements hs rev 35 rest = isAtxHeader rev 35 rest := by
  apply checkElements_of_only (h.good.mem _ (by simp [commonmarkHandlers]))
  intro g hg
  rcases h.mem g hg with hg | rfl
  · simp only [commonmarkHandlers, List.mem_cons, List.not_mem_nil, or_false] at hg
    rcases hg with rfl|rfl|rfl|rfl|rfl|rfl|rfl|rfl|rfl|rfl|rfl
    · left; simp only [isItalicOrBold]; rw [if_pos (by decide)]
    · left; simp only [isBlockQuote]; rw [if_pos (by decide)]
    · right; rfl
    · left; simp only [isSetextHeader]; rw [if_pos (by decide)]
    · left; simp only [isDivider]; rw [if_pos (by decide)]
    · left; simp only [isOrderedList]; rw [if_pos (by decide)]
    · left; simp only [isUnorderedList]; rw [if_pos (by decide)]
    · left; simp only [isImageOrLink]; rw [if_neg (by decide), if_neg (by decide)]
    · left; simp only [isFencedCode]; rw [if_pos (by decide)]
    · left; simp only [Escape.isInlineCode]; rw [if_pos (by decide)]
    · left; simp only [isBackslash]; rw [if_pos (by decide)]
  · left; simp only [isStrikethrough]; rw [if_pos (by decide)]

/-! ## Looking back -/

theorem atLineStart_append (rev x : Bytes) : atLineStart (rev ++ NL :: x) = atLineStart rev := by
  induction rev with
  | nil => simp [atLineStart]
  | cons b rev ih => simp only [List.cons_append, atLineStart, ih]

theorem digitsToLineStart_append (rev x : Bytes) :
    digitsToLineStart (rev ++ NL :: x) = digitsToLineStart rev := by
  induction rev with
  | nil => simp [digitsToLineStart]
  | cons b rev ih => simp only [List.cons_append, digitsToLineStart, ih]

theorem setextLoop_two (x : Bytes) : ∀ k, 2 ≤ k → setextLoop k x = none := by
  induction x with
  | nil => intro k _; rfl
  | cons b x ih =>
    intro k hk
    simp only [setextLoop]
    split
    · exact ih k hk
    · split
      · exact ih _ (by omega)
      · rw [if_neg (by omega), if_neg (by omega)]

theorem setextLoop_append (rev x : Bytes) : ∀ k,
    setextLoop k (rev ++ NL :: NL :: x) = setextLoop k rev := by
  induction rev with
  | nil =>
    intro k
    simp only [List.nil_append, setextLoop]
    rw [if_neg (by decide), if_pos trivial, if_neg (by decide), if_pos trivial, setextLoop_two _ _ (by omega)]
  | cons b rev ih => intro k; simp only [List.cons_append, setextLoop, ih]

theorem lastRuneBytes_append (x : Bytes) : ∀ (n : Nat) (rev acc : Bytes),
    lastRuneBytes n (rev ++ NL :: x) acc = lastRuneBytes n rev acc ∨
      (lastRuneBytes n rev acc = none ∧ ∃ cs, lastRuneBytes n (rev ++ NL :: x) acc = some (NL :: cs ++ acc) ∧
        cs.length = rev.length) := by
  intro n
  induction n with
  | zero => intro rev acc; left; cases rev <;> simp [lastRuneBytes]
  | succ n ih =>
    intro rev acc
    cases rev with
    | nil => right; exact ⟨by simp [lastRuneBytes], [], by simp [lastRuneBytes, isCont_nl], rfl⟩
    | cons b rev =>
      simp only [List.cons_append, lastRuneBytes]
      split
      · rcases ih rev (b :: acc) with h | ⟨h1, cs, h2, h3⟩
        · exact .inl h
        · exact .inr ⟨h1, cs ++ [b], by rw [h2]; simp, by simp [h3]⟩
      · exact .inl rfl

theorem decodeLastRune_append (b : UInt8) (rev x : Bytes) :
    (decodeLastRune (b :: (rev ++ NL :: x))).1 = (decodeLastRune (b :: rev)).1 := by
  simp only [decodeLastRune]
  split
  · rfl
  · rcases lastRuneBytes_append x 4 (b :: rev) [] with h | ⟨h1, cs, h2, h3⟩
    · rw [List.cons_append] at h; rw [h]
    · rw [List.cons_append] at h2; rw [h1, h2]
      simp only [List.append_nil, decodeRune_ascii NL _ (by decide)]
      rw [if_neg]
      intro h
      rw [List.length_cons, h3, List.length_cons] at h
      omega

theorem getPrevAsRune_append {dig : Nat → Bool} (h0 : dig 0 = false) (h1 : dig 10 = false) (rev x : Bytes) :
    dig (getPrevAsRune (rev ++ NL :: x)) = dig (getPrevAsRune rev) := by
  induction rev with
  | nil =>
    have h : getPrevAsRune (NL :: x) = 10 := by
      rw [getPrevAsRune, if_neg (by decide), decodeLastRune, if_pos (by decide)]; rfl
    rw [List.nil_append, h, h1, getPrevAsRune, h0]
  | cons b rev ih =>
    simp only [List.cons_append, getPrevAsRune]
    split
    · exact ih
    · rw [decodeLastRune_append]

/-- What precedes a blank line plays no role. -/
theorem stock_append_back {dig} (h : IsStock dig hs) (h0 : dig 0 = false) (h1 : dig 10 = false)
    (rev x : Bytes) (c : UInt8) (rest : Bytes) :
    checkElements hs (rev ++ NL :: NL :: x) c rest = checkElements hs rev c rest := by
  have key : ∀ g ∈ hs, g (rev ++ NL :: NL :: x) c rest = g rev c rest := by
    intro g hg
    rcases h.mem g hg with hg | rfl
    · simp only [commonmarkHandlers, List.mem_cons, List.not_mem_nil, or_false] at hg
      rcases hg with rfl|rfl|rfl|rfl|rfl|rfl|rfl|rfl|rfl|rfl|rfl
      · rfl
      · simp only [isBlockQuote, atLineStart_append]
      · simp only [isAtxHeader, atLineStart_append]
      · simp only [isSetextHeader, setextLoop_append]
      · simp only [isDivider, atLineStart_append]
      · simp only [isOrderedList, digitsToLineStart_append, getPrevAsRune_append h0 h1]
      · simp only [isUnorderedList, atLineStart_append]
      · rfl
      · simp only [isFencedCode, atLineStart_append]
      · rfl
      · rfl
    · rfl
  clear h
  induction hs with
  | nil => rfl
  | cons g gs ih =>
    simp only [checkElements]
    rw [key g (by simp), ih (fun g' hg' => key g' (by simp [hg']))]

/-! ## The loop -/

/-- After a blank line the loop starts afresh. -/
theorem W_back {dig} (h : IsStock dig hs) (h0 : dig 0 = false) (h1 : dig 10 = false) (x : Bytes) :
    ∀ (ts : Toks) (rev : Bytes) (k : Nat), W hs (rev ++ NL :: NL :: x) k ts = W hs rev k ts := by
  intro ts
  induction ts with
  | nil => intro rev k; simp [W]
  | cons t ts ih =>
    intro rev k
    obtain ⟨m, c⟩ := t
    cases m with
    | false => simp only [W, ← List.cons_append, ih]
    | true =>
      cases k with
      | zero =>
        simp only [W, ← List.cons_append, stock_append_back h h0 h1, ih]
      | succ k => simp only [W, ← List.cons_append, ih]

/-- Skipping a part of a run of `#` that is not at the start of a line changes nothing. -/
theorem W_hashes {dig} (h : IsStock dig hs) : ∀ (ts : Toks) (rev : Bytes) (k : Nat), WF ts →
    atLineStart rev = false → (∀ b ∈ (encToks ts).take (k + 1), b = MARK ∨ b = 35) →
    W hs rev k ts = W hs rev 0 ts := by
  intro ts
  induction ts with
  | nil => intro rev k _ _ _; simp [W]
  | cons t ts ih =>
    intro rev k hwf hrev hk
    obtain ⟨m, c⟩ := t
    cases k with
    | zero => rfl
    | succ k =>
      cases m with
      | false =>
        rw [encToks_cons_f, List.take_succ_cons] at hk
        have hc : c = 35 := by
          rcases hk c (by simp) with h' | h'
          · exact absurd h' hwf.head.1
          · exact h'
        subst hc
        simp only [W]
        rw [show k + 1 - 1 = k by omega, show 0 - 1 = 0 by omega]
        rw [ih _ k hwf.tail (by rw [atLineStart_cons]; rw [if_neg (by decide), if_neg (by decide)])
          (fun b hb => hk b (by simp [hb]))]
      | true =>
        have hw := hwf.head.2 rfl
        rw [encToks_cons_t, List.take_succ_cons, List.take_succ_cons] at hk
        have hc : c = 35 := by
          rcases hk c (by simp) with h' | h'
          · exact absurd h' hw.2.2
          · exact h'
        subst hc
        have hchk : checkElements hs (MARK :: rev) 35 (encToks ts) = none := by
          rw [stock_hash h, isAtxHeader, if_neg (by decide), if_pos]
          rw [atLineStart_cons, if_neg (by decide), if_pos (by decide), hrev]; rfl
        have hnl : atLineStart (35 :: MARK :: rev) = false := by
          rw [atLineStart_cons, if_neg (by decide), if_neg (by decide)]
        simp only [W, hchk]
        cases k with
        | zero => rfl
        | succ k =>
          rw [show k + 1 - 1 = k by omega]
          rw [ih _ k hwf.tail hnl (fun b hb => hk b (by simp [hb]))]

/-- The skip that a heading marker asks for stays within a run of `#`. -/
theorem W_atx {dig} (h : IsStock dig hs) (ts : Toks) (rev : Bytes) (n : Nat) (hwf : WF ts)
    (hn : isAtxHeader (MARK :: rev) 35 (encToks ts) = some n) :
    W hs (35 :: MARK :: rev) (n - 2) ts = W hs (35 :: MARK :: rev) 0 ts := by
  rcases Nat.lt_or_ge 2 n with hlt | hge
  · apply W_hashes h ts _ _ hwf
    · rw [atLineStart_cons, if_neg (by decide), if_neg (by decide)]
    · rw [isAtxHeader, if_neg (by decide)] at hn
      split at hn
      · simp at hn
      · rcases atxLoop_spec _ _ _ _ (by omega) hn with h1 | ⟨-, h1⟩
        · omega
        · rw [show n - 2 + 1 = n - 1 by omega]; exact h1
  · rw [show n - 2 = 0 by omega]

/-- Before a blank line the loop does what it does before the end of the content. -/
theorem W_front {dig} (h : IsStock dig hs) (post : Toks) : ∀ (ts : Toks) (rev : Bytes) (k : Nat), WF ts →
    Inv rev k (encToks (ts ++ (false, NL) :: post)) →
    W hs rev k (ts ++ (false, NL) :: post) =
      W hs rev k ts ++ W hs ((encToks ts).reverse ++ rev) 0 ((false, NL) :: post) := by
  intro ts
  induction ts with
  | nil =>
    intro rev k _ hi
    rcases hi with rfl | ⟨-, hr⟩
    · simp [W]
    · exfalso
      have := hr.mem NL (by simp)
      revert this; unfold regionByte; decide
  | cons t ts ih =>
    intro rev k hwf hi
    obtain ⟨m, c⟩ := t
    cases m with
    | false =>
      rw [List.cons_append, encToks_cons_f] at hi
      have := ih (c :: rev) (k - 1) hwf.tail (Inv.step hi)
      simp only [List.cons_append, W] at this ⊢
      simp [this]
    | true =>
      have hw := hwf.head.2 rfl
      cases k with
      | succ k =>
        rw [List.cons_append, encToks_cons_t] at hi
        have h' := Inv.step (Inv.step hi)
        have := ih (c :: MARK :: rev) (k-1) hwf.tail (by rwa [show k + 1 - 1 - 1 = k - 1 by omega] at h')
        simp only [List.cons_append, W] at this ⊢
        simp [this]
      | zero =>
        have enc : encToks (ts ++ (false, NL) :: post) = encToks ts ++ NL :: encToks post := by simp
        by_cases hc : c = 35
        · subst hc
          have h2 := ih (35 :: MARK :: rev) 0 hwf.tail (.inl rfl)
          have hs2 : (isAtxHeader (MARK :: rev) 35 (encToks (ts ++ (false, NL) :: post))).isSome =
              (isAtxHeader (MARK :: rev) 35 (encToks ts)).isSome := by
            rw [enc]; simp only [isAtxHeader]
            split
            · rfl
            · split
              · rfl
              · exact atxLoop_append _ _ _ _
          have one : ∀ ts' : Toks, (∀ n, isAtxHeader (MARK :: rev) 35 (encToks ts') = some n →
              W hs (35 :: MARK :: rev) (n - 2) ts' = W hs (35 :: MARK :: rev) 0 ts') →
              W hs rev 0 ((true, 35) :: ts') =
              ((isAtxHeader (MARK :: rev) 35 (encToks ts')).isSome, 35) :: W hs (35 :: MARK :: rev) 0 ts' := by
            intro ts' hatx
            rw [W, stock_hash h]
            cases he : isAtxHeader (MARK :: rev) 35 (encToks ts') with
            | none => simp
            | some n => simp [hatx n he]
          -- the run of `#` lies before the newline
          have hboth : ∀ n, isAtxHeader (MARK :: rev) 35 (encToks (ts ++ (false, NL) :: post)) = some n →
              W hs (35 :: MARK :: rev) (n - 2) (ts ++ (false, NL) :: post) =
                W hs (35 :: MARK :: rev) 0 (ts ++ (false, NL) :: post) := by
            intro n hn
            rw [ih (35 :: MARK :: rev) (n - 2) hwf.tail (Inv.check hw h.good.ok (by rw [stock_hash h]; exact hn)), h2]
            congr 1
            rcases Nat.lt_or_ge 2 n with hlt | hge
            · apply W_hashes h ts _ _ hwf.tail
              · rw [atLineStart_cons, if_neg (by decide), if_neg (by decide)]
              · rw [isAtxHeader, if_neg (by decide)] at hn
                split at hn
                · simp at hn
                · rcases atxLoop_spec _ _ _ _ (by omega) hn with h1 | ⟨-, h1⟩
                  · omega
                  · rw [show n - 2 + 1 = n - 1 by omega]
                    intro b hb
                    rw [enc] at h1
                    apply h1
                    rw [List.take_append]
                    exact List.mem_append_left _ hb
            · rw [show n - 2 = 0 by omega]
          rw [List.cons_append, one _ hboth, one _ (fun n hn => W_atx h ts rev n hwf.tail hn), hs2, h2]
          simp
        · have hce : checkElements hs (MARK :: rev) c (encToks (ts ++ (false, NL) :: post)) =
              checkElements hs (MARK :: rev) c (encToks ts) := by
            rw [enc, stock_append h _ _ _ _ hc]
          cases he : checkElements hs (MARK :: rev) c (encToks ts) with
          | none =>
            have := ih (c :: MARK :: rev) 0 hwf.tail (.inl rfl)
            simp only [List.cons_append, W, hce, he] at this ⊢
            simp [this]
          | some n =>
            have := ih (c :: MARK :: rev) (n - 2) hwf.tail (Inv.check hw h.good.ok (by rw [hce]; exact he))
            simp only [List.cons_append, W, hce, he] at this ⊢
            simp [this]

/-- Un-escaping treats what a blank line separates separately. -/
theorem W_split {dig} (h : IsStock dig hs) (h0 : dig 0 = false) (h1 : dig 10 = false) (a b : Toks) (ha : WF a) :
    W hs [] 0 (a ++ (false, NL) :: (false, NL) :: b) =
      W hs [] 0 a ++ (false, NL) :: (false, NL) :: W hs [] 0 b := by
  rw [W_front h _ a [] 0 ha (.inl rfl)]
  simp only [W, List.append_nil]
  have := W_back h h0 h1 (encToks a).reverse b [] 0
  rw [List.nil_append] at this
  rw [this]

end Verif.Escape
