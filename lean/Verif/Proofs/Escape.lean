import Verif.Model.Escape
/-!
# Helper lemmas about the escape mechanism

The content of a document is seen as a list of tokens `(marked, byte)`: `encToks` puts the marker byte
in front of the marked ones.  `decide'` (`W`) gives the tokens of the output: `(escaped, byte)`.
-/

namespace Verif.Escape
open Verif

abbrev Toks := List (Bool × UInt8)

/-- The content in which the marked bytes are preceded by the marker. -/
def encToks (ts : Toks) : Bytes := ts.flatMap fun t => if t.1 then [MARK, t.2] else [t.2]

/-- The output in which the escaped bytes are preceded by a backslash. -/
def renToks (ts : Toks) : Bytes := ts.flatMap fun t => if t.1 then [BS, t.2] else [t.2]

@[simp] theorem encToks_nil : encToks [] = [] := rfl
@[simp] theorem encToks_cons_t (c ts) : encToks ((true, c) :: ts) = MARK :: c :: encToks ts := rfl
@[simp] theorem encToks_cons_f (c ts) : encToks ((false, c) :: ts) = c :: encToks ts := rfl
@[simp] theorem encToks_append (a b) : encToks (a ++ b) = encToks a ++ encToks b := by
  simp [encToks]
@[simp] theorem renToks_nil : renToks [] = [] := rfl
@[simp] theorem renToks_cons_t (c ts) : renToks ((true, c) :: ts) = BS :: c :: renToks ts := rfl
@[simp] theorem renToks_cons_f (c ts) : renToks ((false, c) :: ts) = c :: renToks ts := rfl
@[simp] theorem renToks_append (a b) : renToks (a ++ b) = renToks a ++ renToks b := by
  simp [renToks]

/-- The fused un-escape loop. -/
def U (hs : List Handler) (rev : Bytes) (k : Nat) (s : Bytes) : Bytes :=
  applyChanges (changesLoop hs rev k s) s

variable {hs : List Handler}

@[simp] theorem U_nil (rev k) : U hs rev k [] = [] := by
  cases k <;> simp [U, applyChanges]

theorem U_skip (rev k b bs) : U hs rev (k+1) (b :: bs) =
    if b = MARK then U hs (b::rev) k bs else b :: U hs (b::rev) k bs := by
  simp [U, changesLoop, applyChanges]

theorem U_raw (rev b bs) (h : b ≠ MARK) : U hs rev 0 (b :: bs) = b :: U hs (b::rev) 0 bs := by
  cases bs <;> simp [U, changesLoop, h, applyChanges]

theorem U_mark (rev c rest) : U hs rev 0 (MARK :: c :: rest) =
    match checkElements hs (MARK :: rev) c rest with
    | none => U hs (MARK :: rev) 0 (c :: rest)
    | some n => BS :: U hs (MARK :: rev) (n - 1) (c :: rest) := by
  rw [U, changesLoop]
  simp
  split <;> simp_all [applyChanges, U]

theorem U_mark_end (rev) : U hs rev 0 [MARK] = [] := by
  rw [U, changesLoop]; simp [applyChanges]

/-- The output tokens for a list of input tokens. -/
def W (hs : List Handler) : Bytes → Nat → Toks → Toks
  | _, _, [] => []
  | rev, k, (false, c) :: ts => (false, c) :: W hs (c :: rev) (k - 1) ts
  | rev, 0, (true, c) :: ts =>
    match checkElements hs (MARK :: rev) c (encToks ts) with
    | none => (false, c) :: W hs (c :: MARK :: rev) 0 ts
    | some n => (true, c) :: W hs (c :: MARK :: rev) (n - 2) ts
  | rev, k + 1, (true, c) :: ts => (false, c) :: W hs (c :: MARK :: rev) (k - 1) ts

theorem U_char (rev k c s) (h : c ≠ MARK) : U hs rev k (c :: s) = c :: U hs (c :: rev) (k-1) s := by
  cases k with
  | zero => simp [U_raw _ _ _ h]
  | succ k => simp [U_skip, h]

theorem U_enc (ts : Toks) (hM : ∀ t ∈ ts, t.2 ≠ MARK) : ∀ rev k,
    U hs rev k (encToks ts) = renToks (W hs rev k ts) := by
  induction ts with
  | nil => intro rev k; cases k <;> simp [W]
  | cons t ts ih =>
    intro rev k
    have ih := ih (fun t ht => hM t (by simp [ht]))
    have hc := hM t (by simp)
    obtain ⟨m, c⟩ := t
    cases m with
    | false => cases k <;> simp_all [W, U_char]
    | true =>
      cases k with
      | zero =>
        simp only [encToks_cons_t, U_mark, W]
        cases hce : checkElements hs (MARK :: rev) c (encToks ts) with
        | none => simp_all [U_char]
        | some n => simp_all [U_char]; congr 1
      | succ k =>
        simp_all [W, U_char, U_skip]

theorem unEscape_enc (ts : Toks) (hM : ∀ t ∈ ts, t.2 ≠ MARK) :
    unEscapeContent .smart hs (encToks ts) = renToks (W hs [] 0 ts) := U_enc ts hM [] 0

theorem W_snd : ∀ (ts : Toks) rev k, (W hs rev k ts).map Prod.snd = ts.map Prod.snd := by
  intro ts
  induction ts with
  | nil => intro rev k; simp [W]
  | cons t ts ih =>
    intro rev k
    obtain ⟨m, c⟩ := t
    cases m with
    | false => simp [W, ih]
    | true =>
      cases k with
      | zero => simp only [W]; split <;> simp [ih]
      | succ k => simp [W, ih]

/-- The value of the skip counter after a list of tokens. -/
def skipAfter (hs : List Handler) : Bytes → Nat → Toks → Toks → Nat
  | _, k, [], _ => k
  | rev, k, (false, c) :: ts, post => skipAfter hs (c :: rev) (k - 1) ts post
  | rev, 0, (true, c) :: ts, post =>
    match checkElements hs (MARK :: rev) c (encToks (ts ++ post)) with
    | none => skipAfter hs (c :: MARK :: rev) 0 ts post
    | some n => skipAfter hs (c :: MARK :: rev) (n - 2) ts post
  | rev, k + 1, (true, c) :: ts, post => skipAfter hs (c :: MARK :: rev) (k - 1) ts post

theorem W_append (post : Toks) : ∀ (a : Toks) rev k, ∃ a', a'.map Prod.snd = a.map Prod.snd ∧
    W hs rev k (a ++ post) =
      a' ++ W hs ((encToks a).reverse ++ rev) (skipAfter hs rev k a post) post := by
  intro a
  induction a with
  | nil => intro rev k; exact ⟨[], by simp [skipAfter]⟩
  | cons t a ih =>
    intro rev k
    obtain ⟨m, c⟩ := t
    cases m with
    | false =>
      obtain ⟨a', h1, h2⟩ := ih (c :: rev) (k - 1)
      exact ⟨(false, c) :: a', by simp [h1, W, h2, skipAfter]⟩
    | true =>
      cases k with
      | zero =>
        simp only [List.cons_append, W, skipAfter]
        cases hce : checkElements hs (MARK :: rev) c (encToks (a ++ post)) with
        | none =>
          obtain ⟨a', h1, h2⟩ := ih (c :: MARK :: rev) 0
          exact ⟨(false, c) :: a', by simp [h1, h2]⟩
        | some n =>
          obtain ⟨a', h1, h2⟩ := ih (c :: MARK :: rev) (n-2)
          exact ⟨(true, c) :: a', by simp [h1, h2]⟩
      | succ k =>
        obtain ⟨a', h1, h2⟩ := ih (c :: MARK :: rev) (k - 1)
        exact ⟨(false, c) :: a', by simp [h1, W, h2, skipAfter]⟩

/-! ## Regions that a handler may skip -/

/-- The shape of the `m` bytes a handler may skip: pound signs, fence characters, or the rest of
a line that consists of spaces and one character only. -/
def Region (rest : Bytes) (m : Nat) : Prop :=
  (∀ b ∈ rest.take m, b = MARK ∨ b = 35) ∨
  (∀ b ∈ rest.take m, b = MARK ∨ b = 96 ∨ b = 126) ∨
  (∃ d, (d = 45 ∨ d = 95 ∨ d = 42) ∧ (∀ b ∈ rest.take m, b = MARK ∨ b = SP ∨ b = d) ∧
    (rest.drop m = [] ∨ ∃ r, rest.drop m = NL :: r))

/-- What every un-escape handler has to respect. -/
def SkipOK (h : Handler) : Prop :=
  ∀ rev c rest n, h rev c rest = some n → 1 ≤ n ∧ (n = 1 ∨ Region rest (n - 1))

theorem fencedCodeLoop_spec : ∀ (rest : Bytes) (count n : Nat),
    n ≤ (fencedCodeLoop count n rest).2 ∧
    ∀ b ∈ rest.take ((fencedCodeLoop count n rest).2 - n), b = MARK ∨ b = 96 ∨ b = 126 := by
  intro rest
  induction rest with
  | nil => intro count n; simp [fencedCodeLoop]
  | cons b bs ih =>
    intro count n
    simp only [fencedCodeLoop]
    split
    · obtain ⟨h1, h2⟩ := ih count (n+1)
      refine ⟨by omega, ?_⟩
      rw [show (fencedCodeLoop count (n+1) bs).2 - n = ((fencedCodeLoop count (n+1) bs).2 - (n+1)) + 1 by omega]
      simp; grind
    · split
      · obtain ⟨h1, h2⟩ := ih (count+1) (n+1)
        refine ⟨by omega, ?_⟩
        rw [show (fencedCodeLoop (count+1) (n+1) bs).2 - n = ((fencedCodeLoop (count+1) (n+1) bs).2 - (n+1)) + 1 by omega]
        simp; grind
      · simp

theorem dividerLoop_spec (c : UInt8) : ∀ (rest : Bytes) (count n : Nat) (p : Nat × Nat),
    dividerLoop c count n rest = some p → n ≤ p.2 ∧
    (∀ b ∈ rest.take (p.2 - n), b = MARK ∨ b = SP ∨ b = c) ∧
    (rest.drop (p.2 - n) = [] ∨ ∃ r, rest.drop (p.2 - n) = NL :: r) := by
  intro rest
  induction rest with
  | nil => intro count n p; simp [dividerLoop]; rintro rfl; simp
  | cons b bs ih =>
    intro count n p
    simp only [dividerLoop]
    intro h
    have key : ∀ cnt, (b = MARK ∨ b = SP ∨ b = c) → dividerLoop c cnt (n+1) bs = some p →
        n ≤ p.2 ∧ (∀ b' ∈ (b::bs).take (p.2 - n), b' = MARK ∨ b' = SP ∨ b' = c) ∧
        ((b::bs).drop (p.2 - n) = [] ∨ ∃ r, (b::bs).drop (p.2 - n) = NL :: r) := by
      intro cnt hb h'
      obtain ⟨h1, h2, h3⟩ := ih _ _ _ h'
      refine ⟨by omega, ?_⟩
      rw [show p.2 - n = (p.2 - (n+1)) + 1 by omega]
      simp only [List.take_succ_cons, List.drop_succ_cons]
      refine ⟨?_, h3⟩
      intro b' hb'
      simp only [List.mem_cons] at hb'
      rcases hb' with rfl | hb'
      · exact hb
      · exact h2 _ hb'
    split at h
    · exact key _ (by simp_all) h
    · split at h
      · exact key _ (by simp_all) h
      · split at h
        · exact key _ (by simp_all) h
        · split at h
          · rename_i hb; simp at h; subst h; simp [hb]
          · simp at h

theorem atxLoop_spec : ∀ (rest : Bytes) (count n m : Nat), 1 ≤ n →
    atxLoop count n rest = some m → m = 1 ∨ (n ≤ m ∧ ∀ b ∈ rest.take (m - n), b = MARK ∨ b = 35) := by
  intro rest
  induction rest with
  | nil => intro count n m; simp [atxLoop]; omega
  | cons b bs ih =>
    intro count n m hn
    simp only [atxLoop]
    intro h
    have key : ∀ cnt, (b = MARK ∨ b = 35) → atxLoop cnt (n+1) bs = some m →
        m = 1 ∨ (n ≤ m ∧ ∀ b' ∈ (b::bs).take (m - n), b' = MARK ∨ b' = 35) := by
      intro cnt hb h'
      rcases ih _ _ _ (by omega) h' with h1 | ⟨h1, h2⟩
      · exact .inl h1
      · right
        refine ⟨by omega, ?_⟩
        rw [show m - n = (m - (n+1)) + 1 by omega]
        simp only [List.take_succ_cons]
        grind
    split at h
    · split at h
      · simp at h
      · exact key _ (by simp_all) h
    · split at h
      · exact key _ (by simp_all) h
      · split at h
        · simp at h; subst h; right; simp
        · simp at h

theorem setextLoop_some : ∀ (rev : Bytes) k n, setextLoop k rev = some n → n = 1 := by
  intro rev
  induction rev with
  | nil => simp [setextLoop]
  | cons b rev ih => intro k n; simp only [setextLoop]; grind

theorem bracketLoop_some : ∀ (s : Bytes) n, bracketLoop s = some n → n = 1 := by
  intro s
  induction s with
  | nil => simp [bracketLoop]
  | cons b s ih => intro n; simp only [bracketLoop]; grind

theorem skipOK_of_one {h : Handler} (hh : ∀ rev c rest n, h rev c rest = some n → n = 1) : SkipOK h := by
  intro rev c rest n hn
  have := hh _ _ _ _ hn
  exact ⟨by omega, .inl this⟩

theorem skipOK_commonmark (dig : Nat → Bool) : ∀ h ∈ commonmarkHandlers dig, SkipOK h := by
  simp only [commonmarkHandlers, List.mem_cons, List.not_mem_nil, or_false]
  rintro h (rfl|rfl|rfl|rfl|rfl|rfl|rfl|rfl|rfl|rfl|rfl)
  · apply skipOK_of_one; intro rev c rest n; simp only [isItalicOrBold]; grind
  · apply skipOK_of_one; intro rev c rest n; simp only [isBlockQuote]; grind
  · intro rev c rest n h
    simp only [isAtxHeader] at h
    split at h
    · simp at h
    · split at h
      · simp at h
      · rcases atxLoop_spec _ _ _ _ (by omega) h with h1 | ⟨h1, h2⟩
        · exact ⟨by omega, .inl h1⟩
        · exact ⟨h1, .inr (.inl h2)⟩
  · apply skipOK_of_one; intro rev c rest n; simp only [isSetextHeader]
    split
    · simp
    · exact setextLoop_some _ _ _
  · intro rev c rest n h
    simp only [isDivider] at h
    split at h
    · simp at h
    · rename_i hc
      split at h
      · simp at h
      · split at h
        · simp at h
        · rename_i count m hd
          split at h
          · simp at h; subst h
            obtain ⟨h1, h2, h3⟩ := dividerLoop_spec _ _ _ _ _ hd
            refine ⟨h1, .inr (.inr (.inr ⟨c, ?_, h2, h3⟩))⟩
            grind
          · simp at h
  · apply skipOK_of_one; intro rev c rest n; simp only [isOrderedList]; grind
  · apply skipOK_of_one; intro rev c rest n; simp only [isUnorderedList]; grind
  · apply skipOK_of_one; intro rev c rest n; simp only [isImageOrLink]
    split
    · split
      · grind
      · simp
    · split
      · exact bracketLoop_some _ _
      · simp
  · intro rev c rest n h
    simp only [isFencedCode] at h
    split at h
    · simp at h
    · split at h
      · simp at h
      · split at h
        · simp at h
        · simp at h; subst h
          obtain ⟨h1, h2⟩ := fencedCodeLoop_spec rest 1 1
          exact ⟨h1, .inr (.inr (.inl h2))⟩
  · apply skipOK_of_one; intro rev c rest n; simp only [isInlineCode]; grind
  · apply skipOK_of_one; intro rev c rest n; simp only [isBackslash]; grind

theorem skipOK_strikethrough : SkipOK isStrikethrough := by
  apply skipOK_of_one; intro rev c rest n; simp only [isStrikethrough]; grind

theorem checkElements_mem : ∀ {hs : List Handler} {rev c rest n},
    checkElements hs rev c rest = some n → ∃ h ∈ hs, h rev c rest = some n := by
  intro hs
  induction hs with
  | nil => simp [checkElements]
  | cons h hs ih =>
    intro rev c rest n
    simp only [checkElements]
    cases hh : h rev c rest with
    | none =>
      simp
      intro h'
      obtain ⟨h1, h2, h3⟩ := ih h'
      exact .inr ⟨h1, h2, h3⟩
    | some m => simp; rintro rfl; exact .inl hh

theorem checkElements_none : ∀ {hs : List Handler} {rev c rest},
    checkElements hs rev c rest = none → ∀ h ∈ hs, h rev c rest = none := by
  intro hs
  induction hs with
  | nil => simp
  | cons h hs ih =>
    intro rev c rest
    simp only [checkElements, Option.or_eq_none_iff]
    rintro ⟨h1, h2⟩ h' (_ | ⟨_, hh⟩)
    · exact h1
    · exact ih h2 _ hh

/-! ## The invariant of the skip counter -/

/-- If bytes are being skipped, they form a region and the current line is not blank. -/
def Inv (rev : Bytes) (k : Nat) (s : Bytes) : Prop :=
  k = 0 ∨ (atLineStart rev = false ∧ Region s (k + 1))

theorem Region.tail {b s m} (h : Region (b :: s) (m + 1)) : Region s m := by
  rcases h with h | h | ⟨d, hd, h, h'⟩
  · left; intro b' hb'; exact h b' (by simp [hb'])
  · right; left; intro b' hb'; exact h b' (by simp [hb'])
  · right; right; exact ⟨d, hd, fun b' hb' => h b' (by simp [hb']), by simpa using h'⟩

/-- The bytes that can be inside of a region. -/
def regionByte (b : UInt8) : Prop :=
  b = MARK ∨ b = SP ∨ b = 35 ∨ b = 96 ∨ b = 126 ∨ b = 45 ∨ b = 95 ∨ b = 42

theorem Region.mem {s m} (h : Region s m) : ∀ b ∈ s.take m, regionByte b := by
  intro b hb
  unfold regionByte
  rcases h with h | h | ⟨d, hd, h, -⟩ <;> grind

theorem atLineStart_cons (b rev) : atLineStart (b :: rev) =
    if b = NL then true else if b = MARK ∨ b = SP then atLineStart rev else false := by
  simp only [atLineStart]; grind

theorem Inv.step {rev k b s} (h : Inv rev k (b :: s)) : Inv (b :: rev) (k - 1) s := by
  rcases h with rfl | ⟨h1, h2⟩
  · left; simp
  · match k with
    | 0 => left; rfl
    | k+1 =>
      match k with
      | 0 => left; rfl
      | k+1 =>
        right
        refine ⟨?_, by simpa using h2.tail⟩
        have := h2.mem b (by simp)
        rw [atLineStart_cons, h1]
        have hne : b ≠ NL := by rintro rfl; unfold regionByte at this; revert this; decide
        simp [hne]

/-- Bytes that the handlers may be asked about. -/
def wordByte (c : UInt8) : Prop := c ≠ NL ∧ c ≠ SP ∧ c ≠ MARK

theorem Inv.check {rev : Bytes} {c : UInt8} {s : Bytes} {n : Nat} (hc : wordByte c)
    (hok : ∀ h ∈ hs, SkipOK h) (h : checkElements hs (MARK :: rev) c s = some n) :
    Inv (c :: MARK :: rev) (n - 2) s := by
  obtain ⟨g, hg, hgn⟩ := checkElements_mem h
  obtain ⟨h1, h2⟩ := hok g hg _ _ _ _ hgn
  by_cases hn : n - 2 = 0
  · left; exact hn
  · right
    refine ⟨by obtain ⟨a, b, d⟩ := hc; simp [atLineStart_cons, a, b, d], ?_⟩
    rcases h2 with h2 | h2
    · omega
    · rwa [show n - 2 + 1 = n - 1 by omega]

/-- The tokens that occur in documents: marked bytes are registered ones. -/
def WF (ts : Toks) : Prop := ∀ t ∈ ts, t.2 ≠ MARK ∧ (t.1 = true → wordByte t.2)

theorem WF.tail {t ts} (h : WF (t :: ts)) : WF ts := fun x hx => h x (by simp [hx])
theorem WF.head {t ts} (h : WF (t :: ts)) : t.2 ≠ MARK ∧ (t.1 = true → wordByte t.2) := h t (by simp)
theorem WF.append {a b} : WF (a ++ b) ↔ WF a ∧ WF b := by
  constructor
  · intro h; exact ⟨fun x hx => h x (by simp [hx]), fun x hx => h x (by simp [hx])⟩
  · rintro ⟨h1, h2⟩ x hx
    rcases List.mem_append.1 hx with h | h
    · exact h1 x h
    · exact h2 x h

theorem inv_skipAfter (hok : ∀ h ∈ hs, SkipOK h) (post : Toks) : ∀ (a : Toks) rev k, WF a →
    Inv rev k (encToks (a ++ post)) →
    Inv ((encToks a).reverse ++ rev) (skipAfter hs rev k a post) (encToks post) := by
  intro a
  induction a with
  | nil => intro rev k _ h; simpa [skipAfter] using h
  | cons t a ih =>
    intro rev k hwf h
    obtain ⟨m, c⟩ := t
    have hw := hwf.head
    cases m with
    | false =>
      simp only [skipAfter]
      rw [List.cons_append, encToks_cons_f] at h
      have := ih (c :: rev) (k-1) hwf.tail (Inv.step h)
      simpa using this
    | true =>
      have hw := hw.2 rfl
      cases k with
      | zero =>
        simp only [skipAfter]
        split
        · have := ih (c :: MARK :: rev) 0 hwf.tail (.inl rfl)
          simpa using this
        · rename_i n hn
          have := ih (c :: MARK :: rev) (n-2) hwf.tail (Inv.check hw hok hn)
          simpa using this
      | succ k =>
        simp only [skipAfter]
        rw [List.cons_append, encToks_cons_t] at h
        have h' := Inv.step (Inv.step h)
        have := ih (c :: MARK :: rev) (k-1) hwf.tail (by rwa [show k + 1 - 1 - 1 = k - 1 by omega] at h')
        simpa using this

/-- A marked byte at which nothing is being skipped is escaped iff some handler says so. -/
theorem W_zero (rev c ts) : ∃ k, W hs rev 0 ((true, c) :: ts) =
    ((checkElements hs (MARK :: rev) c (encToks ts)).isSome, c) :: W hs (c :: MARK :: rev) k ts := by
  simp only [W]
  split <;> rename_i h <;> exact ⟨_, by simp [h]; rfl⟩

/-- Nothing is being skipped at the start of a line. -/
theorem Inv.zero_of_lineStart {rev k s} (h : Inv rev k s) (hl : atLineStart rev = true) : k = 0 := by
  rcases h with h | ⟨h, -⟩
  · exact h
  · simp [hl] at h

/-- Nothing is being skipped at a marked byte that cannot be in a region. -/
theorem Inv.zero_of_not_region {rev k c s} (h : Inv rev k (MARK :: c :: s)) (hc : ¬ regionByte c) :
    k = 0 := by
  rcases h with h | ⟨-, h⟩
  · exact h
  · match k with
    | 0 => rfl
    | k + 1 => exact absurd (h.mem c (by simp)) hc

end Verif.Escape
