import Verif.Proofs.Local
import Verif.Proofs.Fenced
/-!
# Un-escaping does not look beyond a blank line, for all bytes

As in `Local`, but without conditions on where markers are.
-/

namespace Verif.Escape
open Verif

variable {hs : List Handler}

/-- No handler answers for these. -/
theorem stock_silent {dig} (h : IsStock dig hs) (rev : Bytes) {c : UInt8} (hc : c = NL ∨ c = MARK) (rest : Bytes) : checkElements hs rev c rest = none := by
  have key : ∀ g ∈ hs, g rev c rest = none := by
    intro g hg
    rcases h.mem g hg with hg | rfl
    · simp only [commonmarkHandlers, List.mem_cons, List.not_mem_nil, or_false] at hg
      rcases hc with rfl | rfl <;> rcases hg with rfl|rfl|rfl|rfl|rfl|rfl|rfl|rfl|rfl|rfl|rfl <;>
        simp [isItalicOrBold, isBlockQuote, isAtxHeader, isSetextHeader, isDivider, isOrderedList, isUnorderedList, isImageOrLink, isFencedCode, isInlineCode, isBackslash]
    · rcases hc with rfl | rfl <;> simp [isStrikethrough]
  clear h
  induction hs with
  | nil => rfl
  | cons g gs ih =>
    simp only [checkElements]
    rw [key g (by simp), ih fun g' hg' => key g' (by simp [hg'])]
    rfl

theorem loop_skip (rev : Bytes) (k : Nat) (b : UInt8) (bs : Bytes) : changesLoop hs rev (k + 1) (b :: bs) = false :: changesLoop hs (b :: rev) k bs := by
  rw [changesLoop.eq_def]

theorem loop_plain (rev : Bytes) {b : UInt8} (hb : b ≠ MARK) (bs : Bytes) : changesLoop hs rev 0 (b :: bs) = false :: changesLoop hs (b :: rev) 0 bs := by
  rw [changesLoop.eq_def]; dsimp only; rw [if_pos hb]

theorem loop_end (rev : Bytes) : changesLoop hs rev 0 [MARK] = [false] := by
  rw [changesLoop.eq_def]; simp

theorem loop_mark (rev : Bytes) (c : UInt8) (rest : Bytes) : changesLoop hs rev 0 (MARK :: c :: rest) =
    (checkElements hs (MARK :: rev) c rest).isSome :: changesLoop hs (MARK :: rev) ((checkElements hs (MARK :: rev) c rest).getD 1 - 1) (c :: rest) := by
  rw [changesLoop.eq_def]
  dsimp only
  rw [if_neg (by simp)]
  cases checkElements hs (MARK :: rev) c rest <;> rfl

theorem loop_length (hs : List Handler) : ∀ (s rev : Bytes) (k : Nat), (changesLoop hs rev k s).length = s.length := by
  intro s
  induction s with
  | nil => intro rev k; simp [changesLoop]
  | cons b s ih =>
    intro rev k
    cases k with
    | succ k => simp [loop_skip, ih]
    | zero =>
      by_cases hb : b = MARK
      · subst hb
        cases s with
        | nil => rw [loop_end]; rfl
        | cons c rest => rw [loop_mark, List.length_cons, ih]; rfl
      · simp [loop_plain _ hb, ih]

theorem loop_back {dig} (h : IsStock dig hs) (h0 : dig 0 = false) (h1 : dig 10 = false) (x : Bytes) : ∀ (s rev : Bytes) (k : Nat),
    changesLoop hs (rev ++ NL :: NL :: x) k s = changesLoop hs rev k s := by
  intro s
  induction s with
  | nil => intro rev k; simp [changesLoop]
  | cons b s ih =>
    intro rev k
    have ih' := fun k => ih (b :: rev) k
    simp only [List.cons_append] at ih'
    cases k with
    | succ k => simp [loop_skip, ih']
    | zero =>
      by_cases hb : b = MARK
      · subst hb
        cases s with
        | nil => rw [loop_end, loop_end]
        | cons c rest =>
          have := stock_append_back h h0 h1 (MARK :: rev) x c rest
          simp only [List.cons_append] at this
          rw [loop_mark, loop_mark, this, ih']
      · rw [loop_plain _ hb, loop_plain _ hb, ih']

theorem loop_hashes {dig} (h : IsStock dig hs) : ∀ (s rev : Bytes) (k : Nat), atLineStart rev = false → (∀ b ∈ s.take (k + 1), b = MARK ∨ b = 35) →
    changesLoop hs rev k s = changesLoop hs rev 0 s := by
  intro s
  induction s with
  | nil => intro rev k _ _; simp [changesLoop]
  | cons b s ih =>
    intro rev k hrev hk
    cases k with
    | zero => rfl
    | succ k =>
      rw [List.take_succ_cons] at hk
      have hk' : ∀ b ∈ s.take (k + 1), b = MARK ∨ b = 35 := fun b hb => hk b (by simp [hb])
      have hls : atLineStart (b :: rev) = false := by
        rw [atLineStart_cons]
        rcases hk b (by simp) with rfl | rfl
        · rw [if_neg (by decide), if_pos (by decide), hrev]
        · rw [if_neg (by decide), if_neg (by decide)]
      rw [loop_skip, ih _ k hls hk']
      by_cases hb : b = MARK
      · subst hb
        cases s with
        | nil => rw [loop_end, changesLoop]
        | cons c rest =>
          have hn : checkElements hs (MARK :: rev) c rest = none := by
            rcases hk' c (by simp) with rfl | rfl
            · exact stock_silent h _ (.inr rfl) _
            · rw [stock_hash h, isAtxHeader, if_neg (by decide), if_pos (by rw [hls]; rfl)]
          rw [loop_mark, hn]
          rfl
      · rw [loop_plain _ hb]

theorem loop_atx {dig} (h : IsStock dig hs) {rev rest : Bytes} {n : Nat} (hn : isAtxHeader (MARK :: rev) 35 rest = some n) :
    changesLoop hs (MARK :: rev) (n - 1) (35 :: rest) = changesLoop hs (MARK :: rev) 0 (35 :: rest) := by
  rcases Nat.lt_or_ge 1 n with hlt | hge
  · obtain ⟨m, rfl⟩ : ∃ m, n = m + 2 := ⟨n - 2, by omega⟩
    rw [show m + 2 - 1 = m + 1 by omega, loop_skip, loop_plain _ (by decide)]
    congr 1
    apply loop_hashes h
    · rw [atLineStart_cons, if_neg (by decide), if_neg (by decide)]
    · rw [isAtxHeader, if_neg (by decide)] at hn
      split at hn
      · simp at hn
      · rcases atxLoop_spec _ _ _ _ (by omega) hn with h1 | ⟨-, h1⟩
        · omega
        · exact h1
  · rw [show n - 1 = 0 by omega]

/-- What handlers skip does not reach the next line. -/
theorem skip_line {dig} (h : IsStock dig hs) {rev rest : Bytes} {c : UInt8} {n : Nat} (hn : checkElements hs rev c rest = some n) :
    NL ∉ (c :: rest).take (n - 1) := by
  have hc : c ≠ NL := by
    rintro rfl
    rw [stock_silent h _ (.inl rfl)] at hn
    simp at hn
  obtain ⟨g, hg, hgn⟩ := checkElements_mem hn
  obtain ⟨h1, h2⟩ := h.good.ok g hg _ _ _ _ hgn
  rcases h2 with h2 | h2
  · rw [h2]; simp
  · intro hm
    obtain ⟨m, hm'⟩ : ∃ m, n - 1 = m := ⟨_, rfl⟩
    rw [hm'] at hm h2
    cases m with
    | zero => simp at hm
    | succ m =>
      rw [List.take_succ_cons, List.mem_cons] at hm
      rcases hm with hm | hm
      · exact hc hm.symm
      · have hm2 : NL ∈ rest.take (m + 1) := by
          rw [show rest.take (m + 1) = rest.take m ++ (rest.drop m).take 1 by rw [List.take_add]]
          exact List.mem_append_left _ hm
        have := h2.mem NL hm2
        revert this
        unfold regionByte
        decide

theorem loop_front {dig} (h : IsStock dig hs) (y : Bytes) : ∀ (s rev : Bytes) (k : Nat), NL ∉ (s ++ NL :: y).take k →
    changesLoop hs rev k (s ++ NL :: y) = changesLoop hs rev k s ++ changesLoop hs (s.reverse ++ rev) 0 (NL :: y) := by
  intro s
  induction s with
  | nil =>
    intro rev k hk
    cases k with
    | zero => simp [changesLoop]
    | succ k => simp at hk
  | cons b s ih =>
    intro rev k hk
    rw [List.cons_append] at hk ⊢
    have hrev : (b :: s).reverse ++ rev = s.reverse ++ b :: rev := by simp
    rw [hrev]
    cases k with
    | succ k =>
      rw [List.take_succ_cons, List.mem_cons, not_or] at hk
      rw [loop_skip, loop_skip, ih _ k hk.2]
      rfl
    | zero =>
      by_cases hb : b = MARK
      · subst hb
        cases s with
        | nil =>
          rw [List.nil_append, loop_mark, loop_end, stock_silent h _ (.inl rfl)]
          rfl
        | cons c rest =>
          rw [List.cons_append, loop_mark, loop_mark]
          by_cases hc : c = 35
          · subst hc
            have hsome : (checkElements hs (MARK :: rev) 35 (rest ++ NL :: y)).isSome = (checkElements hs (MARK :: rev) 35 rest).isSome := by
              rw [stock_hash h, stock_hash h]
              simp only [isAtxHeader]
              split
              · rfl
              · split
                · rfl
                · exact atxLoop_append _ _ _ _
            have h0 := ih (MARK :: rev) 0 (by simp)
            have zero : ∀ r : Bytes, changesLoop hs (MARK :: rev) ((checkElements hs (MARK :: rev) 35 r).getD 1 - 1) (35 :: r) = changesLoop hs (MARK :: rev) 0 (35 :: r) := by
              intro r
              cases he : checkElements hs (MARK :: rev) 35 r with
              | none => rfl
              | some n => rw [stock_hash h] at he; exact loop_atx h he
            rw [List.cons_append] at h0
            rw [zero, zero, hsome, h0]
            rfl
          · have hce := stock_append h (MARK :: rev) c rest y hc
            have h0 := ih (MARK :: rev) ((checkElements hs (MARK :: rev) c rest).getD 1 - 1) (by
              rw [← hce]
              cases he : checkElements hs (MARK :: rev) c (rest ++ NL :: y) with
              | none => simp
              | some n => exact skip_line h he)
            rw [List.cons_append] at h0
            rw [hce, h0]
            rfl
      · rw [loop_plain _ hb, loop_plain _ hb, ih _ 0 (by simp)]
        rfl

/-- Un-escaping treats what a blank line separates separately, whatever the bytes are. -/
theorem unEscape_split {dig} (h : IsStock dig hs) (h0 : dig 0 = false) (h1 : dig 10 = false) (mode : Mode) (x z : Bytes) :
    unEscapeContent mode hs (x ++ NL :: NL :: z) = unEscapeContent mode hs x ++ NL :: NL :: unEscapeContent mode hs z := by
  cases mode with
  | disabled => rfl
  | smart =>
    have e1 : changesLoop hs [] 0 (x ++ NL :: NL :: z) = changesLoop hs [] 0 x ++ false :: false :: changesLoop hs [] 0 z := by
      rw [loop_front h _ x [] 0 (by simp)]
      congr 1
      rw [loop_plain _ (by decide), loop_plain _ (by decide)]
      have := loop_back h h0 h1 (x.reverse ++ []) z [] 0
      rw [List.nil_append] at this
      rw [this]
    simp only [unEscapeContent]
    rw [e1, applyChanges_append]
    have hl := loop_length hs x [] 0
    rw [← hl, List.drop_left]
    have : ∀ (x : Bytes) (a b : List Bool), x.length = a.length → applyChanges (a ++ b) x = applyChanges a x := by
      intro x
      induction x with
      | nil => intro a b _; simp [applyChanges]
      | cons c x ih =>
        intro a b hl
        cases a with
        | nil => simp at hl
        | cons q a => simp only [List.cons_append, applyChanges, ih a b (by simpa using hl)]
    rw [this _ _ _ hl.symm]
    congr 1

end Verif.Escape
