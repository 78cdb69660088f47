import Verif.Proofs.EscapeText
import Verif.Spec.Inline
/-!
# Inline constructs and setext underlines
-/

namespace Verif.Escape
open Verif

variable {hs : List Handler}

/-! ## Setext underlines -/

/-- Two consecutive lines of a text. -/
theorem split_two {c : UInt8} : ∀ (pre : List Bytes) {s prev line : Bytes} {post : List Bytes},
    splitOn c s = pre ++ prev :: line :: post →
    ∃ a b, s = (a ++ prev ++ [c]) ++ (line ++ b) ∧ c ∉ line ∧ c ∉ prev ∧ (b = [] ∨ ∃ b', b = c :: b') := by
  -- cutting off the first line
  have first : ∀ (s l : Bytes) (ls : List Bytes), splitOn c s = l :: ls → ls ≠ [] →
      c ∉ l ∧ ∃ s', s = l ++ c :: s' ∧ splitOn c s' = ls := by
    intro s
    induction s with
    | nil => intro l ls h hls; simp [splitOn] at h; exact absurd h.2.symm (by simpa using hls)
    | cons y s ih =>
      intro l ls h hls
      by_cases hy : y = c
      · subst hy; rw [splitOn_cons_eq] at h; simp at h; obtain ⟨rfl, rfl⟩ := h
        exact ⟨by simp, s, by simp⟩
      · obtain ⟨l', ls', h1, h2⟩ := splitOn_cons_ne y c s hy
        rw [h2] at h; simp at h; obtain ⟨rfl, rfl⟩ := h
        obtain ⟨g1, s', g2, g3⟩ := ih _ _ h1 hls
        exact ⟨by simp [g1, Ne.symm hy], s', by simp [g2], g3⟩
  have head : ∀ (s l : Bytes) (ls : List Bytes), splitOn c s = l :: ls →
      c ∉ l ∧ ∃ b, s = l ++ b ∧ (b = [] ∨ ∃ b', b = c :: b') := by
    intro s l ls h
    cases ls with
    | nil =>
      clear first
      induction s generalizing l with
      | nil => simp [splitOn] at h; subst h; simp
      | cons y s ih =>
        by_cases hy : y = c
        · subst hy; rw [splitOn_cons_eq] at h; simp at h; exact absurd h.2 (splitOn_ne_nil _ _)
        · obtain ⟨l', ls', h1, h2⟩ := splitOn_cons_ne y c s hy
          rw [h2] at h; simp at h; obtain ⟨rfl, rfl⟩ := h
          obtain ⟨g1, b, g2, g3⟩ := ih _ h1
          exact ⟨by simp [g1, Ne.symm hy], b, by simp [g2], g3⟩
    | cons l2 ls =>
      obtain ⟨g1, s', g2, -⟩ := first s l (l2 :: ls) h (by simp)
      exact ⟨g1, c :: s', g2, .inr ⟨s', rfl⟩⟩
  intro pre
  induction pre with
  | nil =>
    intro s prev line post h
    obtain ⟨h1, s', h2, h3⟩ := first s prev (line :: post) h (by simp)
    obtain ⟨h4, b, h5, h6⟩ := head s' line post h3
    exact ⟨[], b, by simp [h2, h5], h4, h1, h6⟩
  | cons l pre ih =>
    intro s prev line post h
    obtain ⟨h1, s', h2, h3⟩ := first s l _ h (by simp)
    obtain ⟨a, b, g1, g2, g3, g4⟩ := ih h3
    exact ⟨l ++ c :: a, b, by simp [h2, g1], g2, g3, g4⟩

/-- Walk back over the spaces at the end of the previous line. -/
theorem setext_back : ∀ (n : Nat) (ts D : Toks) (y : Bytes) (z : UInt8), WF ts →
    D.map Prod.snd = ts.map Prod.snd → (∀ d ∈ D, d.1 = true → wordByte d.2) → z ≠ SP → z ≠ NL →
    renToks D = y ++ z :: List.replicate n SP → ∀ tail, setextLoop 1 ((encToks ts).reverse ++ tail) = some 1 := by
  intro n
  induction n with
  | zero =>
    intro ts D y z hwf hmap hD hz hz' h tail
    rcases List.eq_nil_or_concat D with rfl | ⟨D', d, rfl⟩
    · simp at h
    rcases List.eq_nil_or_concat ts with rfl | ⟨ts', t, rfl⟩
    · simp at hmap
    simp at hmap
    obtain ⟨hm1, hm2⟩ := hmap
    have hw := hwf t (by simp)
    have hlast : (renToks (D' ++ [d])).getLast? = some d.2 := by
      obtain ⟨m, c⟩ := d
      cases m <;> simp
    rw [List.concat_eq_append] at h
    rw [h] at hlast
    simp at hlast
    obtain ⟨m, c⟩ := t
    simp at hm2 hw
    have hc : c = z := by rw [← hm2, hlast]
    subst hc
    cases m <;> simp [setextLoop, hw, hz, hz']
  | succ n ih =>
    intro ts D y z hwf hmap hD hz hz' h tail
    rcases List.eq_nil_or_concat D with rfl | ⟨D', d, rfl⟩
    · simp at h
    rcases List.eq_nil_or_concat ts with rfl | ⟨ts', t, rfl⟩
    · simp at hmap
    simp at hmap
    obtain ⟨hm1, hm2⟩ := hmap
    have hw := hwf t (by simp)
    have hlast : (renToks (D' ++ [d])).getLast? = some d.2 := by
      obtain ⟨m, c⟩ := d
      cases m <;> simp
    rw [List.replicate_succ',
      show y ++ z :: (List.replicate n SP ++ [SP]) = (y ++ z :: List.replicate n SP) ++ [SP] by simp] at h
    rw [List.concat_eq_append] at h
    rw [h, List.getLast?_append] at hlast
    have hd := hD d (by simp)
    obtain ⟨m, c⟩ := t
    obtain ⟨m', c'⟩ := d
    simp at hm2 hlast
    subst hm2 hlast
    cases m with
    | true => exact absurd rfl (hw.2 rfl).2.1
    | false =>
      cases m' with
      | true => exact absurd rfl (hd rfl).2.1
      | false =>
        rw [renToks_append, renToks_cons_f, renToks_nil] at h
        have := ih ts' D' y z (fun x hx => hwf x (by simp [hx])) hm1 (fun x hx => hD x (by simp [hx])) hz hz'
          (List.append_cancel_right h) tail
        simpa [setextLoop] using this

/-- The last byte of a line that is not a space. -/
theorem last_nonspace : ∀ (l : Bytes), (∃ b ∈ l, b ≠ SP) → ∃ y z n, z ≠ SP ∧ z ∈ l ∧ l = y ++ z :: List.replicate n SP := by
  intro l
  induction l with
  | nil => simp
  | cons b l ih =>
    rintro ⟨x, hx, hxs⟩
    by_cases h : ∃ b ∈ l, b ≠ SP
    · obtain ⟨y, z, n, h1, h2, h3⟩ := ih h
      exact ⟨b :: y, z, n, h1, by simp [h2], by simp [h3]⟩
    · have hall : l = List.replicate l.length SP := by
        rw [List.eq_replicate_iff]
        refine ⟨rfl, ?_⟩
        intro b hb
        by_cases hbs : b = SP
        · exact hbs
        · exact absurd ⟨b, hb, hbs⟩ h
      refine ⟨[], b, l.length, ?_, by simp, by simpa using hall⟩
      rcases List.mem_cons.1 hx with rfl | hx
      · exact hxs
      · exact absurd ⟨x, hx, hxs⟩ h

theorem setextLoop_spaces : ∀ (sp : Toks) (k : Nat) tail, (∀ t ∈ sp, t = (false, SP)) →
    setextLoop k ((encToks sp).reverse ++ tail) = setextLoop k tail := by
  have : ∀ (s : Bytes) k tail, (∀ b ∈ s, b = SP) → setextLoop k (s ++ tail) = setextLoop k tail := by
    intro s
    induction s with
    | nil => simp
    | cons b s ih =>
      intro k tail h
      have hb := h b (by simp)
      subst hb
      simp [setextLoop, ih k tail (fun b hb => h b (by simp [hb]))]
  intro sp k tail h
  apply this
  intro b hb
  simp only [List.mem_reverse, encToks, List.mem_flatMap] at hb
  obtain ⟨t, h1, h2⟩ := hb
  have := h t h1
  subst this
  simpa using h2

theorem setext_core {dig} (hg : Good dig hs) {ts : Toks} (hwf : WF ts)
    {pre : List Bytes} {prev line : Bytes} {post : List Bytes}
    (hl : Spec.lines (renToks (W hs [] 0 ts)) = pre ++ prev :: line :: post)
    (hprev : Spec.isBlankLine prev = false)
    (hm : ∀ m c, (m, c) ∈ ts → (c = 61 ∨ c = 45) → m = true) : Spec.isSetextUnderline line = false := by
  rw [← Bool.not_eq_true]
  intro h
  simp only [Spec.isSetextUnderline] at h
  obtain ⟨a, b, h1, h2, h3, h4⟩ := split_two pre hl
  obtain ⟨ts1, ts2, A, g1, g2, g3, g4, g5, g6⟩ := line_state hg.ok hwf h1 (.inr ⟨a ++ prev, rfl⟩)
  have hwf2 : WF ts2 := fun x hx => hwf x (by rw [g1]; simp [hx])
  obtain ⟨sp, ts', k1, k2, k3, k4⟩ := space_state line hwf2 g4 g5
  cases hs' : Spec.dropSpaces line with
  | nil => simp [hs'] at h
  | cons c x =>
    rw [hs'] at h k4
    simp only [Bool.and_eq_true, Bool.or_eq_true, beq_iff_eq] at h
    have hcb : c ≠ BS := by rcases h.1 with rfl | rfl <;> decide
    rw [List.cons_append] at k4
    obtain ⟨m, ts3, rfl⟩ := ren_head hcb k4
    have : m = true := hm m c (by rw [g1, k1]; simp) h.1
    subst this
    obtain ⟨e1, -⟩ := marked_not_escaped hcb k4
    have e := e1 isSetextHeader (hg.mem _ (by simp [commonmarkHandlers]))
    have hcc : ¬ (c ≠ 61 ∧ c ≠ 45) := by rcases h.1 with rfl | rfl <;> simp
    simp only [isSetextHeader, if_neg hcc] at e
    -- the last token in front of the line is the newline
    rcases List.eq_nil_or_concat ts1 with rfl | ⟨tsn, t, rfl⟩
    · simp at g2; subst g2; simp at g3
    rcases List.eq_nil_or_concat A with rfl | ⟨An, d, rfl⟩
    · simp at g2
    simp at g2
    obtain ⟨g2, g2'⟩ := g2
    have hDw : ∀ x ∈ An.concat d, x.1 = true → wordByte x.2 := by
      intro x hx hx1
      have := W_escaped_marked (hs := hs) ts [] 0 x (by rw [g6]; simp only [List.mem_append]; exact .inl hx) hx1
      exact (hwf _ this).2 rfl
    have hwt := hwf t (by rw [g1]; simp)
    have hd2 : d.2 = NL ∧ renToks An = a ++ prev := by
      have hw := hDw d (by simp)
      obtain ⟨m, c⟩ := d
      rw [List.concat_eq_append, renToks_append] at g3
      cases m with
      | false =>
        simp only [renToks_cons_f, renToks_nil] at g3
        have := List.append_inj' g3 (by simp)
        exact ⟨by simpa using this.2, this.1⟩
      | true =>
        simp only [renToks_cons_t, renToks_nil] at g3
        rw [show renToks An ++ [BS, c] = (renToks An ++ [BS]) ++ [c] by simp] at g3
        have := List.append_inj' g3 (by simp)
        have hc : c = NL := by simpa using this.2
        exact absurd hc (hw rfl).1
    obtain ⟨hdNL, hren⟩ := hd2
    have hvis : ∃ b ∈ prev, b ≠ SP := by
      simp only [Spec.isBlankLine] at hprev
      rw [← Bool.not_eq_true, List.all_eq_true] at hprev
      apply Classical.byContradiction
      intro hno
      apply hprev
      intro b hb
      by_cases hbs : b = SP
      · simp [hbs]
      · exact absurd ⟨b, hb, hbs⟩ hno
    obtain ⟨y, z, n, q1, q2, q3⟩ := last_nonspace prev hvis
    have hzNL : z ≠ NL := by rintro rfl; exact h3 q2
    have hback := setext_back n tsn An (a ++ y) z (fun x hx => hwf x (by rw [g1]; simp [hx])) g2
      (fun x hx => hDw x (by simp [hx])) q1 hzNL (by rw [hren, q3]; simp) []
    obtain ⟨mt, ct⟩ := t
    have hct : ct = NL := by simp at g2'; rw [← g2', hdNL]
    subst hct
    cases mt with
    | true => exact absurd rfl (hwt.2 rfl).1
    | false =>
      simp only [List.append_nil] at hback
      rw [show setextLoop 0 (MARK :: ((encToks sp).reverse ++ (encToks (tsn.concat (false, NL))).reverse))
        = setextLoop 0 ((encToks sp).reverse ++ (encToks (tsn.concat (false, NL))).reverse) by
          simp [setextLoop]] at e
      rw [setextLoop_spaces sp _ _ k2] at e
      simp [setextLoop, hback] at e

/-! ## Reading the output -/

theorem read_ren : ∀ (D : Toks), (∀ d ∈ D, d.1 = true → Spec.isPunct d.2 = true) →
    (∀ d ∈ D, d.1 = false → d.2 ≠ BS) → Spec.readEscapes (renToks D) = D := by
  intro D
  induction D with
  | nil => intro _ _; rfl
  | cons d D ih =>
    intro h1 h2
    have ih := ih (fun d hd => h1 d (by simp [hd])) (fun d hd => h2 d (by simp [hd]))
    obtain ⟨m, c⟩ := d
    cases m with
    | true =>
      have := h1 (true, c) (by simp) rfl
      simp at this
      simp [Spec.readEscapes, this, ih]
    | false =>
      have hc := h2 (false, c) (by simp) rfl
      simp at hc
      rw [renToks_cons_f]
      cases hr : renToks D with
      | nil => rw [hr] at ih; simp [Spec.readEscapes]; rw [← ih]; rfl
      | cons x xs => rw [hr] at ih; simp [Spec.readEscapes, hc, ih]

/-- The state of the loop at one token of the output. -/
theorem at_token (hok : ∀ h ∈ hs, SkipOK h) {ts A B : Toks} {e : Bool} {c : UInt8} (hwf : WF ts)
    (h : W hs [] 0 ts = A ++ (e, c) :: B) :
    ∃ ts1 m ts2, ts = ts1 ++ (m, c) :: ts2 ∧ A.map Prod.snd = ts1.map Prod.snd ∧
      B.map Prod.snd = ts2.map Prod.snd ∧ (m = false → e = false) ∧
      (m = true → (e = (checkElements hs (MARK :: (encToks ts1).reverse) c (encToks ts2)).isSome ∧
          (e = false → B = W hs (c :: MARK :: (encToks ts1).reverse) 0 ts2)) ∨
        (e = false ∧ ∃ k, Region (MARK :: c :: encToks ts2) (k + 2) ∧
          B = W hs (c :: MARK :: (encToks ts1).reverse) (k - 1) ts2)) := by
  have hsnd := W_snd (hs := hs) ts [] 0
  have hlen : A.length < ts.length := by
    have := congrArg List.length hsnd
    simp [h] at this; omega
  have hts : ts = ts.take A.length ++ ts.drop A.length := by simp
  obtain ⟨a', h4, h5⟩ := W_append (hs := hs) (ts.drop A.length) (ts.take A.length) [] 0
  rw [← hts, h] at h5
  have hlen' : a'.length = A.length := by
    have := congrArg List.length h4
    simp at this; omega
  obtain ⟨h6, h7⟩ := List.append_inj h5 hlen'.symm
  subst h6
  have hinv := inv_skipAfter hok (ts.drop A.length) (ts.take A.length) [] 0
    (fun x hx => hwf x (List.mem_of_mem_take hx)) (.inl rfl)
  simp only [List.append_nil] at hinv h7
  generalize ts.take A.length = ts1 at *
  generalize ts.drop A.length = ts2' at *
  generalize skipAfter hs [] 0 ts1 ts2' = k at *
  cases ts2' with
  | nil => simp [W] at h7
  | cons t ts2 =>
    obtain ⟨m, c'⟩ := t
    have hcc : c' = c := by
      have := congrArg (List.map Prod.snd) h7
      rw [W_snd] at this
      simp at this
      exact this.1.symm
    subst hcc
    have hB : B.map Prod.snd = ts2.map Prod.snd := by
      have := congrArg (List.map Prod.snd) h7
      rw [W_snd] at this
      simpa using this
    refine ⟨ts1, m, ts2, hts, h4, hB, ?_, ?_⟩
    · rintro rfl
      simp [W] at h7
      exact h7.1
    · rintro rfl
      cases k with
      | zero =>
        left
        cases hce : checkElements hs (MARK :: (encToks ts1).reverse) c' (encToks ts2) with
        | none => simp [W, hce] at h7; exact ⟨by simp [h7.1], fun _ => h7.2⟩
        | some n => simp [W, hce] at h7; exact ⟨by simp [h7.1], by simp [h7.1]⟩
      | succ k =>
        right
        simp [W] at h7
        rcases hinv with hinv | ⟨-, hinv⟩
        · omega
        · exact ⟨h7.1, k, by simpa using hinv, h7.2⟩

/-- A handler that always escapes a registered byte which cannot be in a skipped region. -/
theorem always_escaped (hok : ∀ h ∈ hs, SkipOK h) {ts A B : Toks} {e : Bool} {c : UInt8} (hwf : WF ts)
    (hm : ∀ m, (m, c) ∈ ts → m = true) (hc : ¬ regionByte c)
    (h : W hs [] 0 ts = A ++ (e, c) :: B) :
    ∃ ts1 ts2, ts = ts1 ++ (true, c) :: ts2 ∧ A.map Prod.snd = ts1.map Prod.snd ∧
      B.map Prod.snd = ts2.map Prod.snd ∧
      e = (checkElements hs (MARK :: (encToks ts1).reverse) c (encToks ts2)).isSome := by
  obtain ⟨ts1, m, ts2, h1, h2, h3, h4, h5⟩ := at_token hok hwf h
  have := hm m (by rw [h1]; simp)
  subst this
  rcases h5 rfl with ⟨h5, -⟩ | ⟨-, k, h5, -⟩
  · exact ⟨ts1, ts2, h1, h2, h3, h5⟩
  · exact absurd (h5.mem c (by simp)) hc

theorem checkElements_isSome_of_mem {h : Handler} (hm : h ∈ hs) {rev c rest n} (hh : h rev c rest = some n) :
    (checkElements hs rev c rest).isSome = true := by
  cases hce : checkElements hs rev c rest with
  | none => have := checkElements_none hce h hm; rw [hh] at this; simp at this
  | some n => rfl

theorem backslash_escaped {dig} (hg : Good dig hs) {ts : Toks} (hwf : WF ts)
    (hm : ∀ m, (m, BS) ∈ ts → m = true) : ∀ d ∈ W hs [] 0 ts, d.1 = false → d.2 ≠ BS := by
  rintro ⟨e, c⟩ hd he rfl
  obtain ⟨A, B, hAB⟩ := List.append_of_mem hd
  obtain ⟨ts1, ts2, -, -, -, h⟩ := always_escaped hg.ok hwf hm (by unfold regionByte; decide) hAB
  have : isBackslash (MARK :: (encToks ts1).reverse) BS (encToks ts2) = some 1 := by simp [isBackslash]
  rw [checkElements_isSome_of_mem (hg.mem _ (by simp [commonmarkHandlers])) this] at h
  simp at he; simp [he] at h

/-- A parser that reads the output gets the tokens of the loop. -/
theorem read_text {dig} (hg : Good dig hs) {t : Bytes} (hM : MARK ∉ t) :
    Spec.readEscapes (unEscapeContent .smart hs (escapeContent .smart isCommonmarkChar t)) =
      W hs [] 0 (textToks t) := by
  have hwf := textToks_wf t hM
  simp only [escapeContent, escapeLoop_eq]
  rw [unEscape_enc _ (fun x hx => (hwf x hx).1)]
  apply read_ren
  · intro d hd hd1
    have := W_escaped_marked (hs := hs) _ _ _ d hd hd1
    have := (textToks_marked t _ this).1 rfl
    exact (commonmarkChars_lt _ this).2.2
  · apply backslash_escaped hg hwf
    intro m hm
    exact (textToks_marked t _ hm).2 (by show BS ∈ _; decide)

theorem textToks_snd (t : Bytes) (h : 0 ∉ t) : (textToks t).map Prod.snd = t := by
  induction t with
  | nil => rfl
  | cons b t ih =>
    simp at h
    have : b ≠ 0 := Ne.symm h.1
    simp [textToks, this, ih h.2]

theorem textToks_snd' (t : Bytes) : (textToks t).map Prod.snd =
    t.flatMap fun b => if b = 0 then [239, 191, 189] else [b] := by
  induction t with
  | nil => rfl
  | cons b t ih =>
    simp only [textToks]
    split <;> simp_all

/-! ## Brackets -/

theorem bracketLoop_none : ∀ (ts : Toks), WF ts → bracketLoop (encToks ts) = none →
    93 ∉ (ts.map Prod.snd).takeWhile (· != NL) := by
  intro ts
  induction ts with
  | nil => simp
  | cons t ts ih =>
    intro hwf h
    obtain ⟨m, c⟩ := t
    have hw := hwf.head
    have key : (if c = NL then none else if c = 93 then some 1 else bracketLoop (encToks ts)) = none → 
        93 ∉ (((m, c) :: ts).map Prod.snd).takeWhile (· != NL) := by
      intro h
      by_cases hc : c = NL
      · simp [hc]
      · rw [if_neg hc] at h
        by_cases hc' : c = 93
        · simp [hc'] at h
        · rw [if_neg hc'] at h
          have := ih hwf.tail h
          simp [hc, Ne.symm hc']
          simpa using this
    cases m with
    | false => exact key (by simpa [bracketLoop] using h)
    | true => exact key (by simpa [bracketLoop] using h)

/-! ## Emphasis -/

/-- The output inside of a thematic break that is being skipped. -/
theorem divider_out (d : UInt8) : ∀ (ts : Toks) (rev : Bytes) (k : Nat), WF ts →
    (∀ b ∈ (encToks ts).take (k + 1), b = MARK ∨ b = SP ∨ b = d) →
    ((encToks ts).drop (k + 1) = [] ∨ ∃ r, (encToks ts).drop (k + 1) = NL :: r) →
    ∃ B1 B2, W hs rev k ts = B1 ++ B2 ∧ (∀ x ∈ B1, x = (false, SP) ∨ x = (false, d)) ∧
      (B2 = [] ∨ ∃ r, B2 = (false, NL) :: r) := by
  have newline : ∀ (ts : Toks) (rev : Bytes), WF ts → (encToks ts = [] ∨ ∃ r, encToks ts = NL :: r) →
      W hs rev 0 ts = [] ∨ ∃ r, W hs rev 0 ts = (false, NL) :: r := by
    intro ts rev hwf h
    cases ts with
    | nil => left; rfl
    | cons t ts =>
      obtain ⟨m, c⟩ := t
      cases m with
      | false => simp at h; subst h; right; simp [W]
      | true => simp at h
  intro ts
  induction ts with
  | nil => intro rev k _ _ _; exact ⟨[], [], by simp [W]⟩
  | cons t ts ih =>
    intro rev k hwf h1 h2
    obtain ⟨m, c⟩ := t
    have hw := hwf.head
    cases m with
    | false =>
      rw [encToks_cons_f] at h1 h2
      have hc := h1 c (by simp)
      have hc' : c = SP ∨ c = d := hc.resolve_left hw.1
      simp only [W]
      cases k with
      | zero =>
        simp at h2
        have := newline ts (c :: rev) hwf.tail h2
        refine ⟨[(false, c)], W hs (c :: rev) 0 ts, by simp, ?_, this⟩
        intro x hx; simp at hx; subst hx; simpa using hc'
      | succ k =>
        obtain ⟨B1, B2, e1, e2, e3⟩ := ih (c :: rev) k hwf.tail (fun b hb => h1 b (by
          rw [List.take_succ_cons]; exact List.mem_cons_of_mem _ hb)) (by simpa using h2)
        refine ⟨(false, c) :: B1, B2, by simp [e1], ?_, e3⟩
        intro x hx
        rcases List.mem_cons.1 hx with rfl | hx
        · simpa using hc'
        · exact e2 x hx
    | true =>
      have hw := hw.2 rfl
      rw [encToks_cons_t] at h1 h2
      cases k with
      | zero => simp at h2; exact absurd h2 hw.1
      | succ k =>
        have hc := h1 c (by simp)
        have hc' : c = SP ∨ c = d := hc.resolve_left hw.2.2
        simp only [W]
        cases k with
        | zero =>
          simp at h2
          have := newline ts (c :: MARK :: rev) hwf.tail h2
          refine ⟨[(false, c)], W hs (c :: MARK :: rev) 0 ts, by simp, ?_, this⟩
          intro x hx; simp at hx; subst hx; simpa using hc'
        | succ k =>
          obtain ⟨B1, B2, e1, e2, e3⟩ := ih (c :: MARK :: rev) k hwf.tail (fun b hb => h1 b (by
            rw [List.take_succ_cons, List.take_succ_cons]
            exact List.mem_cons_of_mem _ (List.mem_cons_of_mem _ hb))) (by simpa using h2)
          refine ⟨(false, c) :: B1, B2, by simp [e1], ?_, e3⟩
          intro x hx
          rcases List.mem_cons.1 hx with rfl | hx
          · simpa using hc'
          · exact e2 x hx

/-- The rune a string starts with only depends on the continuation bytes after the first byte. -/
theorem decodeRune_conts (b : UInt8) (s : Bytes) : decodeRune (b :: s) = decodeRune (b :: s.takeWhile isCont) := by
  have ha : ∀ x : UInt8, (0xA0 ≤ x && x ≤ 0xBF) = true → isCont x = true := by
    intro x; simp [isCont]; simp only [u8_le]; simp; omega
  have hb : ∀ x : UInt8, (0x80 ≤ x && x ≤ 0x9F) = true → isCont x = true := by
    intro x; simp [isCont]; simp only [u8_le]; simp; omega
  have hc : ∀ x : UInt8, (0x90 ≤ x && x ≤ 0xBF) = true → isCont x = true := by
    intro x; simp [isCont]; simp only [u8_le]; simp; omega
  have hd : ∀ x : UInt8, (0x80 ≤ x && x ≤ 0x8F) = true → isCont x = true := by
    intro x; simp [isCont]; simp only [u8_le]; simp; omega
  have e3 : ∀ x : UInt8, (if b = 0xE0 then 0xA0 ≤ x && x ≤ 0xBF
            else if b = 0xED then 0x80 ≤ x && x ≤ 0x9F
            else isCont x) = true → isCont x = true := by
    intro x; split
    · exact ha x
    · split
      · exact hb x
      · exact id
  have e4 : ∀ x : UInt8, (if b = 0xF0 then 0x90 ≤ x && x ≤ 0xBF
            else if b = 0xF4 then 0x80 ≤ x && x ≤ 0x8F
            else isCont x) = true → isCont x = true := by
    intro x; split
    · exact hc x
    · split
      · exact hd x
      · exact id
  have e3' : ∀ x : UInt8, isCont x = false → (if b = 0xE0 then 0xA0 ≤ x && x ≤ 0xBF
            else if b = 0xED then 0x80 ≤ x && x ≤ 0x9F
            else isCont x) = false := by
    intro x hx; rw [← Bool.not_eq_true]; intro h; simp [e3 x h] at hx
  have e4' : ∀ x : UInt8, isCont x = false → (if b = 0xF0 then 0x90 ≤ x && x ≤ 0xBF
            else if b = 0xF4 then 0x80 ≤ x && x ≤ 0x8F
            else isCont x) = false := by
    intro x hx; rw [← Bool.not_eq_true]; intro h; simp [e4 x h] at hx
  match s with
  | [] => rfl
  | x :: s1 =>
    cases hx : isCont x with
    | false =>
      rw [List.takeWhile_cons, hx]
      match s1 with
      | [] => simp [decodeRune, hx]
      | [y] => simp only [decodeRune, e3' x hx]; simp [hx]
      | y :: z :: s3 => simp only [decodeRune, e3' x hx, e4' x hx]; simp [hx]
    | true =>
      rw [List.takeWhile_cons, hx, if_pos rfl]
      match s1 with
      | [] => rfl
      | y :: s2 =>
        cases hy : isCont y with
        | false =>
          rw [List.takeWhile_cons, hy]
          match s2 with
          | [] => simp [decodeRune, hy]
          | z :: s3 => simp [decodeRune, hx, hy]
        | true =>
          rw [List.takeWhile_cons, hy, if_pos rfl]
          match s2 with
          | [] => rfl
          | z :: s3 =>
            cases hz : isCont z with
            | false => simp [decodeRune, hz]
            | true => simp [decodeRune, hz]

theorem conts_enc : ∀ (ts : Toks), (∀ t ∈ ts, t.1 = true → isCont t.2 = false) →
    (encToks ts).takeWhile isCont = (ts.map Prod.snd).takeWhile isCont := by
  intro ts
  induction ts with
  | nil => simp
  | cons t ts ih =>
    intro h
    have ih := ih (fun t ht => h t (by simp [ht]))
    have ht := h t (by simp)
    obtain ⟨m, c⟩ := t
    cases m with
    | false => simp only [encToks_cons_f, List.takeWhile_cons, List.map_cons, ih]
    | true =>
      simp at ht
      rw [encToks_cons_t, List.takeWhile_cons, show isCont MARK = false by decide]
      simp [ht]

/-- The look-ahead of the emphasis handlers sees the next rune of the text. -/
theorem getNextAsRune_enc (ts : Toks) (hwf : WF ts) (h : ∀ t ∈ ts, t.1 = true → isCont t.2 = false) :
    getNextAsRune (encToks ts) = if ts = [] then 0 else (decodeRune (ts.map Prod.snd)).1 := by
  cases ts with
  | nil => simp [getNextAsRune]
  | cons t ts =>
    have h' := conts_enc ts (fun t ht => h t (by simp [ht]))
    have hw := hwf.head.1
    obtain ⟨m, c⟩ := t
    simp at hw
    have : (decodeRune (c :: encToks ts)) = decodeRune (c :: ts.map Prod.snd) := by
      rw [decodeRune_conts, h', ← decodeRune_conts]
    cases m <;> simp [getNextAsRune, hw, this]

theorem decodeRune_zero (b : UInt8) (s : Bytes) (h : (decodeRune (b :: s)).1 = 0) : b = 0 := by
  by_cases hb : b < 0x80
  · rw [decodeRune_ascii b s hb] at h
    rw [u8_eq]; simpa using h
  · have := decodeRune_ge b s hb
    omega

theorem commonmarkChars_not_cont : ∀ c ∈ commonmarkChars, isCont c = false := by decide

theorem allMarked_not_cont {ts : Toks} (h : AllMarked ts) : ∀ t ∈ ts, t.1 = true → isCont t.2 = false :=
  fun t ht h1 => commonmarkChars_not_cont _ ((h t ht).1 h1)

theorem emphasis_core {dig} (hg : Good dig hs) {ts A B : Toks} {c : UInt8} (hwf : WF ts)
    (hm : ∀ m, (m, c) ∈ ts → m = true) (hnc : ∀ t ∈ ts, t.1 = true → isCont t.2 = false)
    (h0 : ∀ t ∈ ts, t.2 ≠ 0) (hc : c = 42 ∨ c = 95) (h : W hs [] 0 ts = A ++ (false, c) :: B) :
    Spec.afterRun c B = [] ∨ isSpaceRune (decodeRune (Spec.afterRun c B)).1 = true := by
  obtain ⟨ts1, m, ts2, h1, h2, h3, -, h5⟩ := at_token hg.ok hwf h
  have := hm m (by rw [h1]; simp)
  subst this
  have hwf2 : WF ts2 := fun x hx => hwf x (by rw [h1]; simp [hx])
  rcases h5 rfl with ⟨h5, -⟩ | ⟨-, k, h5, h6⟩
  · have hnone : isItalicOrBold (MARK :: (encToks ts1).reverse) c (encToks ts2) = none := by
      cases hce : checkElements hs (MARK :: (encToks ts1).reverse) c (encToks ts2) with
      | none => exact checkElements_none hce _ (hg.mem _ (by simp [commonmarkHandlers]))
      | some n => simp [hce] at h5
    have hcc : ¬ (c ≠ 42 ∧ c ≠ 95) := by rcases hc with rfl | rfl <;> simp
    simp only [isItalicOrBold, if_neg hcc] at hnone
    rw [getNextAsRune_enc ts2 hwf2 (fun t ht => hnc t (by rw [h1]; simp [ht]))] at hnone
    cases hB : B with
    | nil => left; rfl
    | cons d B' =>
      right
      obtain ⟨e, b⟩ := d
      subst hB
      cases ts2 with
      | nil => simp at h3
      | cons t ts2 =>
        simp only [List.cons_ne_nil, if_false, ← h3] at hnone
        have hsp : isSpaceRune (decodeRune (b :: B'.map Prod.snd)).1 = true ∨ (decodeRune (b :: B'.map Prod.snd)).1 = 0 := by
          simp at hnone
          by_cases hx : isSpaceRune (decodeRune (b :: B'.map Prod.snd)).1 = true
          · exact .inl hx
          · right
            simp at hx
            simpa [hx] using hnone
        have hb0 : b ≠ 0 := by
          simp at h3
          rw [h3.1]
          exact h0 t (by rw [h1]; simp)
        have hsp := hsp.resolve_right (fun hz => hb0 (decodeRune_zero _ _ hz))
        have hbc : b ≠ c := by
          rintro rfl
          rw [decodeRune_ascii b _ (by rcases hc with rfl | rfl <;> decide)] at hsp
          rcases hc with rfl | rfl <;> revert hsp <;> decide
        have hne : ((e, b) == (false, c)) = false := by simp [hbc]
        simp only [Spec.afterRun, List.dropWhile_cons, hne]
        simpa using hsp
  · -- inside a thematic break
    have hreg : (∀ b ∈ (encToks ts2).take k, b = MARK ∨ b = SP ∨ b = c) ∧
        ((encToks ts2).drop k = [] ∨ ∃ r, (encToks ts2).drop k = NL :: r) := by
      rcases h5 with h5 | h5 | ⟨d, hd, h5, h5'⟩
      · have := h5 c (by simp)
        rcases hc with rfl | rfl <;> simp at this
      · have := h5 c (by simp)
        rcases hc with rfl | rfl <;> simp at this
      · have : d = c := by
          have := h5 c (by simp)
          rcases hc with rfl | rfl <;> simp at this <;> exact this.symm
        subst this
        exact ⟨fun b hb => h5 b (by simp [hb]), by simpa using h5'⟩
    have key : ∃ B1 B2, B = B1 ++ B2 ∧ (∀ x ∈ B1, x = (false, SP) ∨ x = (false, c)) ∧
        (B2 = [] ∨ ∃ r, B2 = (false, NL) :: r) := by
      cases k with
      | zero =>
        simp at hreg
        refine ⟨[], B, by simp, by simp, ?_⟩
        cases ts2 with
        | nil => left; simpa using h3
        | cons t ts2 =>
          obtain ⟨m, b⟩ := t
          right
          cases m with
          | false => simp at hreg; subst hreg; simp [W] at h6; exact ⟨_, h6⟩
          | true => simp at hreg
      | succ k =>
        obtain ⟨B1, B2, q1, q2, q3⟩ := divider_out (hs := hs) c ts2 (c :: MARK :: (encToks ts1).reverse) k hwf2 hreg.1 hreg.2
        exact ⟨B1, B2, by rw [h6]; simpa using q1, q2, q3⟩
    obtain ⟨B1, B2, rfl, q2, q3⟩ := key
    have fin : ∀ (B1 : Toks), (∀ x ∈ B1, x = (false, SP) ∨ x = (false, c)) →
        Spec.afterRun c (B1 ++ B2) = [] ∨ isSpaceRune (decodeRune (Spec.afterRun c (B1 ++ B2))).1 = true := by
      intro B1
      induction B1 with
      | nil =>
        intro _
        rcases q3 with rfl | ⟨r, rfl⟩
        · left; rfl
        · right
          have : ((false, NL) == (false, c)) = false := by rcases hc with rfl | rfl <;> decide
          simp only [Spec.afterRun, List.nil_append, List.dropWhile_cons, this]
          simp [decodeRune_ascii, isSpaceRune]
      | cons x B1 ih =>
        intro hx
        rcases hx x (by simp) with rfl | rfl
        · right
          have : ((false, SP) == (false, c)) = false := by rcases hc with rfl | rfl <;> decide
          simp only [Spec.afterRun, List.cons_append, List.dropWhile_cons, this]
          simp [decodeRune_ascii, isSpaceRune]
        · have := ih (fun x hx' => hx x (by simp [hx']))
          simpa [Spec.afterRun] using this
    exact fin B1 q2

/-! ## Code spans -/

/-- The handlers of the stock plugins: CommonMark alone, or with strikethrough before or after it. -/
def IsStock (dig : Nat → Bool) (hs : List Handler) : Prop :=
  hs = commonmarkHandlers dig ∨ hs = commonmarkHandlers dig ++ [isStrikethrough] ∨
    hs = isStrikethrough :: commonmarkHandlers dig

theorem IsStock.mem {dig} (h : IsStock dig hs) : ∀ g ∈ hs, g ∈ commonmarkHandlers dig ∨ g = isStrikethrough := by
  rcases h with rfl | rfl | rfl
  · exact fun g hg => .inl hg
  · intro g hg; simpa using hg
  · intro g hg; rw [List.mem_cons] at hg; exact hg.symm

theorem IsStock.good {dig} (h : IsStock dig hs) : Good dig hs where
  mem := by
    rcases h with rfl | rfl | rfl
    · exact fun g hg => hg
    · intro g hg; simp [hg]
    · intro g hg; rw [List.mem_cons]; exact .inr hg
  ok := by
    intro g hg
    rcases h.mem g hg with h | rfl
    · exact skipOK_commonmark dig g h
    · exact skipOK_strikethrough

def NoTick (s : Bytes) (m : Nat) : Prop := ∀ b ∈ s.take m, b ≠ 96 ∧ b ≠ 126

theorem NoTick.tail {b s m} (h : NoTick (b :: s) (m + 1)) : NoTick s m :=
  fun x hx => h x (by simp [hx])

/-- Only the fence handler skips over backticks and tildes. -/
theorem stock_noTick {dig} (h : IsStock dig hs) {rev c rest n} (hc : checkElements hs rev c rest = some n)
    (hf : isFencedCode rev c rest = none) : n = 1 ∨ NoTick rest (n - 1) := by
  obtain ⟨g, hg, hgn⟩ := checkElements_mem hc
  rcases h.mem g hg with hg | rfl
  · simp only [commonmarkHandlers, List.mem_cons, List.not_mem_nil, or_false] at hg
    rcases hg with rfl|rfl|rfl|rfl|rfl|rfl|rfl|rfl|rfl|rfl|rfl
    · left; simp only [isItalicOrBold] at hgn; grind
    · left; simp only [isBlockQuote] at hgn; grind
    · simp only [isAtxHeader] at hgn
      split at hgn
      · simp at hgn
      · split at hgn
        · simp at hgn
        · rcases atxLoop_spec _ _ _ _ (by omega) hgn with h1 | ⟨h1, h2⟩
          · exact .inl h1
          · right; intro b hb; rcases h2 b hb with rfl | rfl <;> decide
    · left; simp only [isSetextHeader] at hgn
      split at hgn
      · simp at hgn
      · exact setextLoop_some _ _ _ hgn
    · simp only [isDivider] at hgn
      split at hgn
      · simp at hgn
      · rename_i hc'
        split at hgn
        · simp at hgn
        · split at hgn
          · simp at hgn
          · rename_i count m hd
            split at hgn
            · simp at hgn; subst hgn
              obtain ⟨h1, h2, h3⟩ := dividerLoop_spec _ _ _ _ _ hd
              right
              intro b hb
              rcases h2 b hb with rfl | rfl | rfl
              · decide
              · decide
              · constructor <;> (rintro rfl; simp at hc')
            · simp at hgn
    · left; simp only [isOrderedList] at hgn; grind
    · left; simp only [isUnorderedList] at hgn; grind
    · left; simp only [isImageOrLink] at hgn
      split at hgn
      · split at hgn
        · grind
        · simp at hgn
      · split at hgn
        · exact bracketLoop_some _ _ hgn
        · simp at hgn
    · rw [hf] at hgn; simp at hgn
    · left; simp only [isInlineCode] at hgn; grind
    · left; simp only [isBackslash] at hgn; grind
  · left; simp only [isStrikethrough] at hgn; grind

/-- If the fence handler never fires then every registered backtick is escaped. -/
theorem ticks_escaped {dig} (hst : IsStock dig hs) : ∀ (ts : Toks) (rev : Bytes) (k : Nat), WF ts →
    (∀ m, (m, 96) ∈ ts → m = true) →
    (∀ ts1 c ts2, ts = ts1 ++ (true, c) :: ts2 →
      isFencedCode (MARK :: ((encToks ts1).reverse ++ rev)) c (encToks ts2) = none) →
    (k = 0 ∨ NoTick (encToks ts) (k + 1)) → ∀ d ∈ W hs rev k ts, d.2 = 96 → d.1 = true := by
  intro ts
  induction ts with
  | nil => intro rev k _ _ _ _; simp [W]
  | cons t ts ih =>
    intro rev k hwf hm hf hk d hd hd2
    obtain ⟨m, c⟩ := t
    have hm' : ∀ m, (m, 96) ∈ ts → m = true := fun m h => hm m (by simp [h])
    cases m with
    | false =>
      simp only [W, List.mem_cons] at hd
      rcases hd with rfl | hd
      · simp at hd2; subst hd2; exact absurd (hm false (by simp)) (by simp)
      · refine ih (c :: rev) (k-1) hwf.tail hm' ?_ ?_ d hd hd2
        · intro ts1 c' ts2 h
          have := hf ((false, c) :: ts1) c' ts2 (by simp [h])
          simpa using this
        · rcases hk with rfl | hk
          · left; rfl
          · cases k with
            | zero => left; rfl
            | succ k => right; exact hk.tail
    | true =>
      have hf' : ∀ ts1 c' ts2, ts = ts1 ++ (true, c') :: ts2 →
          isFencedCode (MARK :: ((encToks ts1).reverse ++ (c :: MARK :: rev))) c' (encToks ts2) = none := by
        intro ts1 c' ts2 h
        have := hf ((true, c) :: ts1) c' ts2 (by simp [h])
        simpa using this
      cases k with
      | zero =>
        have hf0 := hf [] c ts rfl
        simp only [encToks_nil, List.reverse_nil, List.nil_append] at hf0
        cases hce : checkElements hs (MARK :: rev) c (encToks ts) with
        | none =>
          simp only [W, hce, List.mem_cons] at hd
          rcases hd with rfl | hd
          · simp at hd2; subst hd2
            have := checkElements_none hce isInlineCode (hst.good.mem _ (by simp [commonmarkHandlers]))
            simp [isInlineCode] at this
          · exact ih _ 0 hwf.tail hm' hf' (.inl rfl) d hd hd2
        | some n =>
          simp only [W, hce, List.mem_cons] at hd
          rcases hd with rfl | hd
          · rfl
          · refine ih _ (n-2) hwf.tail hm' hf' ?_ d hd hd2
            rcases stock_noTick hst hce hf0 with rfl | h
            · left; rfl
            · by_cases hn : n - 2 = 0
              · exact .inl hn
              · right; rwa [show n - 2 + 1 = n - 1 by omega]
      | succ k =>
        have hk : NoTick (MARK :: c :: encToks ts) (k + 2) := by
          rcases hk with hk | hk
          · omega
          · simpa using hk
        simp only [W, List.mem_cons] at hd
        rcases hd with rfl | hd
        · simp at hd2; subst hd2; exact absurd rfl (hk 96 (by simp)).1
        · refine ih _ (k-1) hwf.tail hm' hf' ?_ d hd hd2
          cases k with
          | zero => left; rfl
          | succ k => right; exact hk.tail.tail

/-- If the fence handler never fires then no handler objects to an unescaped registered tilde. -/
theorem tildes_checked {dig} (hst : IsStock dig hs) : ∀ (ts : Toks) (rev : Bytes) (k : Nat), WF ts →
    (∀ m, (m, 126) ∈ ts → m = true) →
    (∀ ts1 c ts2, ts = ts1 ++ (true, c) :: ts2 →
      isFencedCode (MARK :: ((encToks ts1).reverse ++ rev)) c (encToks ts2) = none) →
    (k = 0 ∨ NoTick (encToks ts) (k + 1)) → ∀ A B, W hs rev k ts = A ++ (false, 126) :: B →
    ∃ ts1 ts2, ts = ts1 ++ (true, 126) :: ts2 ∧ B.map Prod.snd = ts2.map Prod.snd ∧
      checkElements hs (MARK :: ((encToks ts1).reverse ++ rev)) 126 (encToks ts2) = none := by
  intro ts
  induction ts with
  | nil => intro rev k _ _ _ _ A B h; simp [W] at h
  | cons t ts ih =>
    intro rev k hwf hm hf hk A B hd
    obtain ⟨m, c⟩ := t
    have hm' : ∀ m, (m, 126) ∈ ts → m = true := fun m h => hm m (by simp [h])
    cases m with
    | false =>
      simp only [W] at hd
      cases A with
      | nil => simp at hd; obtain ⟨rfl, -⟩ := hd; exact absurd (hm false (by simp)) (by simp)
      | cons a A =>
        simp at hd
        obtain ⟨-, hd⟩ := hd
        obtain ⟨ts1, ts2, h1, h2, h3⟩ := ih (c :: rev) (k-1) hwf.tail hm' (by
          intro ts1 c' ts2 h
          have := hf ((false, c) :: ts1) c' ts2 (by simp [h])
          simpa using this) (by
          rcases hk with rfl | hk
          · left; rfl
          · cases k with
            | zero => left; rfl
            | succ k => right; exact hk.tail) A B hd
        exact ⟨(false, c) :: ts1, ts2, by simp [h1], h2, by simpa using h3⟩
    | true =>
      have hf' : ∀ ts1 c' ts2, ts = ts1 ++ (true, c') :: ts2 →
          isFencedCode (MARK :: ((encToks ts1).reverse ++ (c :: MARK :: rev))) c' (encToks ts2) = none := by
        intro ts1 c' ts2 h
        have := hf ((true, c) :: ts1) c' ts2 (by simp [h])
        simpa using this
      have step : ∀ A B k', (k' = 0 ∨ NoTick (encToks ts) (k' + 1)) →
          W hs (c :: MARK :: rev) k' ts = A ++ (false, 126) :: B →
          ∃ ts1 ts2, (true, c) :: ts = ts1 ++ (true, 126) :: ts2 ∧ B.map Prod.snd = ts2.map Prod.snd ∧
            checkElements hs (MARK :: ((encToks ts1).reverse ++ rev)) 126 (encToks ts2) = none := by
        intro A B k' hk' h
        obtain ⟨ts1, ts2, h1, h2, h3⟩ := ih _ k' hwf.tail hm' hf' hk' A B h
        exact ⟨(true, c) :: ts1, ts2, by simp [h1], h2, by simpa using h3⟩
      cases k with
      | zero =>
        have hf0 := hf [] c ts rfl
        simp only [encToks_nil, List.reverse_nil, List.nil_append] at hf0
        cases hce : checkElements hs (MARK :: rev) c (encToks ts) with
        | none =>
          simp only [W, hce] at hd
          cases A with
          | nil =>
            simp at hd
            obtain ⟨rfl, hd⟩ := hd
            exact ⟨[], ts, rfl, by rw [← hd, W_snd], by simpa using hce⟩
          | cons a A => simp at hd; exact step A B 0 (.inl rfl) hd.2
        | some n =>
          simp only [W, hce] at hd
          cases A with
          | nil => simp at hd
          | cons a A =>
            simp at hd
            refine step A B (n-2) ?_ hd.2
            rcases stock_noTick hst hce hf0 with rfl | h
            · left; rfl
            · by_cases hn : n - 2 = 0
              · exact .inl hn
              · right; rwa [show n - 2 + 1 = n - 1 by omega]
      | succ k =>
        have hk : NoTick (MARK :: c :: encToks ts) (k + 2) := by
          rcases hk with hk | hk
          · omega
          · simpa using hk
        simp only [W] at hd
        cases A with
        | nil => simp at hd; obtain ⟨rfl, -⟩ := hd; exact absurd rfl (hk 126 (by simp)).2
        | cons a A =>
          simp at hd
          refine step A B (k-1) ?_ hd.2
          cases k with
          | zero => left; rfl
          | succ k => right; exact hk.tail.tail

theorem splitOn_append (c : UInt8) : ∀ (a x : Bytes), splitOn c (a ++ c :: x) = splitOn c a ++ splitOn c x := by
  intro a
  induction a with
  | nil => intro x; simp [splitOn]
  | cons b a ih =>
    intro x
    by_cases hb : b = c
    · subst hb; simp [splitOn, ih]
    · obtain ⟨l, ls, h1, h2⟩ := splitOn_cons_ne b c a hb
      obtain ⟨l', ls', h1', h2'⟩ := splitOn_cons_ne b c (a ++ c :: x) hb
      rw [h2, List.cons_append, h2']
      rw [ih, h1] at h1'
      simp at h1'
      obtain ⟨rfl, rfl⟩ := h1'
      simp

theorem splitOn_head (c : UInt8) : ∀ (x : Bytes), ∃ ls, splitOn c x = x.takeWhile (· != c) :: ls := by
  intro x
  induction x with
  | nil => exact ⟨[], rfl⟩
  | cons b x ih =>
    by_cases hb : b = c
    · subst hb; exact ⟨splitOn b x, by simp [splitOn]⟩
    · obtain ⟨ls, h⟩ := ih
      exact ⟨ls, by simp [splitOn, hb, h]⟩

/-- Find the line of a position that only has spaces in front of it. -/
theorem line_at (ts1 : Toks) (hwf : WF ts1) (x : Bytes) (h : atLineStart (encToks ts1).reverse = true) :
    ∃ line ∈ Spec.lines (ts1.map Prod.snd ++ x), Spec.dropSpaces line = Spec.dropSpaces (x.takeWhile (· != NL)) := by
  -- induction on the number of tokens, from the end
  generalize hn : ts1.length = n
  induction n generalizing ts1 x with
  | zero =>
    have : ts1 = [] := List.length_eq_zero_iff.1 hn
    subst this
    obtain ⟨ls, h⟩ := splitOn_head NL x
    exact ⟨_, by rw [Spec.lines, List.map_nil, List.nil_append, h]; simp, rfl⟩
  | succ n ih =>
    rcases List.eq_nil_or_concat ts1 with rfl | ⟨ts', t, rfl⟩
    · simp at hn
    · simp at hn
      obtain ⟨m, c⟩ := t
      have hw := hwf (m, c) (by simp)
      have hh : c = NL ∨ (c = SP ∧ atLineStart (encToks ts').reverse = true) := by
        cases m <;> simp [atLineStart_cons, hw.1] at h <;> grind
      rcases hh with rfl | ⟨rfl, hh⟩
      · obtain ⟨ls, hls⟩ := splitOn_head NL x
        refine ⟨x.takeWhile (· != NL), ?_, rfl⟩
        simp only [Spec.lines, List.concat_eq_append, List.map_append, List.map_cons, List.map_nil, List.append_assoc,
          List.singleton_append, splitOn_append, hls]
        simp
      · obtain ⟨line, g1, g2⟩ := ih ts' (fun x hx => hwf x (by simp [hx])) (SP :: x) hh (by simpa using hn)
        refine ⟨line, by simpa using g1, ?_⟩
        rw [g2]
        simp [Spec.dropSpaces]

theorem fencedCodeLoop_le : ∀ (ts : Toks) (count n : Nat), WF ts →
    (fencedCodeLoop count n (encToks ts)).1 ≤
      count + ((ts.map Prod.snd).takeWhile fun b => b == 96 || b == 126).length := by
  intro ts
  induction ts with
  | nil => simp [fencedCodeLoop]
  | cons t ts ih =>
    intro count n hwf
    obtain ⟨m, c⟩ := t
    have h7 := hwf.head.1
    simp at h7
    have key : ∀ n, (if c = MARK then fencedCodeLoop count (n+1) (encToks ts)
        else if c = 96 ∨ c = 126 then fencedCodeLoop (count + 1) (n+1) (encToks ts) else (count, n)).1 ≤
        count + ((((m, c) :: ts).map Prod.snd).takeWhile fun b => b == 96 || b == 126).length := by
      intro n
      rw [if_neg h7]
      split
      · rename_i hc
        have := ih (count+1) (n+1) hwf.tail
        have hc' : (c == 96 || c == 126) = true := by simpa using hc
        simp only [List.map_cons, List.takeWhile_cons, hc', if_true, List.length_cons]
        omega
      · simp
    cases m with
    | false => simpa [fencedCodeLoop] using key n
    | true => simpa [fencedCodeLoop] using key (n+1)

theorem takeWhile_prefix_len (x : Bytes) : ((x.takeWhile (· != NL)).takeWhile fun b => b == 96 || b == 126) =
    x.takeWhile fun b => b == 96 || b == 126 := by
  induction x with
  | nil => rfl
  | cons b x ih =>
    by_cases hb : b = NL
    · subst hb; simp
    · simp only [List.takeWhile_cons, show (b != NL) = true by simpa using hb, if_true]
      split
      · rw [ih]
      · rfl

theorem no_fence_text {t : Bytes} (hM : MARK ∉ t) (h0 : 0 ∉ t)
    (h : ∀ line ∈ Spec.lines t, Spec.startsWithFenceChars line = false) :
    ∀ ts1 c ts2, textToks t = ts1 ++ (true, c) :: ts2 →
      isFencedCode (MARK :: ((encToks ts1).reverse ++ [])) c (encToks ts2) = none := by
  intro ts1 c ts2 hts
  have hwf := textToks_wf t hM
  rw [hts] at hwf
  have ht := textToks_snd t h0
  rw [hts] at ht
  have hwf1 := (WF.append.1 hwf).1
  have hwf2 := (WF.append.1 hwf).2.tail
  simp only [isFencedCode, List.append_nil]
  split
  · rfl
  · rename_i hc
    split
    · rfl
    · rename_i hls
      have hls : atLineStart (encToks ts1).reverse = true := by
        simp [atLineStart] at hls; exact hls
      have hc : c = 96 ∨ c = 126 := by grind
      split
      · rfl
      · rename_i hcnt
        exfalso
        obtain ⟨line, g1, g2⟩ := line_at ts1 hwf1 (c :: ts2.map Prod.snd) hls
        rw [show ts1.map Prod.snd ++ c :: ts2.map Prod.snd = t by rw [← ht]; simp] at g1
        have := h line g1
        simp only [Spec.startsWithFenceChars, g2] at this
        have hle := fencedCodeLoop_le ts2 1 1 hwf2
        have hcs : c ≠ SP ∧ c ≠ NL := by rcases hc with rfl | rfl <;> decide
        have hds : Spec.dropSpaces ((c :: ts2.map Prod.snd).takeWhile (· != NL)) =
            (c :: ts2.map Prod.snd).takeWhile (· != NL) := by
          simp [Spec.dropSpaces, hcs.1, hcs.2]
        rw [hds, takeWhile_prefix_len] at this
        have hc' : (c == 96 || c == 126) = true := by simpa using hc
        simp only [List.takeWhile_cons, hc', if_true, List.length_cons, decide_eq_false_iff_not] at this
        omega

/-! ## Arbitrary registered characters -/

/-- The tokens of a text for arbitrary registered characters. -/
def mdToks (isMd : Nat → Bool) : Bytes → Toks
  | [] => []
  | b :: bs => (isMd (decodeRune (b :: bs)).1, b) :: mdToks isMd bs

theorem escapeLoop_md (isMd : Nat → Bool) : ∀ t : Bytes, 0 ∉ t → escapeLoop isMd t = encToks (mdToks isMd t) := by
  intro t
  induction t with
  | nil => intro _; rfl
  | cons b t ih =>
    intro h
    simp at h
    have hb : b ≠ 0 := Ne.symm h.1
    simp only [escapeLoop, if_neg hb, mdToks, ih h.2]
    split <;> rename_i hmd <;> simp [hmd]

theorem mdToks_ne (isMd : Nat → Bool) : ∀ t : Bytes, MARK ∉ t → ∀ x ∈ mdToks isMd t, x.2 ≠ MARK := by
  intro t
  induction t with
  | nil => intro _ x hx; simp [mdToks] at hx
  | cons b t ih =>
    intro h x hx
    simp at h
    simp only [mdToks, List.mem_cons] at hx
    rcases hx with rfl | hx
    · exact Ne.symm h.1
    · exact ih h.2 x hx

theorem inserts_md (isMd : Nat → Bool) : ∀ (t : Bytes) rev k,
    Spec.Inserts (fun rest => isMd (decodeRune rest).1 = true) t (renToks (W hs rev k (mdToks isMd t))) := by
  intro t
  induction t with
  | nil => intro rev k; simp [mdToks, W]; exact .nil
  | cons b t ih =>
    intro rev k
    simp only [mdToks]
    cases hmd : isMd (decodeRune (b :: t)).1 with
    | false => simp only [W, renToks_cons_f]; exact .keep (ih _ _)
    | true =>
      cases k with
      | zero =>
        cases hce : checkElements hs (MARK :: rev) b (encToks (mdToks isMd t)) with
        | none => simp only [W, hce, renToks_cons_f]; exact .keep (ih _ _)
        | some n => simp only [W, hce, renToks_cons_t]; exact .escape hmd (ih _ _)
      | succ k => simp only [W, renToks_cons_f]; exact .keep (ih _ _)

end Verif.Escape
