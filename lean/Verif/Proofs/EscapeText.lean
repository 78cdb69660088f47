import Verif.Proofs.EscapeLines
/-!
# Text that went through escaping and un-escaping
-/

namespace Verif.Escape
open Verif

variable {hs : List Handler}

theorem u8_lt (a b : UInt8) : a < b ↔ a.toNat < b.toNat := UInt8.lt_iff_toNat_lt
theorem u8_le (a b : UInt8) : a ≤ b ↔ a.toNat ≤ b.toNat := UInt8.le_iff_toNat_le
theorem u8_eq (a b : UInt8) : a = b ↔ a.toNat = b.toNat := UInt8.toNat_inj.symm

theorem decodeRune_ascii (b : UInt8) (bs) (h : b < 0x80) : decodeRune (b :: bs) = (b.toNat, 1) := by
  simp [decodeRune, h]

theorem decodeRune_ge (b : UInt8) (bs) (h : ¬ b < 0x80) : 0x80 ≤ (decodeRune (b :: bs)).1 := by
  unfold decodeRune
  simp only [if_neg h]
  repeat' split
  all_goals (try simp only [runeError]; try omega)
  all_goals simp_all only [u8_lt, u8_le, u8_eq, isCont, Bool.and_eq_true, decide_eq_true_eq]
  all_goals (try simp only [UInt8.toNat_ofNat] at *)
  all_goals (try split at *)
  all_goals (try simp_all only [Bool.and_eq_true, decide_eq_true_eq])
  all_goals omega

theorem commonmarkChars_lt : ∀ b ∈ commonmarkChars, b < 0x80 ∧ wordByte b ∧ Spec.isPunct b := by
  unfold wordByte; decide

theorem isCommonmarkChar_decode (b : UInt8) (bs) :
    isCommonmarkChar (decodeRune (b :: bs)).1 = true ↔ b ∈ commonmarkChars := by
  by_cases h : b < 0x80
  · rw [decodeRune_ascii b bs h]
    simp only [isCommonmarkChar, List.any_eq_true, beq_iff_eq, UInt8.toNat_inj]
    simp
  · have := decodeRune_ge b bs h
    constructor
    · intro hc
      simp only [isCommonmarkChar, List.any_eq_true, beq_iff_eq] at hc
      obtain ⟨x, hx, hx'⟩ := hc
      have := (commonmarkChars_lt x hx).1
      rw [u8_lt] at this
      simp at this
      omega
    · intro hb; exact absurd (commonmarkChars_lt b hb).1 h

/-- The tokens of a text. -/
def textToks : Bytes → Toks
  | [] => []
  | b :: bs =>
    if b = 0 then (false, 239) :: (false, 191) :: (false, 189) :: textToks bs
    else (decide (b ∈ commonmarkChars), b) :: textToks bs

theorem escapeLoop_eq : ∀ t : Bytes, escapeLoop isCommonmarkChar t = encToks (textToks t) := by
  intro t
  induction t with
  | nil => rfl
  | cons b bs ih =>
    simp only [escapeLoop, textToks]
    split
    · simp [ih]
    · have := isCommonmarkChar_decode b bs
      by_cases hb : b ∈ commonmarkChars
      · simp [this.2 hb, hb, ih]
      · have : isCommonmarkChar (decodeRune (b :: bs)).1 = false := by
          rw [← Bool.not_eq_true]; intro h; exact hb (this.1 h)
        simp [this, hb, ih]

theorem textToks_wf : ∀ t : Bytes, MARK ∉ t → WF (textToks t) := by
  intro t
  induction t with
  | nil => intro _; simp [WF, textToks]
  | cons b bs ih =>
    intro h
    simp at h
    simp only [textToks]
    split
    · intro x hx
      simp only [List.mem_cons] at hx
      rcases hx with rfl | rfl | rfl | hx
      · simp
      · simp
      · simp
      · exact ih h.2 x hx
    · intro x hx
      simp only [List.mem_cons] at hx
      rcases hx with rfl | hx
      · refine ⟨Ne.symm h.1, ?_⟩
        simp
        intro hb
        exact (commonmarkChars_lt b hb).2.1
      · exact ih h.2 x hx

/-- Every registered character is marked. -/
def AllMarked (ts : Toks) : Prop := ∀ t ∈ ts, t.1 = true ↔ t.2 ∈ commonmarkChars

theorem textToks_marked : ∀ t : Bytes, AllMarked (textToks t) := by
  intro t
  induction t with
  | nil => simp [AllMarked, textToks]
  | cons b bs ih =>
    intro x hx
    simp only [textToks] at hx
    split at hx
    · simp only [List.mem_cons] at hx
      rcases hx with rfl | rfl | rfl | hx
      · decide
      · decide
      · decide
      · exact ih x hx
    · simp only [List.mem_cons] at hx
      rcases hx with rfl | hx
      · simp
      · exact ih x hx

theorem textToks_chars : ∀ t : Bytes, ∀ x ∈ textToks t, x.2 ∈ t ∨ x.2 = 239 ∨ x.2 = 191 ∨ x.2 = 189 := by
  intro t
  induction t with
  | nil => simp [textToks]
  | cons b bs ih =>
    intro x hx
    simp only [textToks] at hx
    split at hx
    · simp only [List.mem_cons] at hx
      rcases hx with rfl | rfl | rfl | hx
      · simp
      · simp
      · simp
      · rcases ih x hx with h | h
        · left; simp [h]
        · right; exact h
    · simp only [List.mem_cons] at hx
      rcases hx with rfl | hx
      · simp
      · rcases ih x hx with h | h
        · left; simp [h]
        · right; exact h

/-- A list of handlers that contains those of the CommonMark plugin and otherwise only handlers
that respect the skip regions. -/
structure Good (dig : Nat → Bool) (hs : List Handler) : Prop where
  mem : ∀ h ∈ commonmarkHandlers dig, h ∈ hs
  ok : ∀ h ∈ hs, SkipOK h

/-- The state of the loop at the first character of a line of the output. -/
theorem text_line {dig} (hg : Good dig hs) {t line : Bytes} (hM : MARK ∉ t)
    (hl : line ∈ Spec.lines (unEscapeContent .smart hs (escapeContent .smart isCommonmarkChar t))) :
    ∃ rev ts rest, WF ts ∧ AllMarked ts ∧ (∀ x ∈ ts, x ∈ textToks t) ∧ atLineStart rev = true ∧
      renToks (W hs rev 0 ts) = Spec.dropSpaces line ++ rest ∧ (rest = [] ∨ ∃ r, rest = NL :: r) ∧
      NL ∉ line := by
  have hwf := textToks_wf t hM
  simp only [escapeContent, escapeLoop_eq] at hl
  rw [unEscape_enc _ (fun x hx => (hwf x hx).1)] at hl
  obtain ⟨a, b, h1, h2, h3, h4⟩ := mem_splitOn hl
  obtain ⟨ts1, ts2, A, g1, g2, g3, g4, g5, g6⟩ := line_state hg.ok hwf h1 h3
  have hwf2 : WF ts2 := fun x hx => hwf x (by rw [g1]; simp [hx])
  obtain ⟨sp, ts', k1, k2, k3, k4⟩ := space_state line hwf2 g4 g5
  have hsub : ∀ x ∈ ts', x ∈ textToks t := fun x hx => by rw [g1, k1]; simp [hx]
  exact ⟨_, ts', b, fun x hx => hwf x (hsub x hx), fun x hx => textToks_marked t x (hsub x hx), hsub, k3, k4, h4, h2⟩

/-- The loop is at the first character `c` of a line, no handler wants to escape it, and the rest of the
line of the output is `x`. -/
def AtMarked (dig : Nat → Bool) (hs : List Handler) (c : UInt8) (x : Bytes) : Prop :=
  ∃ rev ts rest, WF ts ∧ atLineStart rev = true ∧
    renToks (W hs (c :: MARK :: rev) 0 ts) = x ++ rest ∧ (rest = [] ∨ ∃ r, rest = NL :: r) ∧
    ∀ g ∈ commonmarkHandlers dig, g (MARK :: rev) c (encToks ts) = none

theorem atMarked_of {dig} (hg : Good dig hs) {c x rev ts rest} (h1 : WF ((true, c) :: ts))
    (h4 : atLineStart rev = true) (h5 : renToks (W hs rev 0 ((true, c) :: ts)) = c :: (x ++ rest))
    (h6 : rest = [] ∨ ∃ r, rest = NL :: r) (hc' : c ≠ BS) : AtMarked dig hs c x := by
  obtain ⟨g1, g2⟩ := marked_not_escaped hc' h5
  exact ⟨rev, ts, rest, h1.tail, h4, g2, h6, fun g hg' => g1 g (hg.mem g hg')⟩

/-- The same, if the line starts with a registered character other than the backslash. -/
theorem text_line_marked {dig} (hg : Good dig hs) {t line : Bytes} {c x} (hM : MARK ∉ t)
    (hl : line ∈ Spec.lines (unEscapeContent .smart hs (escapeContent .smart isCommonmarkChar t)))
    (hx : Spec.dropSpaces line = c :: x) (hc : c ∈ commonmarkChars) (hc' : c ≠ BS) :
    AtMarked dig hs c x := by
  obtain ⟨rev, ts, rest, h1, h2, h3, h4, h5, h6, h7⟩ := text_line hg hM hl
  rw [hx, List.cons_append] at h5
  obtain ⟨m, ts', rfl⟩ := ren_head hc' h5
  have hm : m = true := (h2 (m, c) (by simp)).2 hc
  subst hm
  exact atMarked_of hg h1 h4 h5 h6 hc'

theorem atLineStart_mark {rev} (h : atLineStart rev = true) : atLineStart (MARK :: rev) = true := by
  simp [atLineStart, h]

theorem dropSpaces_no_nl {line : Bytes} (h : NL ∉ line) : NL ∉ Spec.dropSpaces line := by
  intro h'; exact h ((List.dropWhile_sublist _).subset h')

/-- What follows `x` in the output when `x ++ rest` does and `rest` is empty or starts a new line. -/
theorem endOrBlank_cases {x rest : Bytes} (h : Spec.endOrBlank x = true)
    (hr : rest = [] ∨ ∃ r, rest = NL :: r) :
    x ++ rest = [] ∨ ∃ b r, x ++ rest = b :: r ∧ (b = SP ∨ b = 9 ∨ b = NL ∨ b = 13) := by
  cases x with
  | nil =>
    rcases hr with rfl | ⟨r, rfl⟩
    · left; rfl
    · right; exact ⟨NL, r, by simp⟩
  | cons b x =>
    right
    refine ⟨b, x ++ rest, by simp, ?_⟩
    simp [Spec.endOrBlank] at h
    grind

/-! ## One lemma per construct: the handler fires -/

theorem atxLoop_fires : ∀ (ts1 : Toks) (ts2 : Toks) (count n : Nat), WF ts1 →
    (∀ t ∈ ts1, t.2 = 35) → count + ts1.length ≤ 6 →
    (ts2 = [] ∨ ∃ m b ts', ts2 = (m, b) :: ts' ∧ (b = SP ∨ b = 9 ∨ b = NL ∨ b = 13)) → WF ts2 →
    (atxLoop count n (encToks (ts1 ++ ts2))).isSome = true := by
  intro ts1
  induction ts1 with
  | nil =>
    intro ts2 count n _ _ _ h hwf
    rcases h with rfl | ⟨m, b, ts', rfl, hb⟩
    · simp [atxLoop]
    · have hb35 : b ≠ 35 := by rcases hb with rfl | rfl | rfl | rfl <;> decide
      have hb7 : b ≠ 7 := by rcases hb with rfl | rfl | rfl | rfl <;> decide
      have hbb : b = SP ∨ b = 9 ∨ b = NL ∨ b = 13 := by grind
      cases m with
      | false => simp [atxLoop, hb35, hb7, hbb]
      | true =>
        simp [atxLoop, hb35, hb7, hbb]
  | cons t ts1 ih =>
    intro ts2 count n hwf h1 h2 h3 h4
    obtain ⟨m, c⟩ := t
    have hc : c = 35 := h1 (m, c) (by simp)
    subst hc
    simp at h2
    have := fun n => ih ts2 (count + 1) n hwf.tail (fun t ht => h1 t (by simp [ht])) (by omega) h3 h4
    have h6 : ¬ (count + 1 > 6) := by omega
    cases m with
    | false => simp only [List.cons_append, encToks_cons_f, atxLoop, if_true, if_neg h6]; exact this _
    | true =>
      simp only [List.cons_append, encToks_cons_t, atxLoop, if_true, if_neg h6]
      simp only [show ((7:UInt8) = 35) = False by decide, if_false]
      exact this _

theorem takeWhile_all {α} (p : α → Bool) (l : List α) : ∀ x ∈ l.takeWhile p, p x = true := by
  induction l with
  | nil => simp
  | cons a l ih => simp only [List.takeWhile_cons]; split <;> simp_all

/-- The output after the first character, cut at a part without backslashes. -/
theorem cut_ren {rev k} {ts : Toks} {x y rest : Bytes} (hy : BS ∉ y)
    (h : renToks (W hs rev k ts) = (y ++ x) ++ rest) :
    ∃ ts1 ts2 rev' k', ts = ts1 ++ ts2 ∧ ts1.map Prod.snd = y ∧ renToks (W hs rev' k' ts2) = x ++ rest := by
  rw [List.append_assoc] at h
  exact ren_chars y hy h

/-- The next byte of the output is the next byte of the content. -/
theorem next_cases {rev k} {ts : Toks} {x rest : Bytes} (hx : Spec.endOrBlank x = true)
    (hr : rest = [] ∨ ∃ r, rest = NL :: r) (h : renToks (W hs rev k ts) = x ++ rest) :
    ts = [] ∨ ∃ m b ts', ts = (m, b) :: ts' ∧ (b = SP ∨ b = 9 ∨ b = NL ∨ b = 13) := by
  rcases endOrBlank_cases hx hr with h' | ⟨b, r, h', hb⟩
  · left; rw [h'] at h; exact ren_nil h
  · right
    rw [h'] at h
    obtain ⟨m, ts', rfl⟩ := ren_head (by rcases hb with rfl | rfl | rfl | rfl <;> decide) h
    exact ⟨m, b, ts', rfl, hb⟩

theorem getNext_space {ts : Toks}
    (h : ts = [] ∨ ∃ m b ts', ts = (m, b) :: ts' ∧ (b = SP ∨ b = 9 ∨ b = NL ∨ b = 13)) :
    (isSpaceByte (getNext (encToks ts)) || getNext (encToks ts) == 0) = true := by
  rcases h with rfl | ⟨m, b, ts', rfl, hb⟩
  · simp [getNext]
  · cases m <;> rcases hb with rfl | rfl | rfl | rfl <;> simp [getNext, isSpaceByte]

theorem atx_core {dig} {line : Bytes}
    (hA : ∀ c x, Spec.dropSpaces line = c :: x → c ∈ commonmarkChars → c ≠ BS → AtMarked dig hs c x) :
    Spec.isAtxHeading line = false := by
  rw [← Bool.not_eq_true]
  intro h
  simp only [Spec.isAtxHeading, Bool.and_eq_true, decide_eq_true_eq] at h
  obtain ⟨⟨h1, h2⟩, h3⟩ := h
  cases hs' : Spec.dropSpaces line with
  | nil => simp [hs'] at h1
  | cons c x =>
    rw [hs'] at h1 h2 h3
    by_cases hc : c = 35
    · subst hc
      simp only [List.takeWhile_cons, List.dropWhile_cons, beq_self_eq_true, if_true, List.length_cons] at h1 h2 h3
      obtain ⟨rev, ts, rest, g1, g4, g5, g6, g8⟩ := hA _ _ hs' (by decide) (by decide)
      rw [← List.takeWhile_append_dropWhile (p := (· == 35)) (l := x)] at g5
      obtain ⟨ts1, ts2, rev', k', rfl, k1, k2⟩ := cut_ren (by
        intro hb; have := takeWhile_all _ _ _ hb; simp at this) g5
      have hlen : ts1.length = (x.takeWhile (· == 35)).length := by rw [← k1]; simp
      have := g8 isAtxHeader (by simp [commonmarkHandlers])
      simp only [isAtxHeader, atLineStart_mark g4] at this
      simp at this
      have fires := atxLoop_fires ts1 ts2 1 1 (WF.append.1 g1).1 (by
        intro t ht
        have : t.2 ∈ x.takeWhile (· == 35) := by rw [← k1]; exact List.mem_map_of_mem ht
        simpa using takeWhile_all _ _ _ this) (by omega) (next_cases h3 g6 k2) (WF.append.1 g1).2
      simp [this] at fires
    · simp [hc] at h1

theorem quote_core {dig} {line : Bytes}
    (hA : ∀ c x, Spec.dropSpaces line = c :: x → c ∈ commonmarkChars → c ≠ BS → AtMarked dig hs c x) :
    Spec.isBlockQuote line = false := by
  rw [← Bool.not_eq_true]
  intro h
  simp only [Spec.isBlockQuote] at h
  cases hs' : Spec.dropSpaces line with
  | nil => simp [hs'] at h
  | cons c x =>
    simp [hs'] at h
    subst h
    obtain ⟨rev, ts, rest, g1, g4, g5, g6, g8⟩ := hA _ _ hs' (by decide) (by decide)
    have := g8 isBlockQuote (by simp [commonmarkHandlers])
    simp [isBlockQuote, atLineStart_mark g4] at this

theorem bullet_core {dig} {line : Bytes}
    (hA : ∀ c x, Spec.dropSpaces line = c :: x → c ∈ commonmarkChars → c ≠ BS → AtMarked dig hs c x) :
    Spec.isBulletItem line = false := by
  rw [← Bool.not_eq_true]
  intro h
  simp only [Spec.isBulletItem] at h
  cases hs' : Spec.dropSpaces line with
  | nil => simp [hs'] at h
  | cons c x =>
    simp [hs'] at h
    obtain ⟨h1, h2⟩ := h
    obtain ⟨rev, ts, rest, g1, g4, g5, g6, g8⟩ := hA _ _ hs'
      (by rcases h1 with (rfl | rfl) | rfl <;> decide) (by rcases h1 with (rfl | rfl) | rfl <;> decide)
    have := g8 isUnorderedList (by simp [commonmarkHandlers])
    have hn := getNext_space (next_cases h2 g6 g5)
    simp only [isUnorderedList, atLineStart_mark g4, hn] at this
    rcases h1 with (rfl | rfl) | rfl <;> simp at this

theorem fencedCodeLoop_count : ∀ (ts1 ts2 : Toks) (count n : Nat), WF ts1 →
    (∀ t ∈ ts1, t.2 = 96 ∨ t.2 = 126) →
    count + ts1.length ≤ (fencedCodeLoop count n (encToks (ts1 ++ ts2))).1 := by
  have mono : ∀ (s : Bytes) count n, count ≤ (fencedCodeLoop count n s).1 := by
    intro s
    induction s with
    | nil => simp [fencedCodeLoop]
    | cons b s ih =>
      intro count n; simp only [fencedCodeLoop]
      split
      · exact ih _ _
      · split
        · have := ih (count+1) (n+1); omega
        · simp
  intro ts1
  induction ts1 with
  | nil => intro ts2 count n _ _; simpa using mono _ _ _
  | cons t ts1 ih =>
    intro ts2 count n hwf h
    obtain ⟨m, c⟩ := t
    have hc := h (m, c) (by simp)
    have h7 := hwf.head.1
    simp at hc h7
    have := fun n => ih ts2 (count+1) n hwf.tail (fun t ht => h t (by simp [ht]))
    cases m with
    | false =>
      simp only [List.cons_append, encToks_cons_f, fencedCodeLoop, if_neg h7, if_pos hc]
      have := this (n+1); simp only [List.length_cons]; omega
    | true =>
      simp only [List.cons_append, encToks_cons_t, fencedCodeLoop, if_neg h7, if_pos hc, if_true]
      have := this (n+1+1); simp only [List.length_cons]; omega

theorem fence_core {dig} {line : Bytes}
    (hA : ∀ c x, Spec.dropSpaces line = c :: x → c ∈ commonmarkChars → c ≠ BS → AtMarked dig hs c x) :
    Spec.isFence line = false := by
  have key : ∀ c : UInt8, (c = 96 ∨ c = 126) → ¬ 3 ≤ ((Spec.dropSpaces line).takeWhile (· == c)).length := by
    intro c hc h
    cases hs' : Spec.dropSpaces line with
    | nil => simp [hs'] at h
    | cons c' x =>
      rw [hs'] at h
      by_cases hcc : c' = c
      · subst hcc
        simp only [List.takeWhile_cons, beq_self_eq_true, if_true, List.length_cons] at h
        obtain ⟨rev, ts, rest, g1, g4, g5, g6, g8⟩ := hA _ _ hs'
          (by rcases hc with rfl | rfl <;> decide) (by rcases hc with rfl | rfl <;> decide)
        rw [← List.takeWhile_append_dropWhile (p := (· == c')) (l := x)] at g5
        obtain ⟨ts1, ts2, rev', k', rfl, k1, k2⟩ := cut_ren (by
          intro hb; have := takeWhile_all _ _ _ hb
          rcases hc with rfl | rfl <;> simp at this) g5
        have hlen : ts1.length = (x.takeWhile (· == c')).length := by rw [← k1]; simp
        have := g8 isFencedCode (by simp [commonmarkHandlers])
        have hcnt := fencedCodeLoop_count ts1 ts2 1 1 (WF.append.1 g1).1 (by
          intro t ht
          have : t.2 ∈ x.takeWhile (· == c') := by rw [← k1]; exact List.mem_map_of_mem ht
          have := takeWhile_all _ _ _ this
          grind)
        have hlt : ¬ (fencedCodeLoop 1 1 (encToks (ts1 ++ ts2))).1 < 3 := by omega
        simp only [isFencedCode, atLineStart_mark g4, if_neg hlt] at this
        rcases hc with rfl | rfl <;> simp at this
      · simp [hcc] at h
  have h1 := key 96 (by simp)
  have h2 := key 126 (by simp)
  simp only [Spec.isFence]
  simp
  omega

theorem dividerLoop_count (c : UInt8) (hc : c ≠ SP) : ∀ (ts1 ts2 : Toks) (count n : Nat), WF ts1 →
    (∀ t ∈ ts1, t.2 = SP ∨ t.2 = c) → (ts2 = [] ∨ ∃ ts', ts2 = (false, NL) :: ts') → c ≠ NL →
    ∃ m, dividerLoop c count n (encToks (ts1 ++ ts2)) =
      some (count + ((ts1.map Prod.snd).filter (· != SP)).length, m) := by
  intro ts1
  induction ts1 with
  | nil =>
    intro ts2 count n _ _ h hnl
    rcases h with rfl | ⟨ts', rfl⟩
    · simp [dividerLoop]
    · have : ¬ NL = c := Ne.symm hnl
      simp [dividerLoop, this]
  | cons t ts1 ih =>
    intro ts2 count n hwf h h2 hnl
    obtain ⟨m, b⟩ := t
    have hb := h (m, b) (by simp)
    have h7 := hwf.head.1
    simp at hb h7
    have ih1 := fun n => ih ts2 count n hwf.tail (fun t ht => h t (by simp [ht])) h2 hnl
    have ih2 := fun n => ih ts2 (count+1) n hwf.tail (fun t ht => h t (by simp [ht])) h2 hnl
    rcases hb with rfl | rfl
    · cases m with
      | false => simpa [dividerLoop] using ih1 (n+1)
      | true => simpa [dividerLoop] using ih1 (n+1+1)
    · have e := Nat.add_right_comm count ((ts1.map Prod.snd).filter (· != SP)).length 1
      have hf : ∀ l : Bytes, ((b :: l).filter (· != SP)).length = (l.filter (· != SP)).length + 1 := by
        simp [hc]
      cases m with
      | false =>
        simp only [List.cons_append, encToks_cons_f, dividerLoop, if_neg hc, if_neg h7, if_true, List.map_cons, hf]
        rw [← Nat.add_assoc, e]; exact ih2 (n+1)
      | true =>
        simp only [List.cons_append, encToks_cons_t, dividerLoop, if_neg hc, if_neg h7, if_true, List.map_cons, hf]
        rw [← Nat.add_assoc, e]; exact ih2 (n+1+1)

theorem dropSpaces_filter (line : Bytes) : (Spec.dropSpaces line).filter (· != SP) = line.filter (· != SP) := by
  induction line with
  | nil => rfl
  | cons b line ih =>
    by_cases hb : b = SP
    · subst hb; simpa [Spec.dropSpaces] using ih
    · simp [Spec.dropSpaces, hb]

theorem divider_core {dig} {line : Bytes} (hT : 9 ∉ line)
    (hA : ∀ c x, Spec.dropSpaces line = c :: x → c ∈ commonmarkChars → c ≠ BS → AtMarked dig hs c x) :
    Spec.isThematicBreak line = false := by
  rw [← Bool.not_eq_true]
  intro h
  have hfil : (line.filter fun b => b != 32 && b != 9) = (Spec.dropSpaces line).filter (· != SP) := by
    rw [dropSpaces_filter]
    apply List.filter_congr
    intro b hb
    have : b ≠ 9 := by rintro rfl; exact hT hb
    simp [this]
  simp only [Spec.isThematicBreak, hfil] at h
  cases hs' : Spec.dropSpaces line with
  | nil => simp [hs'] at h
  | cons c x =>
    have hcsp : c ≠ SP := by
      have := List.head?_dropWhile_not (p := (· == (32:UInt8))) (l := line)
      simp only [Spec.dropSpaces] at hs'
      rw [hs'] at this
      simpa using this
    rw [hs'] at h
    have hcsp' : (c != SP) = true := by simp [hcsp]
    simp only [List.filter_cons, hcsp', if_true, List.length_cons, Bool.and_eq_true, decide_eq_true_eq, List.all_cons, Bool.or_eq_true, beq_iff_eq, List.all_eq_true] at h
    obtain ⟨⟨h1, -, h2⟩, h3⟩ := h
    obtain ⟨rev, ts, rest, g1, g4, g5, g6, g8⟩ := hA _ _ hs'
      (by rcases h3 with (rfl | rfl) | rfl <;> decide) (by rcases h3 with (rfl | rfl) | rfl <;> decide)
    have hx : ∀ b ∈ x, b = SP ∨ b = c := by
      intro b hb
      by_cases hsp : b = SP
      · exact .inl hsp
      · right; exact h2 b (List.mem_filter.2 ⟨hb, by simp [hsp]⟩)
    obtain ⟨ts1, ts2, rev', k', rfl, k1, k2⟩ := ren_chars x (by
      intro hb
      rcases hx _ hb with h | h
      · simp at h
      · subst h; simp at h3) g5
    have hts2 : ts2 = [] ∨ ∃ ts', ts2 = (false, NL) :: ts' := by
      rcases g6 with rfl | ⟨r, rfl⟩
      · left; exact ren_nil k2
      · right
        obtain ⟨m, ts', rfl⟩ := ren_head (by decide) k2
        have := (g1 (m, NL) (by simp)).2
        cases m with
        | false => exact ⟨ts', rfl⟩
        | true => exact absurd rfl (this rfl).1
    obtain ⟨m, hm⟩ := dividerLoop_count c hcsp ts1 ts2 1 1 (WF.append.1 g1).1 (by
      intro t ht; apply hx; rw [← k1]; exact List.mem_map_of_mem ht) hts2
      (by rcases h3 with (rfl | rfl) | rfl <;> decide)
    have := g8 isDivider (by simp [commonmarkHandlers])
    rw [k1] at hm
    have h3' : 1 + (x.filter (· != SP)).length ≥ 3 := by omega
    simp only [isDivider, atLineStart_mark g4, hm, if_pos h3'] at this
    rcases h3 with (rfl | rfl) | rfl <;> simp at this

/-- There is no tab in the output if there is none in the text. -/
theorem text_no_tab {t line : Bytes} (hM : MARK ∉ t) (hT : 9 ∉ t)
    (hl : line ∈ Spec.lines (unEscapeContent .smart hs (escapeContent .smart isCommonmarkChar t))) :
    9 ∉ line := by
  have hwf := textToks_wf t hM
  simp only [escapeContent, escapeLoop_eq] at hl
  rw [unEscape_enc _ (fun x hx => (hwf x hx).1)] at hl
  obtain ⟨a, b, h1, -⟩ := mem_splitOn hl
  intro h9
  have : (9:UInt8) ∈ renToks (W hs [] 0 (textToks t)) := by rw [h1]; simp [h9]
  simp only [renToks, List.mem_flatMap] at this
  obtain ⟨d, hd, hd9⟩ := this
  have hd2 : d.2 = 9 := by
    split at hd9
    · simp at hd9; exact hd9.symm
    · simp at hd9; exact hd9.symm
  have : d.2 ∈ (textToks t).map Prod.snd := by rw [← W_snd (hs := hs) _ [] 0]; exact List.mem_map_of_mem hd
  simp only [List.mem_map] at this
  obtain ⟨x, hx, hx2⟩ := this
  rcases textToks_chars t x hx with h | h
  · rw [hx2, hd2] at h; exact hT h
  · rw [hx2, hd2] at h; revert h; decide

/-! ### ordered lists -/

theorem W_raw : ∀ (ts1 ts2 : Toks) rev, (∀ t ∈ ts1, t.1 = false) →
    W hs rev 0 (ts1 ++ ts2) = ts1 ++ W hs ((ts1.map Prod.snd).reverse ++ rev) 0 ts2 := by
  intro ts1
  induction ts1 with
  | nil => simp
  | cons t ts1 ih =>
    intro ts2 rev h
    obtain ⟨m, c⟩ := t
    have hm := h (m, c) (by simp)
    simp at hm
    subst hm
    simp [W, ih ts2 (c :: rev) (fun t ht => h t (by simp [ht]))]

theorem renToks_raw (ts : Toks) (h : ∀ t ∈ ts, t.1 = false) : renToks ts = ts.map Prod.snd := by
  induction ts with
  | nil => rfl
  | cons t ts ih =>
    obtain ⟨m, c⟩ := t
    have := h (m, c) (by simp)
    simp at this; subst this
    simpa using ih (fun t ht => h t (by simp [ht]))

theorem digits_not_marked : ∀ b : UInt8, Spec.isDigit b = true → b ∉ commonmarkChars ∧ b < 0x80 ∧ b ≠ MARK ∧ b ≠ BS := by
  intro b h
  have hlt : b < 0x80 := by
    simp only [Spec.isDigit, Bool.and_eq_true, decide_eq_true_eq] at h
    rw [u8_lt]; have := h.2; rw [u8_le] at this; simp at this ⊢; omega
  refine ⟨?_, hlt, ?_, ?_⟩
  · intro hb
    revert h
    have : ∀ b ∈ commonmarkChars, Spec.isDigit b = false := by decide
    simp [this b hb]
  · rintro rfl; revert h; decide
  · rintro rfl; revert h; decide

theorem digitsToLineStart_of : ∀ (ds : Bytes) rev, (∀ d ∈ ds, Spec.isDigit d = true) →
    atLineStart rev = true → digitsToLineStart (ds ++ rev) = true := by
  intro ds
  induction ds with
  | nil =>
    intro rev _ h
    simp only [List.nil_append]
    induction rev with
    | nil => rfl
    | cons b rev ih => simp only [digitsToLineStart]; simp only [atLineStart] at h; grind
  | cons d ds ih =>
    intro rev h h'
    have hd := h d (by simp)
    have : isDigitByte d = true := hd
    simp only [List.cons_append, digitsToLineStart, this, if_true, ih rev (fun d hd => h d (by simp [hd])) h']
    simp

theorem ordered_core {dig} (hg : Good dig hs) (hdig : ∀ n, 48 ≤ n → n ≤ 57 → dig n = true)
    {line rev rest : Bytes} {ts : Toks} (g1 : WF ts) (g4 : atLineStart rev = true)
    (g5 : renToks (W hs rev 0 ts) = Spec.dropSpaces line ++ rest) (g6 : rest = [] ∨ ∃ r, rest = NL :: r)
    (g2 : ∀ t ∈ ts, Spec.isDigit t.2 = true → t.1 = false)
    (g3 : ∀ ts1 m c ts2, ts = ts1 ++ (m, c) :: ts2 → (∀ t ∈ ts1, Spec.isDigit t.2 = true) →
      (c = 46 ∨ c = 41) → m = true) :
    Spec.isOrderedItem line = false := by
  rw [← Bool.not_eq_true]
  intro h
  simp only [Spec.isOrderedItem, Bool.and_eq_true, decide_eq_true_eq] at h
  obtain ⟨h1, h2⟩ := h
  generalize hs' : Spec.dropSpaces line = s at *
  rw [← List.takeWhile_append_dropWhile (p := Spec.isDigit) (l := s)] at g5
  have hds := takeWhile_all Spec.isDigit s
  generalize List.takeWhile Spec.isDigit s = ds at *
  cases hd : List.dropWhile Spec.isDigit s with
  | nil => simp [hd] at h2
  | cons c x =>
    rw [hd] at h2 g5
    simp only [Bool.and_eq_true, Bool.or_eq_true, beq_iff_eq] at h2
    obtain ⟨hc, h2⟩ := h2
    have g5' := g5
    obtain ⟨ts1, ts2, rev', k', rfl, k1, k2⟩ := cut_ren (by
      intro hb; exact (digits_not_marked _ (hds _ hb)).2.2.2 rfl) g5'
    have hdts : ∀ t ∈ ts1, Spec.isDigit t.2 = true := by
      intro t ht
      exact hds _ (by rw [← k1]; exact List.mem_map_of_mem ht)
    have hraw : ∀ t ∈ ts1, t.1 = false := fun t ht => g2 t (by simp [ht]) (hdts t ht)
    rw [W_raw ts1 ts2 rev hraw] at g5
    have hren : renToks ts1 = ds := by
      rw [← k1]
      exact renToks_raw ts1 hraw
    simp only [renToks_append, hren, List.append_assoc, List.append_cancel_left_eq, List.cons_append, k1] at g5
    have hcb : c ≠ BS := by rcases hc with rfl | rfl <;> decide
    obtain ⟨m, ts3, rfl⟩ := ren_head hcb g5
    have hm : m = true := g3 ts1 m c ts3 rfl hdts hc
    subst hm
    obtain ⟨e1, e2⟩ := marked_not_escaped hcb g5
    have := e1 (isOrderedList dig) (hg.mem _ (by simp [commonmarkHandlers]))
    have hn := getNext_space (next_cases h2 g6 e2)
    have hdl := digitsToLineStart_of ds.reverse rev (by simpa using hds) g4
    have hprev : dig (getPrevAsRune (MARK :: (ds.reverse ++ rev))) = true := by
      cases hdr : ds.reverse with
      | nil => simp at hdr; subst hdr; simp at h1
      | cons d ds' =>
        have hd : d ∈ ds := by rw [← List.mem_reverse, hdr]; simp
        have hdd := hds d hd
        obtain ⟨-, q2, q3, -⟩ := digits_not_marked d hdd
        simp only [List.cons_append, getPrevAsRune, if_true, if_neg q3, decodeLastRune, if_pos q2]
        simp only [Spec.isDigit, Bool.and_eq_true, decide_eq_true_eq, u8_le] at hdd
        simp at hdd
        exact hdig _ hdd.1 hdd.2
    have hdl' : digitsToLineStart (MARK :: (ds.reverse ++ rev)) = true := by
      simp [digitsToLineStart, hdl]
    simp only [isOrderedList, hprev, hn, hdl'] at this
    rcases hc with rfl | rfl <;> simp at this

theorem ordered_text {dig} (hg : Good dig hs) (hdig : ∀ n, 48 ≤ n → n ≤ 57 → dig n = true)
    {t line : Bytes} (hM : MARK ∉ t)
    (hl : line ∈ Spec.lines (unEscapeContent .smart hs (escapeContent .smart isCommonmarkChar t))) :
    Spec.isOrderedItem line = false := by
  obtain ⟨rev, ts, rest, g1, g2, g3, g4, g5, g6, g7⟩ := text_line hg hM hl
  refine ordered_core hg hdig g1 g4 g5 g6 ?_ ?_
  · intro t ht hd
    have := (digits_not_marked _ hd).1
    have h2 := g2 t ht
    cases ht1 : t.1 with
    | false => rfl
    | true => exact absurd (h2.1 ht1) this
  · intro ts1 m c ts2 h _ hc
    exact (g2 (m, c) (by rw [h]; simp)).2 (by show c ∈ _; rcases hc with rfl | rfl <;> decide)

end Verif.Escape
