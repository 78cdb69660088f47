import Verif.Proofs.Escape
import Verif.Spec.Lines
/-!
# Lines of un-escaped content
-/

namespace Verif.Escape
open Verif

variable {hs : List Handler}

theorem splitOn_ne_nil (c s) : splitOn c s ≠ [] := by
  cases s with
  | nil => simp [splitOn]
  | cons b bs => simp only [splitOn]; split <;> (try split) <;> simp

theorem splitOn_cons_eq (c s) : splitOn c (c :: s) = [] :: splitOn c s := by simp [splitOn]

theorem splitOn_cons_ne (b c s) (h : b ≠ c) : ∃ l ls, splitOn c s = l :: ls ∧
    splitOn c (b :: s) = (b :: l) :: ls := by
  obtain ⟨l, ls, hl⟩ := List.exists_cons_of_ne_nil (splitOn_ne_nil c s)
  exact ⟨l, ls, hl, by simp [splitOn, h, hl]⟩

/-- A line of a text is a part of the text between newlines. -/
theorem mem_splitOn {c : UInt8} {s line : Bytes} : line ∈ splitOn c s →
    ∃ a b, s = a ++ (line ++ b) ∧ c ∉ line ∧ (a = [] ∨ ∃ a', a = a' ++ [c]) ∧
      (b = [] ∨ ∃ b', b = c :: b') := by
  induction s generalizing line with
  | nil => simp [splitOn]; rintro rfl; exact ⟨[], [], by simp⟩
  | cons x s ih =>
    by_cases hx : x = c
    · subst hx
      rw [splitOn_cons_eq]
      simp only [List.mem_cons]
      rintro (rfl | h)
      · exact ⟨[], x :: s, by simp⟩
      · obtain ⟨a, b, rfl, h2, h3, h4⟩ := ih h
        refine ⟨x :: a, b, by simp, h2, ?_, h4⟩
        rcases h3 with rfl | ⟨a', rfl⟩
        · exact .inr ⟨[], by simp⟩
        · exact .inr ⟨x :: a', by simp⟩
    · obtain ⟨l, ls, h1, h2⟩ := splitOn_cons_ne x c s hx
      rw [h2]
      simp only [List.mem_cons]
      rintro (rfl | h)
      · obtain ⟨a, b, h3, h4, h5, h6⟩ := ih (line := l) (by simp [h1])
        -- the first line starts at the start
        have hfirst : ∀ (s : Bytes) l ls, splitOn c s = l :: ls →
            c ∉ l ∧ ∃ b, s = l ++ b ∧ (b = [] ∨ ∃ b', b = c :: b') := by
          intro s
          induction s with
          | nil => intro l ls h; simp [splitOn] at h; obtain ⟨rfl, -⟩ := h; simp
          | cons y s ih =>
            intro l ls h
            by_cases hy : y = c
            · subst hy; rw [splitOn_cons_eq] at h; simp at h; obtain ⟨rfl, -⟩ := h; simp
            · obtain ⟨l', ls', h1, h2⟩ := splitOn_cons_ne y c s hy
              rw [h2] at h; simp at h; obtain ⟨rfl, rfl⟩ := h
              obtain ⟨g1, b, g2, g3⟩ := ih _ _ h1
              refine ⟨by simp [g1, Ne.symm hy], b, by simp [g2], g3⟩
        obtain ⟨g1, b, g2, g3⟩ := hfirst _ _ _ h1
        refine ⟨[], b, by simp [g2], by simp [g1, Ne.symm hx], .inl rfl, g3⟩
      · -- a later line
        have hlater : ∀ (s : Bytes) l ls, splitOn c s = l :: ls → ∀ line ∈ ls,
            ∃ a b, s = a ++ (line ++ b) ∧ c ∉ line ∧ (∃ a', a = a' ++ [c]) ∧ (b = [] ∨ ∃ b', b = c :: b') := by
          intro s
          induction s with
          | nil => intro l ls h; simp [splitOn] at h; obtain ⟨rfl, rfl⟩ := h; simp
          | cons y s ih2 =>
            intro l ls h line hline
            by_cases hy : y = c
            · subst hy; rw [splitOn_cons_eq] at h; simp at h; obtain ⟨rfl, rfl⟩ := h
              obtain ⟨l', ls', hl'⟩ := List.exists_cons_of_ne_nil (splitOn_ne_nil y s)
              rw [hl'] at hline
              rcases List.mem_cons.1 hline with rfl | hline
              · have hfirst : ∀ (s : Bytes) l ls, splitOn y s = l :: ls →
                    y ∉ l ∧ ∃ b, s = l ++ b ∧ (b = [] ∨ ∃ b', b = y :: b') := by
                  intro s
                  induction s with
                  | nil => intro l ls h; simp [splitOn] at h; obtain ⟨rfl, -⟩ := h; simp
                  | cons z s ih =>
                    intro l ls h
                    by_cases hy : z = y
                    · subst hy; rw [splitOn_cons_eq] at h; simp at h; obtain ⟨rfl, -⟩ := h; simp
                    · obtain ⟨l', ls', h1, h2⟩ := splitOn_cons_ne z y s hy
                      rw [h2] at h; simp at h; obtain ⟨rfl, rfl⟩ := h
                      obtain ⟨g1, b, g2, g3⟩ := ih _ _ h1
                      refine ⟨by simp [g1, Ne.symm hy], b, by simp [g2], g3⟩
                obtain ⟨g1, b, g2, g3⟩ := hfirst _ _ _ hl'
                exact ⟨[y], b, by simp [g2], g1, ⟨[], by simp⟩, g3⟩
              · obtain ⟨a, b, rfl, g2, ⟨a', rfl⟩, g4⟩ := ih2 _ _ hl' _ hline
                exact ⟨y :: (a' ++ [y]), b, by simp, g2, ⟨y :: a', by simp⟩, g4⟩
            · obtain ⟨l', ls', h1, h2⟩ := splitOn_cons_ne y c s hy
              rw [h2] at h; simp at h; obtain ⟨rfl, rfl⟩ := h
              obtain ⟨a, b, rfl, g2, ⟨a', rfl⟩, g4⟩ := ih2 _ _ h1 _ hline
              exact ⟨y :: (a' ++ [c]), b, by simp, g2, ⟨y :: a', by simp⟩, g4⟩
        obtain ⟨a, b, rfl, g2, ⟨a', rfl⟩, g4⟩ := hlater _ _ _ h1 _ h
        exact ⟨x :: (a' ++ [c]), b, by simp, g2, .inr ⟨x :: a', by simp⟩, g4⟩

/-- Cutting the output at a newline cuts the tokens. -/
theorem renToks_split : ∀ (D : Toks) (a s : Bytes), (∀ t ∈ D, t.1 = true → t.2 ≠ NL) →
    renToks D = a ++ s → (a = [] ∨ ∃ a', a = a' ++ [NL]) →
    ∃ A S, D = A ++ S ∧ renToks A = a ∧ renToks S = s := by
  intro D
  induction D with
  | nil => intro a s _ h; simp at h; obtain ⟨rfl, rfl⟩ := h; exact fun _ => ⟨[], [], by simp⟩
  | cons t D ih =>
    intro a s hD h ha
    cases a with
    | nil => exact ⟨[], t :: D, by simp; simpa using h⟩
    | cons x a =>
      have ha' : ∀ y a'', a = y :: a'' → (a = [] ∨ ∃ a', a = a' ++ [NL]) := by
        intro y a'' hy; right
        rcases ha with ha | ⟨a', ha⟩
        · simp at ha
        · cases a' with
          | nil => simp at ha; simp [hy] at ha
          | cons z a' => simp at ha; exact ⟨a', ha.2⟩
      obtain ⟨m, c⟩ := t
      cases m with
      | false =>
        simp at h
        obtain ⟨rfl, h⟩ := h
        have ha2 : a = [] ∨ ∃ a', a = a' ++ [NL] := by
          cases a with
          | nil => exact .inl rfl
          | cons y a'' => exact ha' y a'' rfl
        obtain ⟨A, S, rfl, rfl, rfl⟩ := ih a s (fun t ht => hD t (by simp [ht])) h ha2
        exact ⟨(false, c) :: A, S, by simp⟩
      | true =>
        simp at h
        obtain ⟨rfl, h⟩ := h
        cases a with
        | nil =>
          rcases ha with ha | ⟨a', ha⟩
          · simp at ha
          · cases a' with
            | nil => simp at ha
            | cons z a' => simp at ha
        | cons y a =>
          simp at h
          obtain ⟨rfl, h⟩ := h
          have ha2 : a = [] ∨ ∃ a', a = a' ++ [NL] := by
            cases a with
            | nil => exact .inl rfl
            | cons y' a'' =>
              right
              rcases ha' c (y' :: a'') rfl with h | ⟨a', h⟩
              · simp at h
              · cases a' with
                | nil => simp at h
                | cons z a' => simp at h; exact ⟨a', h.2⟩
          obtain ⟨A, S, rfl, rfl, rfl⟩ := ih a s (fun t ht => hD t (by simp [ht])) h ha2
          exact ⟨(true, c) :: A, S, by simp⟩

/-- Escaped tokens are marked tokens. -/
theorem W_escaped_marked : ∀ (ts : Toks) rev k, ∀ t ∈ W hs rev k ts, t.1 = true → (true, t.2) ∈ ts := by
  intro ts
  induction ts with
  | nil => intro rev k; simp [W]
  | cons t ts ih =>
    intro rev k
    obtain ⟨m, c⟩ := t
    cases m with
    | false => simp only [W]; intro t; grind
    | true =>
      cases k with
      | zero => simp only [W]; split <;> (intro t; grind)
      | succ k => simp only [W]; intro t; grind

theorem atLineStart_newline (ts : Toks) (hwf : WF ts) (D : Toks) (hmap : D.map Prod.snd = ts.map Prod.snd)
    (hD : ∀ t ∈ D, t.1 = true → t.2 ≠ NL)
    (h : renToks D = [] ∨ ∃ a', renToks D = a' ++ [NL]) : atLineStart (encToks ts).reverse = true := by
  rcases List.eq_nil_or_concat ts with rfl | ⟨ts', t, rfl⟩
  · simp [atLineStart]
  · rcases List.eq_nil_or_concat D with rfl | ⟨D', d, rfl⟩
    · simp at hmap
    · simp at hmap
      have hd : d.2 = NL := by
        obtain ⟨m, c⟩ := d
        rcases h with h | ⟨a', h⟩
        · cases m <;> simp at h
        · cases m with
          | false =>
            simp at h
            exact h.2
          | true =>
            simp only [List.concat_eq_append, renToks_append, renToks_cons_t, renToks_nil] at h
            rw [show renToks D' ++ [BS, c] = (renToks D' ++ [BS]) ++ [c] by simp] at h
            have := List.append_inj_right' h (by simp)
            simpa using this
      have ht : t.2 = NL := by rw [← hmap.2, hd]
      obtain ⟨m, c⟩ := t
      simp at ht; subst ht
      have := hwf (m, NL) (by simp)
      cases m with
      | true => exact absurd rfl (this.2 rfl).1
      | false => simp [atLineStart]

/-- For every line of the output: the tokens that start there, and the state of the loop. -/
theorem line_state (hok : ∀ h ∈ hs, SkipOK h) {ts : Toks} (hwf : WF ts) {a s : Bytes}
    (h : renToks (W hs [] 0 ts) = a ++ s) (ha : a = [] ∨ ∃ a', a = a' ++ [NL]) :
    ∃ ts1 ts2 A, ts = ts1 ++ ts2 ∧ A.map Prod.snd = ts1.map Prod.snd ∧ renToks A = a ∧
      atLineStart (encToks ts1).reverse = true ∧ renToks (W hs (encToks ts1).reverse 0 ts2) = s ∧
      W hs [] 0 ts = A ++ W hs (encToks ts1).reverse 0 ts2 := by
  have hD : ∀ t ∈ W hs [] 0 ts, t.1 = true → t.2 ≠ NL := by
    intro t ht hm
    have := W_escaped_marked ts [] 0 t ht hm
    exact ((hwf _ this).2 rfl).1
  obtain ⟨A, S, h1, h2, h3⟩ := renToks_split _ _ _ hD h ha
  have hlen : A.length ≤ ts.length := by
    have := congrArg List.length (W_snd (hs := hs) ts [] 0)
    simp [h1] at this; omega
  have hts : ts = ts.take A.length ++ ts.drop A.length := by simp
  obtain ⟨a', h4, h5⟩ := W_append (hs := hs) (ts.drop A.length) (ts.take A.length) [] 0
  rw [← hts, h1] at h5
  have hlen' : a'.length = A.length := by
    have := congrArg List.length h4
    simp at this; omega
  obtain ⟨h6, h7⟩ := List.append_inj h5 hlen'.symm
  subst h6
  have hls : atLineStart (encToks (ts.take A.length)).reverse = true := by
    refine atLineStart_newline _ (fun x hx => hwf x (List.mem_of_mem_take hx)) A h4
      (fun t ht => hD t (by rw [h1]; simp [ht])) ?_
    rw [h2]; exact ha
  have hinv := inv_skipAfter hok (ts.drop A.length) (ts.take A.length) [] 0
    (fun x hx => hwf x (List.mem_of_mem_take hx)) (.inl rfl)
  simp only [List.append_nil] at hinv h7
  have hk := hinv.zero_of_lineStart hls
  rw [hk] at h7
  exact ⟨ts.take A.length, ts.drop A.length, A, hts, h4, h2, hls, by rw [← h7]; exact h3, by rw [← h7]; exact h1⟩

/-- Walk over the spaces at the start of the line. -/
theorem space_state : ∀ (line : Bytes) {rev : Bytes} {ts : Toks} {rest : Bytes}, WF ts →
    atLineStart rev = true → renToks (W hs rev 0 ts) = line ++ rest →
    ∃ sp ts', ts = sp ++ ts' ∧ (∀ t ∈ sp, t = (false, SP)) ∧
      atLineStart ((encToks sp).reverse ++ rev) = true ∧
      renToks (W hs ((encToks sp).reverse ++ rev) 0 ts') = Spec.dropSpaces line ++ rest := by
  intro line
  induction line with
  | nil => intro rev ts rest _ h1 h2; exact ⟨[], ts, by simp, by simp, by simpa, by simpa [Spec.dropSpaces] using h2⟩
  | cons b line ih =>
    intro rev ts rest hwf h1 h2
    by_cases hb : b = SP
    · subst hb
      cases ts with
      | nil => simp [W] at h2
      | cons t ts =>
        obtain ⟨m, c⟩ := t
        cases m with
        | true =>
          obtain ⟨k, hk⟩ := W_zero (hs := hs) rev c ts
          rw [hk] at h2
          have hw := hwf.head.2 rfl
          cases hce : (checkElements hs (MARK :: rev) c (encToks ts)).isSome
          · rw [hce] at h2; simp at h2; exact absurd h2.1 hw.2.1
          · rw [hce] at h2; simp at h2
        | false =>
          simp [W] at h2
          obtain ⟨rfl, h2⟩ := h2
          obtain ⟨sp, ts', rfl, g1, g2, g3⟩ := ih (rev := SP :: rev) hwf.tail (by simp [atLineStart_cons, h1]) h2
          refine ⟨(false, SP) :: sp, ts', by simp, by intro t ht; rcases List.mem_cons.1 ht with rfl | ht; rfl; exact g1 _ ht, by simpa using g2, ?_⟩
          have : Spec.dropSpaces (SP :: line) = Spec.dropSpaces line := by simp [Spec.dropSpaces]
          rw [this]; simpa using g3
    · exact ⟨[], ts, by simp, by simp, by simpa, by simpa [Spec.dropSpaces, hb] using h2⟩

/-- Output without backslashes is the same as the input tokens. -/
theorem ren_chars : ∀ (y : Bytes) {z rev k} {ts : Toks}, BS ∉ y → renToks (W hs rev k ts) = y ++ z →
    ∃ ts1 ts2 rev' k', ts = ts1 ++ ts2 ∧ ts1.map Prod.snd = y ∧ renToks (W hs rev' k' ts2) = z := by
  intro y
  induction y with
  | nil => intro z rev k ts _ h; exact ⟨[], ts, rev, k, by simp, by simp, by simpa using h⟩
  | cons b y ih =>
    intro z rev k ts hb h
    simp at hb
    cases ts with
    | nil => simp [W] at h
    | cons t ts =>
      obtain ⟨m, c⟩ := t
      have key : ∀ rev' k', renToks (W hs rev k ((m, c) :: ts)) = c :: renToks (W hs rev' k' ts) →
          ∃ ts1 ts2 rev' k', (m, c) :: ts = ts1 ++ ts2 ∧ ts1.map Prod.snd = b :: y ∧
            renToks (W hs rev' k' ts2) = z := by
        intro rev' k' hk
        rw [hk] at h
        simp at h
        obtain ⟨rfl, h⟩ := h
        obtain ⟨ts1, ts2, rev'', k'', rfl, g1, g2⟩ := ih (by simp [hb.2]) h
        exact ⟨(m, c) :: ts1, ts2, rev'', k'', by simp, by simp [g1], g2⟩
      cases m with
      | false => exact key (c :: rev) (k-1) (by simp [W])
      | true =>
        cases k with
        | zero =>
          cases hce : checkElements hs (MARK :: rev) c (encToks ts) with
          | none => exact key (c :: MARK :: rev) 0 (by simp [W, hce])
          | some n => simp [W, hce] at h; exact absurd h.1 hb.1
        | succ k => exact key (c :: MARK :: rev) (k-1) (by simp [W])

/-- If the output starts with a marked byte that is not a backslash then no handler fired. -/
theorem marked_not_escaped {rev c x} {ts : Toks} (hc : c ≠ BS)
    (h : renToks (W hs rev 0 ((true, c) :: ts)) = c :: x) :
    (∀ g ∈ hs, g (MARK :: rev) c (encToks ts) = none) ∧ renToks (W hs (c :: MARK :: rev) 0 ts) = x := by
  cases hce : checkElements hs (MARK :: rev) c (encToks ts) with
  | none => simp [W, hce] at h; exact ⟨checkElements_none hce, h⟩
  | some n => simp [W, hce] at h; exact absurd h.1.symm hc

/-- The tokens of the output: the first byte tells the first token. -/
theorem ren_head {rev k b x} {ts : Toks} (hb : b ≠ BS) (h : renToks (W hs rev k ts) = b :: x) :
    ∃ m ts', ts = (m, b) :: ts' := by
  obtain ⟨ts1, ts2, rev', k', rfl, h1, -⟩ := ren_chars [b] (by simpa using Ne.symm hb) (by simpa using h)
  cases ts1 with
  | nil => simp at h1
  | cons t ts1 => simp at h1; obtain ⟨rfl, rfl⟩ := h1; exact ⟨t.1, ts2, by simp⟩

theorem ren_nil {rev k} {ts : Toks} (h : renToks (W hs rev k ts) = []) : ts = [] := by
  cases ts with
  | nil => rfl
  | cons t ts =>
    obtain ⟨m, c⟩ := t
    cases m with
    | false => simp [W] at h
    | true =>
      cases k with
      | zero => simp only [W] at h; split at h <;> simp at h
      | succ k => simp [W] at h

end Verif.Escape
