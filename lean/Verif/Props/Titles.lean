import Verif.Proofs.Fenced
/-!
# Properties C24 and C28: link titles, alternative texts
-/

namespace Verif.Props
open Verif Verif.Commonmark Verif.TextUtils

/-- No backslash of the text can be read as an escape. -/
def NoEscapes (t : Bytes) : Prop := ∀ a b, t = a ++ 92 :: b → ∃ c r, b = c :: r ∧ Spec.isPunct c = false

theorem NoEscapes.tail {b : UInt8} {t : Bytes} (h : NoEscapes (b :: t)) : NoEscapes t := by
  intro a c hc
  exact h (b :: a) c (by rw [hc]; rfl)

theorem readQuoted_plain (q : UInt8) (rest : Bytes) :
    ∀ t : Bytes, NoEscapes t → q ∉ t → Spec.readQuoted q (t ++ q :: rest) = some (t, rest) := by
  intro t
  induction t with
  | nil => intro _ _; cases rest <;> simp [Spec.readQuoted]
  | cons b t ih =>
    intro hn hqt
    simp at hqt
    have ih := ih hn.tail hqt.2
    obtain ⟨c, r, hcr⟩ : ∃ c r, t ++ q :: rest = c :: r := by cases t <;> simp
    rw [List.cons_append, hcr, Spec.readQuoted, if_neg (Ne.symm hqt.1)]
    have : (b == 92 && Spec.isPunct c) = false := by
      by_cases hb : b = 92
      · subst hb
        obtain ⟨c', r', h1, h2⟩ := hn [] t rfl
        subst h1
        simp at hcr
        rw [← hcr.1, h2]; rfl
      · simp [hb]
    rw [this, ← hcr, ih]; rfl

theorem readQuoted_escaped (rest : Bytes) :
    ∀ t : Bytes, NoEscapes t →
      Spec.readQuoted 34 ((t.flatMap fun b => if b = 34 then [92, 34] else [b]) ++ 34 :: rest) = some (t, rest) := by
  intro t
  induction t with
  | nil => intro _; cases rest <;> simp [Spec.readQuoted]
  | cons b t ih =>
    intro hn
    have ih := ih hn.tail
    rw [List.flatMap_cons]
    by_cases hb : b = 34
    · rw [if_pos hb]
      have e : ∀ X : Bytes, [92, 34] ++ X ++ 34 :: rest = 92 :: 34 :: (X ++ 34 :: rest) := by intro X; simp
      rw [e, Spec.readQuoted, if_neg (by decide), if_pos (by decide), ih, hb]; rfl
    · rw [if_neg hb]
      obtain ⟨c, r, hcr⟩ : ∃ c r, (t.flatMap fun b => if b = 34 then [92, 34] else [b]) ++ 34 :: rest = c :: r := by
        cases h : (t.flatMap fun b => if b = 34 then [92, 34] else [b]) with
        | nil => exact ⟨34, rest, rfl⟩
        | cons x xs => exact ⟨x, xs ++ 34 :: rest, rfl⟩
      rw [List.append_assoc, hcr, List.singleton_append, Spec.readQuoted, if_neg hb]
      have : (b == 92 && Spec.isPunct c) = false := by
        by_cases hb : b = 92
        · subst hb
          obtain ⟨c', r', h1, h2⟩ := hn [] t rfl
          subst h1
          rw [List.flatMap_cons] at hcr
          have hc34 : c' ≠ 34 := by rintro rfl; exact absurd h2 (by decide)
          rw [if_neg hc34] at hcr
          simp at hcr
          rw [← hcr.1, h2]; rfl
        · simp [hb]
      rw [this, ← hcr, ih]; rfl

/-! ## C24 -/

/-- **C24** (partial).  A CommonMark parser reads the title that is written for `title` as `title`.
Missing: titles in which a backslash stands in front of ASCII punctuation or at the end; the code
does not escape backslashes, see `c24_counterexample_end` and `c24_counterexample_punct`.  (Entities, which
a parser decodes in titles, are not part of the reader.) -/
theorem c24_title_partial (title rest : Bytes) (ht : title ≠ []) (hn : NoEscapes title) :
    ∃ s, titlePart title = 32 :: s ∧ Spec.readTitle (s ++ rest) = some (title, rest) := by
  refine ⟨surroundByQuotes title, by rw [titlePart, if_pos ht], ?_⟩
  have hl : title.length ≠ 0 := by simpa using ht
  rw [surroundByQuotes, if_neg hl]
  by_cases h2 : title.contains 34 = true <;> by_cases h1 : title.contains 39 = true
  · rw [if_pos (by rw [h1, h2]; rfl), surroundBy, replaceAll_one]
    have := readQuoted_escaped rest title hn
    simpa [Spec.readTitle] using this
  · rw [if_neg (by rw [Bool.and_eq_true]; exact fun h => h1 h.2), if_pos h2, surroundBy]
    have := readQuoted_plain 39 rest title hn (by simpa using h1)
    simpa [Spec.readTitle] using this
  · rw [if_neg (by rw [Bool.and_eq_true]; exact fun h => h2 h.1), if_neg h2, surroundBy]
    have := readQuoted_plain 34 rest title hn (by simpa using h2)
    simpa [Spec.readTitle] using this
  · rw [if_neg (by rw [Bool.and_eq_true]; exact fun h => h2 h.1), if_neg h2, surroundBy]
    have := readQuoted_plain 34 rest title hn (by simpa using h2)
    simpa [Spec.readTitle] using this

example : titlePart b!"a \"b\" 'c' \\d" = b!" \"a \\\"b\\\" 'c' \\d\"" := by decide
example : Spec.readTitle b!"\"a \\\"b\\\" 'c' \\d\")" = some (b!"a \"b\" 'c' \\d", b!")") := by decide

/-- The full C24 fails: a backslash at the end of the title escapes the closing quote. -/
theorem c24_counterexample_end : Spec.readTitle ((titlePart b!"a\\").drop 1 ++ b!")") = none := by decide

/-- The full C24 fails: a backslash in front of punctuation is lost. -/
theorem c24_counterexample_punct : Spec.readTitle ((titlePart b!"\\*").drop 1 ++ b!")") = some (b!"*", b!")") := by
  decide

/-! ## C28 -/

/-- **C28.** Every square bracket in the alternative text is directly preceded by a backslash. -/
theorem c28_bracket_after_backslash (alt a b : Bytes) (c : UInt8) (hc : c = 91 ∨ c = 93)
    (h : escapeAlt alt = a ++ c :: b) : a.getLast? = some 92 := by
  have main : ∀ (alt : Bytes) (prev : Option UInt8) (a b : Bytes), escapeAltGo prev alt = a ++ c :: b →
      a.getLast? = some 92 ∨ (a = [] ∧ prev = some 92) := by
    intro alt
    induction alt with
    | nil => intro prev a b h; simp [escapeAltGo] at h
    | cons x alt ih =>
      intro prev a b h
      rw [escapeAltGo] at h
      split at h
      · rename_i hx
        cases a with
        | nil =>
          simp at h; rw [← h.1] at hc; exact absurd hc (by decide)
        | cons y a =>
          rw [List.cons_append, List.cons.injEq] at h
          obtain ⟨rfl, h⟩ := h
          cases a with
          | nil => left; rfl
          | cons z a =>
            rw [List.cons_append, List.cons.injEq] at h
            obtain ⟨rfl, h⟩ := h
            left
            rcases ih _ _ _ h with h' | ⟨-, h'⟩
            · rw [List.getLast?_cons, List.getLast?_cons, h']; rfl
            · exfalso; simp at h'; subst h'; rcases hx.1 with h | h <;> exact absurd h (by decide)
      · rename_i hx
        cases a with
        | nil =>
          rw [List.nil_append, List.cons.injEq] at h
          obtain ⟨rfl, h⟩ := h
          right
          refine ⟨rfl, ?_⟩
          exact Classical.byContradiction fun hp => hx ⟨hc, hp⟩
        | cons y a =>
          rw [List.cons_append, List.cons.injEq] at h
          obtain ⟨rfl, h⟩ := h
          left
          rcases ih _ _ _ h with h' | ⟨rfl, h'⟩
          · rw [List.getLast?_cons, h']; rfl
          · simp at h'; subst h'; rfl
  rcases main alt none a b h with h | ⟨-, h⟩
  · exact h
  · simp at h

/-- **C28**, as a parser sees it (partial): every square bracket in the alternative text is read as an
escaped one, so that it can not close the bracket of the image.  Missing: texts with two backslashes in
a row, see `c28_counterexample`. -/
theorem c28_brackets_escaped_partial (alt : Bytes) (h : ¬ [92, 92] <:+: alt) :
    ∀ p ∈ Spec.readEscapes (escapeAlt alt), p.2 = 91 ∨ p.2 = 93 → p.1 = true := by
  -- `prev ≠ some 92` at a point where the reader starts a new character
  have main : ∀ (n : Nat) (alt : Bytes) (prev : Option UInt8), alt.length ≤ n → prev ≠ some 92 →
      ¬ [92, 92] <:+: alt →
      ∀ p ∈ Spec.readEscapes (escapeAltGo prev alt), p.2 = 91 ∨ p.2 = 93 → p.1 = true := by
    intro n
    induction n with
    | zero =>
      intro alt prev hl _ _ p hp
      have : alt = [] := List.length_eq_zero_iff.1 (by omega)
      subst this; simp [escapeAltGo, Spec.readEscapes] at hp
    | succ n ih =>
      intro alt prev hl hprev hno p hp
      cases alt with
      | nil => simp [escapeAltGo, Spec.readEscapes] at hp
      | cons x alt =>
        simp at hl
        have hno' : ¬ [92, 92] <:+: alt := fun hi => hno (hi.trans (List.suffix_cons x alt).isInfix)
        rw [escapeAltGo] at hp
        by_cases hx : (x = 91 ∨ x = 93) ∧ prev ≠ some 92
        · rw [if_pos hx, Spec.readEscapes, if_pos (by rcases hx.1 with rfl | rfl <;> decide)] at hp
          rcases List.mem_cons.1 hp with rfl | hp
          · intro _; rfl
          · exact ih alt (some x) hl (by rcases hx.1 with rfl | rfl <;> decide) hno' p hp
        · rw [if_neg hx] at hp
          have hx' : ¬ (x = 91 ∨ x = 93) := fun h' => hx ⟨h', hprev⟩
          by_cases h92 : x = 92
          · subst h92
            cases alt with
            | nil =>
              simp [escapeAltGo, Spec.readEscapes] at hp
              subst hp; intro h'; revert h'; decide
            | cons y alt =>
              have hy : y ≠ 92 := by
                rintro rfl; exact hno ⟨[], alt, rfl⟩
              rw [escapeAltGo, if_neg (by simp)] at hp
              rw [Spec.readEscapes] at hp
              by_cases hyp : Spec.isPunct y = true
              · rw [if_pos (by simp [hyp])] at hp
                rcases List.mem_cons.1 hp with rfl | hp
                · intro _; rfl
                · refine ih alt (some y) (by simp at hl; omega) (by simpa using hy) ?_ p hp
                  exact fun hi => hno' (hi.trans (List.suffix_cons y alt).isInfix)
              · rw [if_neg (by simp [hyp])] at hp
                rcases List.mem_cons.1 hp with rfl | hp
                · intro h'; revert h'; decide
                · have e : y :: escapeAltGo (some y) alt = escapeAltGo none (y :: alt) := by
                    rw [escapeAltGo, if_neg]
                    rintro ⟨h' | h', -⟩ <;> subst h' <;> exact hyp (by decide)
                  rw [e] at hp
                  exact ih (y :: alt) none (by simpa using hl) (by simp) hno' p hp
          · have step : ∀ rest : Bytes, Spec.readEscapes (x :: rest) = (false, x) :: Spec.readEscapes rest := by
              intro rest
              cases rest with
              | nil => rfl
              | cons c rest => rw [Spec.readEscapes, if_neg (by simp [h92])]
            rw [step] at hp
            rcases List.mem_cons.1 hp with rfl | hp
            · intro h'; exact absurd h' hx'
            · exact ih alt (some x) hl (by simpa using h92) hno' p hp
  exact main _ alt none (Nat.le_refl _) (by simp) h

/-- **C28**, the text (partial): a parser reads the alternative text back, if it has no backslashes. -/
theorem c28_reads_back_partial (alt : Bytes) (h : 92 ∉ alt) :
    (Spec.readEscapes (escapeAlt alt)).map Prod.snd = alt := by
  have main : ∀ (alt : Bytes) (prev : Option UInt8), prev ≠ some 92 → 92 ∉ alt →
      (Spec.readEscapes (escapeAltGo prev alt)).map Prod.snd = alt := by
    intro alt
    induction alt with
    | nil => intro _ _ _; rfl
    | cons x alt ih =>
      intro prev hp h
      simp at h
      rw [escapeAltGo]
      have ih := ih (some x) (by simpa using Ne.symm h.1) h.2
      split
      · rename_i hx
        rw [Spec.readEscapes, if_pos (by rcases hx.1 with rfl | rfl <;> decide)]
        simp [ih]
      · have step : ∀ rest : Bytes, Spec.readEscapes (x :: rest) = (false, x) :: Spec.readEscapes rest := by
          intro rest
          cases rest with
          | nil => rfl
          | cons c rest => rw [Spec.readEscapes, if_neg (by simp [Ne.symm h.1])]
        rw [step]; simp [ih]
  exact main alt none (by simp) h

example : escapeAlt b!"a [b] \\] c" = b!"a \\[b\\] \\] c" := by decide

/-- The full C28 fails: in the alternative text `\\]` the bracket is not escaped. -/
theorem c28_counterexample : (false, 93) ∈ Spec.readEscapes (escapeAlt b!"a\\\\]") := by decide

end Verif.Props
