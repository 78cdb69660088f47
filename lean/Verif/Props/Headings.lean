import Verif.Props.Newlines
import Verif.Props.Escape
/-!
# Properties C29-C30: headings
-/

set_option linter.unusedSimpArgs false

namespace Verif.Props
open Verif Verif.Commonmark Verif.TextUtils

/-- Line feeds and carriage returns are shown as spaces. -/
def onOneLine (content : Bytes) : Bytes := content.map fun b => if b = 10 ∨ b = 13 then 32 else b

theorem atxContent_eq (content : Bytes) : atxContent content = trimSpace (Spec.squeeze (onOneLine content)) := by
  simp only [atxContent, squeeze_eq, replaceAll_one_map, List.map_map, onOneLine]
  congr 3
  funext b
  by_cases h : b = 10
  · subst h; rfl
  · simp [h]

/-- What a pound sign at the end looks like after the escaping of the renderer. -/
theorem escapePound_spec (s : Bytes) (hne : s ≠ []) :
    (s.getLast? ≠ some 35 ∧ escapePoundSignAtEnd s = some s) ∨
    (∃ x d, s = x ++ [d, 35] ∧ escapePoundSignAtEnd s = some (x ++ [92, 35]) ∧ x.getLast? ≠ some 92) ∨
    (∃ x d, s = x ++ [92, d, 35] ∧ escapePoundSignAtEnd s = some s) ∨
    (s = [35] ∧ escapePoundSignAtEnd s = none) := by
  obtain ⟨rev, rfl⟩ : ∃ rev, s = rev.reverse := ⟨s.reverse, by simp⟩
  rw [escapePoundSignAtEnd, List.reverse_reverse]
  cases rev with
  | nil => simp at hne
  | cons c rev =>
    simp only
    by_cases hc : c = 35
    · subst hc
      rw [if_neg (by simp)]
      cases rev with
      | nil => right; right; right; exact ⟨rfl, rfl⟩
      | cons d rev =>
        cases rev with
        | nil => right; left; exact ⟨[], d, rfl, rfl, by simp⟩
        | cons b rev =>
          simp only
          by_cases hb : b = 92
          · subst hb
            rw [if_pos rfl]
            right; right; left
            exact ⟨rev.reverse, d, by simp, rfl⟩
          · rw [if_neg hb]
            right; left
            exact ⟨rev.reverse ++ [b], d, by simp, by simp, by simpa using hb⟩
    · rw [if_pos hc]
      left; exact ⟨by simpa using hc, rfl⟩

/-- A line whose last two bytes are `\#`, or whose last byte is no `#`, has no closing sequence. -/
theorem dropClosing_id {s : Bytes} (hb : s.getLast? ≠ some 32 ∧ s.getLast? ≠ some 9)
    (h : (∃ x, s = x ++ [92, 35]) ∨ s.getLast? ≠ some 35) : Spec.dropClosing s = s := by
  rcases h with ⟨x, rfl⟩ | h
  · simp [Spec.dropClosing, List.dropWhile_cons]
  · rcases List.eq_nil_or_concat s with rfl | ⟨t, d, rfl⟩
    · rfl
    · rw [List.concat_eq_append] at *
      simp at h hb
      simp [Spec.dropClosing, List.dropWhile_cons, h, hb]

theorem trimBlank_tail {v : Bytes} {d e : UInt8} {w : Bytes} (hd : d ≠ 32 ∧ d ≠ 9) (he : e ≠ 32 ∧ e ≠ 9) (hv : v = d :: w)
    (hv' : ∃ w', v = w' ++ [e]) (t : Bytes) : ∃ t', t' <:+ t ∧ Spec.trimBlank (t ++ v) = t' ++ v := by
  have key : ∃ t', t' <:+ t ∧ ((t ++ v).dropWhile fun b => b == 32 || b == 9) = t' ++ v := by
    induction t with
    | nil => exact ⟨[], List.suffix_refl _, by rw [hv]; simp [List.dropWhile_cons, hd]⟩
    | cons x t ih =>
      rw [List.cons_append, List.dropWhile_cons]
      split
      · obtain ⟨t', h1, h2⟩ := ih
        exact ⟨t', h1.trans (List.suffix_cons _ _), h2⟩
      · exact ⟨x :: t, List.suffix_refl _, rfl⟩
  obtain ⟨t', h1, h2⟩ := key
  refine ⟨t', h1, ?_⟩
  obtain ⟨w', rfl⟩ := hv'
  rw [Spec.trimBlank, h2]
  simp [List.dropWhile_cons, he]

/-- How a parser reads a line `#... rest`, when `rest` does not end with blanks or a closing sequence. -/
theorem readAtx_line {n : Nat} (h1 : 1 ≤ n) (h6 : n ≤ 6) {t : Bytes}
    (h : (∃ x, t = x ++ [92, 35]) ∨ ∃ x e, t = x ++ [e] ∧ e ≠ 32 ∧ e ≠ 9 ∧ e ≠ 35) :
    Spec.readAtx (List.replicate n 35 ++ 32 :: t) = some (n, Spec.trimBlank t) := by
  obtain ⟨m, rfl⟩ : ∃ m, n = m + 1 := ⟨n - 1, by omega⟩
  have hd : Spec.dropIndent3 (List.replicate (m+1) 35 ++ 32 :: t) = List.replicate (m+1) 35 ++ 32 :: t := by
    apply dropIndent3_id; simp [List.replicate_succ]
  obtain ⟨e1, e2⟩ := takeWhile_rep (c := 35) (m+1) (s := 32 :: t) (by simp)
  simp only [Spec.readAtx]
  rw [hd, e1, e2, if_pos ⟨by simp, by simpa using h6, by simp [Spec.endOrBlank]⟩]
  have etb : Spec.trimBlank (32 :: t) = Spec.trimBlank t := by simp [Spec.trimBlank, List.dropWhile_cons]
  rw [etb, List.length_replicate]
  congr 2
  rcases h with ⟨x, rfl⟩ | ⟨x, e, rfl, h32, h9, h35⟩
  · obtain ⟨t', -, e⟩ := trimBlank_tail (v := [92, 35]) (d := 92) (e := 35) (by decide) (by decide) rfl ⟨[92], rfl⟩ x
    rw [e]
    exact dropClosing_id (by simp) (Or.inl ⟨t', rfl⟩)
  · obtain ⟨t', -, e'⟩ := trimBlank_tail (v := [e]) ⟨h32, h9⟩ ⟨h32, h9⟩ rfl ⟨[], rfl⟩ x
    rw [e']
    exact dropClosing_id (by simp [h32, h9]) (Or.inr (by simpa using h35))

theorem squeezeAfter_prefix {w : Bytes} (hw : 32 ∉ w) : ∀ s : Bytes, w <+: Spec.squeeze.squeezeAfter false s → w <+: s := by
  induction w with
  | nil => intro s _; exact List.nil_prefix
  | cons b w ih =>
    intro s h
    simp at hw
    cases s with
    | nil => simp [Spec.squeeze.squeezeAfter] at h
    | cons c s =>
      rw [Spec.squeeze.squeezeAfter, if_neg (by simp)] at h
      rw [List.cons_prefix_cons] at h
      obtain ⟨rfl, h⟩ := h
      rw [List.cons_prefix_cons]
      have : (b == 32) = false := by simpa using Ne.symm hw.1
      rw [this] at h
      exact ⟨rfl, ih hw.2 s h⟩

theorem squeeze_infix {w : Bytes} (hw : 32 ∉ w) (s : Bytes) (h : w <:+: Spec.squeeze s) : w <:+: s := by
  have main : ∀ (s : Bytes) (p : Bool), w <:+: Spec.squeeze.squeezeAfter p s → w <:+: s := by
    intro s
    induction s with
    | nil => intro p h; exact h
    | cons c s ih =>
      intro p h
      rw [Spec.squeeze.squeezeAfter] at h
      split at h
      · exact (ih _ h).trans (List.suffix_cons _ _).isInfix
      · rw [List.infix_cons_iff] at h
        rcases h with h | h
        · cases w with
          | nil => exact List.nil_infix
          | cons b w =>
            rw [List.cons_prefix_cons] at h
            obtain ⟨rfl, h⟩ := h
            simp at hw
            have : (b == 32) = false := by simpa using Ne.symm hw.1
            rw [this] at h
            exact (List.cons_prefix_cons.2 ⟨rfl, squeezeAfter_prefix hw.2 s h⟩).isInfix
        · exact (ih _ h).trans (List.suffix_cons _ _).isInfix
  rw [← squeeze_eq, dropDoubleSpaces_eq] at h
  exact main s _ h

theorem map_infix {f : UInt8 → UInt8} {w : Bytes} (hw : ∀ b ∈ w, ∀ c, f c = b → c = b) (s : Bytes)
    (h : w <:+: s.map f) : w <:+: s := by
  obtain ⟨a, b, hab⟩ := h
  have h2 := hab.symm
  rw [List.map_eq_append_iff] at h2
  obtain ⟨p, q, rfl, hp, hq⟩ := h2
  rw [List.map_eq_append_iff] at hp
  obtain ⟨p1, p2, rfl, hp1, hp2⟩ := hp
  have : p2 = w := by
    clear hab hq hp1
    induction p2 generalizing w with
    | nil => simpa using hp2
    | cons x p2 ih =>
      cases w with
      | nil => simp at hp2
      | cons y w =>
        simp only [List.map_cons, List.cons.injEq] at hp2
        rw [hw y (by simp) x hp2.1, ih (fun b hb => hw b (by simp [hb])) hp2.2]
  rw [← this]
  exact ⟨p1, q, rfl⟩

/-- The content of an ATX heading is one line. -/
theorem atx_no_newline (content : Bytes) : 10 ∉ atxContent content ∧ 13 ∉ atxContent content := by
  rw [atxContent_eq]
  have hmem : ∀ b ∈ trimSpace (Spec.squeeze (onOneLine content)), b ∈ onOneLine content := by
    intro b hb
    obtain ⟨l, r, -, -, e, -, -⟩ := trimSpace_spec (Spec.squeeze (onOneLine content))
    apply squeeze_mem
    rw [e]; simp [hb]
  have hno : ∀ b ∈ onOneLine content, b ≠ 10 ∧ b ≠ 13 := by
    intro b hb
    rw [onOneLine, List.mem_map] at hb
    obtain ⟨x, -, rfl⟩ := hb
    by_cases h : x = 10 ∨ x = 13
    · rw [if_pos h]; decide
    · rw [if_neg h]; exact not_or.1 h
  exact ⟨fun h => (hno _ (hmem _ h)).1 rfl, fun h => (hno _ (hmem _ h)).2 rfl⟩

theorem squeezeAfter_word {w : Bytes} (hw : 32 ∉ w) : ∀ (s Y : Bytes), Spec.squeeze.squeezeAfter false s = w ++ Y →
    ∃ s', s = w ++ s' ∧ Y = Spec.squeeze.squeezeAfter false s' := by
  induction w with
  | nil => intro s Y h; exact ⟨s, rfl, h.symm⟩
  | cons b w ih =>
    intro s Y h
    simp at hw
    cases s with
    | nil => simp [Spec.squeeze.squeezeAfter] at h
    | cons c s =>
      rw [Spec.squeeze.squeezeAfter, if_neg (by simp), List.cons_append, List.cons.injEq] at h
      obtain ⟨rfl, h⟩ := h
      have : (c == 32) = false := by simpa using Ne.symm hw.1
      rw [this] at h
      obtain ⟨s', rfl, hY⟩ := ih hw.2 s Y h
      exact ⟨s', rfl, hY⟩

theorem ws_of_squeeze : ∀ (n : Nat) (s : Bytes) (p : Bool), s.length ≤ n →
    Spec.AllWhitespace (Spec.squeeze.squeezeAfter p s) → Spec.AllWhitespace s := by
  intro n
  induction n with
  | zero =>
    intro s p hl _
    rw [List.length_eq_zero_iff.1 (Nat.le_zero.1 hl)]; exact Spec.AllWhitespace.nil
  | succ n ih =>
    intro s p hl h
    cases s with
    | nil => exact Spec.AllWhitespace.nil
    | cons c s =>
      simp at hl
      by_cases hc : c = 32
      · subst hc
        have : Spec.AllWhitespace s := by
          apply ih s true hl
          cases p with
          | true => simpa [Spec.squeeze.squeezeAfter] using h
          | false =>
            rw [Spec.squeeze.squeezeAfter, if_neg (by simp)] at h
            obtain ⟨ws, hws, hf⟩ := h
            cases ws with
            | nil => simp at hf
            | cons w ws =>
              have ht : ∀ w ∈ Spec.whitespace, w.head? = some 32 → w = [32] := by decide
              have hne : ∀ w ∈ Spec.whitespace, w ≠ [] := by decide
              have hw := hws w (by simp)
              have : w.head? = some 32 := by
                cases w with
                | nil => exact absurd rfl (hne _ hw)
                | cons x w => simp at hf; simp [hf.1]
              rw [ht w hw this] at hf
              simp at hf
              exact ⟨ws, fun x hx => hws x (by simp [hx]), hf⟩
        exact (Spec.AllWhitespace.word (w := [32]) (by decide)).append this
      · have e : Spec.squeeze.squeezeAfter p (c :: s) = Spec.squeeze.squeezeAfter false (c :: s) := by
          simp [Spec.squeeze.squeezeAfter, hc]
        rw [e] at h
        obtain ⟨ws, hws, hf⟩ := h
        cases ws with
        | nil => simp [Spec.squeeze.squeezeAfter] at hf
        | cons w ws =>
          have ht : ∀ w ∈ Spec.whitespace, w.head? ≠ some 32 → 32 ∉ w := by decide
          have hne : ∀ w ∈ Spec.whitespace, w ≠ [] := by decide
          have hw := hws w (by simp)
          rw [List.flatten_cons] at hf
          have hh : w.head? ≠ some 32 := by
            cases w with
            | nil => exact absurd rfl (hne _ hw)
            | cons x w =>
              rw [Spec.squeeze.squeezeAfter, if_neg (by simp), List.cons_append, List.cons.injEq] at hf
              simpa [hf.1] using hc
          obtain ⟨s', e1, e2⟩ := squeezeAfter_word (ht w hw hh) (c :: s) _ hf.symm
          rw [e1]
          refine (Spec.AllWhitespace.word hw).append (ih s' false ?_ ?_)
          · have h1 := congrArg List.length e1
            have h2 : w.length ≠ 0 := by simpa using hne w hw
            simp at h1; omega
          · exact ⟨ws, fun x hx => hws x (by simp [hx]), e2⟩

theorem atx_nonempty {content : Bytes} (hb : ¬ Spec.AllWhitespace content) : atxContent content ≠ [] := by
  intro h
  apply hb
  rw [atxContent_eq, trimSpace_nil_iff] at h
  have h1 : Spec.AllWhitespace (onOneLine content) := by
    rw [← squeeze_eq, dropDoubleSpaces_eq] at h
    exact ws_of_squeeze _ _ _ (Nat.le_refl _) h
  refine Spec.AllWhitespace.of_map ?_ h1
  intro b
  by_cases h : b = 10 ∨ b = 13
  · right; rcases h with rfl | rfl <;> exact ⟨rfl, by decide⟩
  · left; rw [if_neg h]

/-! ## C29 -/

/-- **C29**, the level: the elements `h1` to `h6` are headings of the levels 1 to 6. -/
theorem c29_level (n : Fin 6) : headingLevel [104, 49 + UInt8.ofNat n.val] = n.val + 1 := by
  revert n; decide

/-- **C29** (partial).  An ATX heading is one line with `level` pound signs, a space and the content, and CommonMark
reads it as a heading of this level with all of the content, even if that ends with a pound sign.

The hypotheses hold for every document in smart escape mode: a pound sign of a text is preceded by the marker, and markers are followed by the character they mark.
Missing: EscapeModeDisabled (`c30_counterexample_panic`, `c30_counterexample_lost`) and code blocks in
headings (`c29_counterexample_code`). -/
theorem c29_atx_partial (hs : List Escape.Handler) (level : Nat) (h1 : 1 ≤ level) (h6 : level ≤ 6) (content : Bytes)
    (hb : ¬ Spec.AllWhitespace content) :
    ∃ mid, Spec.Trimmed (Spec.squeeze (onOneLine content)) mid ∧ mid ≠ [] ∧ 10 ∉ mid ∧ 13 ∉ mid ∧
      (mid.getLast? ≠ some 7 → (mid.getLast? = some 35 → ∃ x, mid = x ++ [7, 35]) →
      ∃ line, heading false level content = some (b!"\n\n" ++ (List.replicate level 35 ++ 32 :: line) ++ b!"\n\n") ∧
        (line = mid ∨ ∃ x, mid = x ++ [7, 35] ∧ line = x ++ [92, 35]) ∧
        10 ∉ line ∧ 13 ∉ line ∧ (¬ codeNewline <:+: content → ¬ codeNewline <:+: line) ∧
        ∃ text, Escape.unEscapeContent .smart hs (List.replicate level 35 ++ 32 :: line) = List.replicate level 35 ++ 32 :: text ∧
          Spec.readAtx (List.replicate level 35 ++ 32 :: text) = some (level, Spec.trimBlank text)) := by
  have hne := atx_nonempty hb
  obtain ⟨hn10, hn13⟩ := atx_no_newline content
  have hT := trimSpace_spec (Spec.squeeze (onOneLine content))
  rw [← atxContent_eq] at hT
  refine ⟨atxContent content, hT, hne, hn10, hn13, ?_⟩
  have hcode : ¬ codeNewline <:+: content → ¬ codeNewline <:+: atxContent content := by
    intro h hi
    apply h
    obtain ⟨l, r, -, -, e, -, -⟩ := hT
    have h2 : codeNewline <:+: Spec.squeeze (onOneLine content) := hi.trans ⟨l, r, e.symm⟩
    have h3 := squeeze_infix (by decide) _ h2
    refine map_infix ?_ _ h3
    intro b hb c hc
    by_cases h : c = 10 ∨ c = 13
    · rw [if_pos h] at hc; subst hc; exact absurd hb (by decide)
    · rw [if_neg h] at hc; exact hc
  obtain ⟨_, _, _, _, _, _, hnt⟩ := hT
  intro h7 h35
  have hlen : ¬ (trimSpace content).length = 0 := fun h => hb ((trimSpace_nil_iff _).1 (List.length_eq_zero_iff.1 h))
  have hhead : heading false level content = (escapePoundSignAtEnd (atxContent content)).map fun c =>
      b!"\n\n" ++ List.replicate level 35 ++ [32] ++ c ++ b!"\n\n" := by
    rw [heading, if_neg hlen]; rfl
  -- un-escaping a line
  have hun : ∀ line : Bytes, ∃ chs, Escape.unEscapeContent .smart hs (List.replicate level 35 ++ 32 :: line) =
      List.replicate level 35 ++ 32 :: Escape.applyChanges chs line := by
    intro line
    have e : List.replicate level 35 ++ 32 :: line = (List.replicate level 35 ++ [32]) ++ line := by simp
    rw [e, Escape.unEscapeContent, applyChanges_append, applyChanges_nomark]
    · exact ⟨_, by rw [List.append_assoc]; rfl⟩
    · simp [List.mem_replicate]
  have fin : ∀ line : Bytes, ((∃ x, line = x ++ [92, 35]) ∨ (∃ x, line = x ++ [92, 7, 35]) ∨
        ∃ x e, line = x ++ [e] ∧ e ≠ 32 ∧ e ≠ 9 ∧ e ≠ 35 ∧ e ≠ 7) →
      ∃ text, Escape.unEscapeContent .smart hs (List.replicate level 35 ++ 32 :: line) = List.replicate level 35 ++ 32 :: text ∧
          Spec.readAtx (List.replicate level 35 ++ 32 :: text) = some (level, Spec.trimBlank text) := by
    intro line h
    obtain ⟨chs, hchs⟩ := hun line
    refine ⟨_, hchs, readAtx_line h1 h6 ?_⟩
    have h7' := c02_no_marker hs (List.replicate level 35 ++ 32 :: line)
    rw [hchs] at h7'
    rcases h with ⟨x, rfl⟩ | ⟨x, rfl⟩ | ⟨x, e, rfl, e1, e2, e3, e4⟩
    · left
      rw [applyChanges_append, applyChanges_nomark [92, 35] _ (by decide)]
      exact ⟨_, rfl⟩
    · left
      rw [applyChanges_append] at h7' ⊢
      generalize chs.drop x.length = cs at *
      have e : [92, 7, 35] = [92] ++ ([7, 35] : Bytes) := rfl
      rw [e, applyChanges_append, applyChanges_nomark [92] _ (by decide)] at h7' ⊢
      generalize List.drop _ cs = cs' at *
      cases cs' with
      | nil => simp [Escape.applyChanges] at h7'
      | cons a cs' =>
        have e2 : Escape.applyChanges (a :: cs') [7, 35] = (if a then [92] else []) ++ [35] := by
          rw [Escape.applyChanges, if_neg (by simp), applyChanges_nomark [35] _ (by decide)]
          cases a <;> rfl
        rw [e2]
        cases a
        · exact ⟨Escape.applyChanges chs x, by simp⟩
        · exact ⟨Escape.applyChanges chs x ++ [92], by simp⟩
    · right
      rw [applyChanges_append, applyChanges_nomark [e] _ (by simpa using Ne.symm e4)]
      exact ⟨_, e, rfl, e1, e2, e3⟩
  rcases escapePound_spec (atxContent content) hne with ⟨hl, he⟩ | ⟨x, d, hx, he, hxl⟩ | ⟨x, d, hx, he⟩ | ⟨hx, he⟩
  · refine ⟨atxContent content, by rw [hhead, he]; simp, Or.inl rfl, hn10, hn13, hcode, fin _ (Or.inr (Or.inr ?_))⟩
    rcases List.eq_nil_or_concat (atxContent content) with h | ⟨t, e, h⟩
    · exact absurd h hne
    · rw [List.concat_eq_append] at h
      rw [h] at hl h7 hnt
      simp at hl h7
      refine ⟨t, e, h, ?_, ?_, hl, h7⟩
      · rintro rfl; exact hnt [32] (by decide) (List.suffix_append _ _)
      · rintro rfl; exact hnt [9] (by decide) (List.suffix_append _ _)
  · obtain ⟨x', hx'⟩ := h35 (by rw [hx]; simp)
    have heq := hx.symm.trans hx'
    have hxx := List.append_inj' heq rfl
    refine ⟨x ++ [92, 35], by rw [hhead, he]; simp, Or.inr ⟨x, ?_, rfl⟩, ?_, ?_, ?_, fin _ (Or.inl ⟨x, rfl⟩)⟩
    · rw [hx', hxx.1]
    · rw [hx] at hn10; simp at hn10 ⊢; exact hn10.1
    · rw [hx] at hn13; simp at hn13 ⊢; exact hn13.1
    · intro h hi
      apply hcode h
      rw [hx]
      obtain ⟨a, b, hab⟩ := hi
      rw [List.append_assoc, List.append_eq_append_iff] at hab
      rcases hab with ⟨t, h1, h2⟩ | ⟨t, h1, h2⟩
      · -- the marker ends inside of `x`
        rcases List.append_eq_append_iff.1 h2 with ⟨u, h3, h4⟩ | ⟨u, h3, h4⟩
        · rw [h1, h3]
          exact ⟨a, u ++ [d, 35], by simp⟩
        · cases u with
          | nil =>
            rw [List.append_nil] at h3
            rw [h1, ← h3]
            exact ⟨a, [d, 35], by simp⟩
          | cons y u =>
            simp at h4
            exfalso
            have hy : y ∈ codeNewline := by rw [h3]; simp
            rw [← h4.1] at hy
            exact absurd hy (by decide)
      · exfalso
        -- the marker begins with 239, which is not in `[92, 35]`
        have : (239 : UInt8) ∈ [92, 35] := by
          rw [h2]; simp [codeNewline]
        exact absurd this (by decide)
  · obtain ⟨x', hx'⟩ := h35 (by rw [hx]; simp)
    refine ⟨atxContent content, by rw [hhead, he]; simp, Or.inl rfl, hn10, hn13, hcode, fin _ (Or.inr (Or.inl ⟨x, ?_⟩))⟩
    have heq := hx.symm.trans hx'
    have e : x ++ [92, d, 35] = (x ++ [92]) ++ [d, 35] := by simp
    rw [e] at heq
    have hxx := List.append_inj' heq rfl
    simp at hxx
    rw [hx, hxx.2]
  · obtain ⟨x', hx'⟩ := h35 (by rw [hx]; simp)
    rw [hx] at hx'
    have := congrArg List.length hx'
    simp at this

example : heading false 2 [67, 7, 35, 10, 32, 97, 7, 35] = some (b!"\n\n## C" ++ [7] ++ b!"# a\\#\n\n") := by decide

/-- The full C29 fails: a code block in a heading makes it two lines. -/
theorem c29_counterexample_code : (heading false 1 (blockCode 96 [] b!"a\nb")).map
    (postRender .smart (Escape.commonmarkHandlers fun _ => false)) = some b!"# ``` a\nb ```" := by decide

/-! ## C30 -/

/-- **C30**, exactly when a heading panics (partial: it can): in ATX style, if the content is a single pound sign
without marker. -/
theorem c30_panics_iff_partial (setext : Bool) (level : Nat) (content : Bytes) :
    heading setext level content = none ↔
      (¬ Spec.AllWhitespace content ∧ (setext = false ∨ 3 ≤ level) ∧ atxContent content = [35]) := by
  by_cases hb : Spec.AllWhitespace content
  · have : (trimSpace content).length = 0 := by rw [(trimSpace_nil_iff _).2 hb]; rfl
    rw [heading, if_pos this]; simp [hb]
  · have hlen : ¬ (trimSpace content).length = 0 := fun h => hb ((trimSpace_nil_iff _).1 (List.length_eq_zero_iff.1 h))
    rw [heading, if_neg hlen]
    by_cases hs : (setext && decide (level < 3)) = true
    · rw [if_pos hs]
      simp at hs
      simp [hs.1]; omega
    · rw [if_neg hs]
      have hs' : setext = false ∨ 3 ≤ level := by
        cases setext with
        | false => exact Or.inl rfl
        | true => right; simpa using hs
      simp only [hb, hs', not_false_eq_true, true_and, Option.map_eq_none_iff]
      rcases escapePound_spec (atxContent content) (atx_nonempty hb) with ⟨hl, he⟩ | ⟨x, d, hx, he, -⟩ | ⟨x, d, hx, he⟩ | ⟨hx, he⟩
      · rw [he]; simp; intro h; rw [h] at hl; simp at hl
      · rw [he]; simp; rw [hx]; intro h; have := congrArg List.length h; simp at this
      · rw [he]; simp; rw [hx]; intro h; have := congrArg List.length h; simp at this
      · exact ⟨fun _ => hx, fun _ => he⟩

/-- The full C30 fails: with EscapeModeDisabled `<h1>#</h1>` panics. -/
theorem c30_counterexample_panic :
    heading false 1 (baseTextTransform .disabled Escape.isCommonmarkChar b!"#") = none := by decide

/-- The full C30 fails: with EscapeModeDisabled `<h1>C#</h1>` loses the C. -/
theorem c30_counterexample_lost :
    heading false 1 (baseTextTransform .disabled Escape.isCommonmarkChar b!"C#") = some b!"\n\n# \\#\n\n" := by decide

end Verif.Props
