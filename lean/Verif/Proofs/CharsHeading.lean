import Verif.Proofs.CharsRender
import Verif.Props.Headings
/-!
# Headings: the pound sign at the end, and what is visible
-/
set_option linter.unusedSimpArgs false

namespace Verif.Chars
open Verif Verif.Spec Verif.TextUtils Verif.Escape Verif.Commonmark

theorem vis_flatMap (f : UInt8 → Bytes) (hhi : ∀ b, 128 ≤ b → f b = [b])
    (hlo : ∀ b, b < 128 → Utf8 (f b) ∧ visibleChars (f b) = visibleChars [b]) :
    ∀ s, Utf8 s → Utf8 (s.flatMap f) ∧ visibleChars (s.flatMap f) = visibleChars s := by
  apply utf8_induct
  · exact ⟨utf8_nil, rfl⟩
  · intro c s hc hs ih
    rw [List.flatMap_append, vis_append ih.1, vis_append hs, ih.2]
    rcases isChar_cases hc with ⟨b, rfl, hb⟩ | h
    · have e : [b].flatMap f = f b := by simp
      rw [e]
      exact ⟨utf8_append (hlo b hb).1 ih.1, by rw [(hlo b hb).2]⟩
    · have e : c.flatMap f = c := by
        clear hc
        induction c with
        | nil => rfl
        | cons x c ih =>
          rw [List.flatMap_cons, hhi x (h x (by simp)), ih fun y hy => h y (by simp [hy])]; rfl
      rw [e]
      exact ⟨utf8_char hc ih.1, rfl⟩

/-- The operation copies the last visible character, and a marker or backslash in front of it; it adds nothing visible behind it. -/
def Copies (g : Bytes → Bytes) : Prop :=
  (∀ s, Utf8 s → Utf8 (g s) ∧ (visibleChars s = [] → visibleChars (g s) = [])) ∧
  ∀ s q c w, LastVis s q c w → ∃ q1 w1, LastVis (g s) q1 c w1 ∧ ∀ p m, q = p ++ [m] → (m = MARK ∨ m = BS) → ∃ p1, q1 = p1 ++ [m]

theorem EndsOk.copies {g : Bytes → Bytes} (hg : Copies g) {s : Bytes} (hs : Utf8 s) (h : EndsOk s) : EndsOk (g s) := by
  rcases lastVis_exists s hs with hb | ⟨q, c, w, hl⟩
  · exact ends_blank ((hg.1 s hs).2 hb)
  · obtain ⟨q1, w1, hl1, hm⟩ := hg.2 s q c w hl
    by_cases hc : c = [35]
    · subst hc
      obtain ⟨p, m, hq, hmm⟩ := h q w hl
      obtain ⟨p1, hp1⟩ := hm p m hq hmm
      intro q' w' hl'
      obtain ⟨rfl, _, rfl⟩ := hl1.unique hl'
      exact ⟨p1, m, hp1, hmm⟩
    · exact ends_other hl1 hc

theorem replace_copies {a : UInt8} (ha : a < 128) (hv : vis [a] = false) (h7 : a ≠ MARK) : Copies (replaceAll [a] [SP]) := by
  have hva : visibleChars [a] = [] := by rw [vis_low ha, hv]; rfl
  have hvs : visibleChars [SP] = [] := by decide
  have hB : a ≠ BS := by rintro rfl; exact absurd hv (by decide)
  have key : ∀ s, Utf8 s → Utf8 (replaceAll [a] [SP] s) ∧ visibleChars (replaceAll [a] [SP] s) = visibleChars s := by
    intro s hs
    rw [replaceAll_one]
    refine vis_flatMap _ ?_ ?_ s hs
    · intro b hb; rw [if_neg (not_low hb ha)]
    · intro b hb
      by_cases h : b = a
      · subst h; rw [if_pos rfl]; exact ⟨utf8_byte (by decide), by rw [hva, hvs]⟩
      · rw [if_neg h]; exact ⟨utf8_byte hb, rfl⟩
  refine ⟨fun s hs => ⟨(key s hs).1, fun h => by rw [(key s hs).2, h]⟩, ?_⟩
  intro s q c w hl
  refine ⟨replaceAll [a] [SP] q, replaceAll [a] [SP] w, ⟨?_, (key q hl.before).1, hl.char, hl.vis, (key w hl.after).1, by rw [(key w hl.after).2, hl.blank]⟩, ?_⟩
  · rw [hl.eq]
    simp only [replaceAll_one, List.flatMap_append]
    congr 2
    rcases isChar_cases hl.char with ⟨b, rfl, hb⟩ | h
    · have : b ≠ a := by rintro rfl; have := hl.vis; rw [hv] at this; exact absurd this (by decide)
      simp [this]
    · have hne : ∀ x ∈ c, x ≠ a := fun x hx => not_low (h x hx) ha
      clear h hl
      induction c with
      | nil => rfl
      | cons x c ih =>
        rw [List.flatMap_cons, if_neg (hne x (by simp)), ih fun y hy => hne y (by simp [hy])]; rfl
  · rintro p m rfl hm
    refine ⟨replaceAll [a] [SP] p, ?_⟩
    have : m ≠ a := by rintro rfl; rcases hm with h | h; exact h7 h; exact hB h
    simp only [replaceAll_one, List.flatMap_append]
    simp [this]

theorem vis_doubleSpaces : ∀ s, Utf8 s → ∀ n, visibleChars (dropDoubleSpaces n s) = visibleChars s := by
  apply utf8_induct
  · intro n; rfl
  · intro c s hc hs ih n
    rcases isChar_cases hc with ⟨b, rfl, hlow⟩ | h
    · rw [List.singleton_append, dropDoubleSpaces]
      by_cases h32 : b = SP
      · subst h32
        have hsp : vis [(32 : UInt8)] = false := by decide
        rw [if_pos rfl, vis_ascii (by decide) hs]
        split
        · rw [ih, hsp]; rfl
        · rw [vis_ascii (by decide) (keeps_doubleSpaces s hs _).1, ih]
      · rw [if_neg h32, if_neg (by decide), vis_ascii hlow hs, vis_ascii hlow (keeps_doubleSpaces s hs _).1, ih]
    · have hne : c ≠ [] := by rintro rfl; simp [isChar] at hc
      rw [dropDoubleSpaces_copy c h hne, vis_append (keeps_doubleSpaces s hs 0).1, vis_append hs, ih]

theorem doubleSpaces_append : ∀ (a : Bytes) (n : Nat), ∃ m, ∀ b, dropDoubleSpaces n (a ++ b) = dropDoubleSpaces n a ++ dropDoubleSpaces m b
  | [], n => ⟨n, fun b => rfl⟩
  | x :: a, n => by
    obtain ⟨m, hm⟩ := doubleSpaces_append a (if x = SP then n + 1 else 0)
    refine ⟨m, fun b => ?_⟩
    rw [List.cons_append, dropDoubleSpaces, dropDoubleSpaces]
    generalize (if x = SP then n + 1 else 0) = k at hm ⊢
    split
    · exact hm b
    · rw [hm b]; rfl

theorem doubleSpaces_none {x : UInt8} (h : x ≠ SP) (n : Nat) (s : Bytes) : dropDoubleSpaces n (x :: s) = x :: dropDoubleSpaces 0 s := by
  rw [dropDoubleSpaces]; simp [if_neg h]

theorem doubleSpaces_copies : Copies (dropDoubleSpaces 0) := by
  refine ⟨fun s hs => ⟨(keeps_doubleSpaces s hs 0).1, fun h => by rw [vis_doubleSpaces s hs, h]⟩, ?_⟩
  intro s q c w hl
  obtain ⟨m, hm⟩ := doubleSpaces_append q 0
  have hc : dropDoubleSpaces m (c ++ w) = c ++ dropDoubleSpaces 0 w := by
    rcases isChar_cases hl.char with ⟨b, rfl, hb⟩ | h
    · refine doubleSpaces_none ?_ _ _
      rintro rfl; exact absurd hl.vis (by decide)
    · exact dropDoubleSpaces_copy c h (by rintro rfl; have := hl.char; simp [isChar] at this) _ _
  refine ⟨dropDoubleSpaces 0 q, dropDoubleSpaces 0 w, ⟨?_, (keeps_doubleSpaces q hl.before 0).1, hl.char, hl.vis, (keeps_doubleSpaces w hl.after 0).1,
    by rw [vis_doubleSpaces w hl.after, hl.blank]⟩, ?_⟩
  · rw [hl.eq, List.append_assoc, hm, hc]; simp
  · rintro p x rfl hx
    obtain ⟨k, hk⟩ := doubleSpaces_append p 0
    refine ⟨dropDoubleSpaces 0 p, ?_⟩
    rw [hk, doubleSpaces_none (by rcases hx with rfl | rfl <;> decide)]; rfl

theorem ws_last {l p : Bytes} {m : UInt8} (hl : AllWhitespace l) (he : l = p ++ [m]) (hm : m = MARK ∨ m = BS) : False := by
  have : m ∉ l := not_mem_ws hl (by rcases hm with rfl | rfl <;> decide)
  exact this (by rw [he]; simp)

theorem trimSpace_copies : Copies trimSpace := by
  refine ⟨fun s hs => ⟨(utf8_trimSpace hs).1, fun h => by rw [(utf8_trimSpace hs).2, h]⟩, ?_⟩
  intro s q c w hl
  have hs : Utf8 s := by rw [hl.eq]; exact utf8_append (utf8_append hl.before (by simpa using utf8_char hl.char utf8_nil)) hl.after
  obtain ⟨l, r, hwl, hwr, he, -⟩ := trimSpace_spec s
  have hu := (utf8_trimSpace hs).1
  rcases lastVis_exists (trimSpace s) hu with hb | ⟨q', c', w', hl'⟩
  · rw [(utf8_trimSpace hs).2] at hb
    exact absurd hb hl.not_blank
  · have h2 := (hl'.prepend (utf8_ws hwl)).extend (utf8_ws hwr) (vis_ws hwr)
    rw [← he] at h2
    obtain ⟨e1, rfl, e3⟩ := hl.unique h2
    refine ⟨q', w', hl', ?_⟩
    rintro p m rfl hm
    rcases List.eq_nil_or_concat q' with rfl | ⟨z, y, rfl⟩
    · rw [List.append_nil] at e1
      exact (ws_last hwl e1.symm hm).elim
    · rw [List.concat_eq_append, ← List.append_assoc] at e1
      have := List.append_inj_right' e1 rfl
      simp at this
      exact ⟨z, by rw [this]; simp⟩

theorem atx_ends {s : Bytes} (hs : Utf8 s) (h : EndsOk s) : EndsOk (atxContent s) ∧ Keeps s (atxContent s) := by
  have c1 := replace_copies (a := NL) (by decide) (by decide) (by decide)
  have c2 := replace_copies (a := 13) (by decide) (by decide) (by decide)
  have u1 := (c1.1 s hs).1
  have u2 := (c2.1 _ u1).1
  have u3 := (doubleSpaces_copies.1 _ u2).1
  refine ⟨((((h.copies c1 hs).copies c2 u1).copies doubleSpaces_copies u2).copies trimSpace_copies u3), ?_⟩
  exact (((keeps_replace_one (by decide) (by decide) (utf8_byte (by decide)) hs).trans
    (keeps_replace_one (by decide) (by decide) (utf8_byte (by decide)) u1)).trans (keeps_doubleSpaces _ u2 0)).trans (keeps_trimSpace u3)

/-- The byte in front of the final pound sign is replaced; it is a marker or a backslash. -/
theorem pound_keeps {s : Bytes} (hs : Utf8 s) (hne : s ≠ []) (h : EndsOk s) : ∃ t, escapePoundSignAtEnd s = some t ∧ Keeps s t := by
  rw [escapePoundSignAtEnd]
  rcases List.eq_nil_or_concat s with rfl | ⟨s', c, rfl⟩
  · exact absurd rfl hne
  rw [List.concat_eq_append] at *
  rw [List.reverse_append]
  simp only [List.reverse_cons, List.reverse_nil, List.nil_append, List.singleton_append]
  by_cases hc : c = 35
  · subst hc
    rw [if_neg (by simp)]
    have hl : LastVis (s' ++ [35]) s' [35] [] :=
      ⟨by simp, utf8_prefix hs (utf8_byte (by decide)), by decide, by decide, utf8_nil, rfl⟩
    obtain ⟨p, m, rfl, hm⟩ := h _ _ hl
    have hp : Utf8 p := utf8_prefix hl.before (utf8_byte (by rcases hm with rfl | rfl <;> decide))
    rw [List.reverse_append]
    simp only [List.reverse_cons, List.reverse_nil, List.nil_append, List.singleton_append]
    have k : Keeps (p ++ [m] ++ [35]) (p ++ [BS] ++ [35]) := by
      rw [List.append_assoc, List.append_assoc]
      refine Keeps.append (Keeps.refl hp) (utf8_of_ascii (by rcases hm with rfl | rfl <;> decide)) ⟨utf8_of_ascii (by decide), ?_⟩
      rcases hm with rfl | rfl <;> decide
    rcases List.eq_nil_or_concat p with rfl | ⟨z, b, rfl⟩
    · exact ⟨_, rfl, k⟩
    · rw [List.concat_eq_append] at *
      rw [List.reverse_append]
      simp only [List.reverse_cons, List.reverse_nil, List.nil_append, List.singleton_append]
      by_cases hb : b = BS
      · rw [if_pos hb]; exact ⟨_, rfl, Keeps.refl hs⟩
      · rw [if_neg hb]; exact ⟨_, rfl, by simpa using k⟩
  · rw [if_pos hc]; exact ⟨_, rfl, Keeps.refl hs⟩

theorem keeps_heading (setext : Bool) (level : Nat) {s : Bytes} (hs : Utf8 s) (h : EndsOk s) : ∃ t, heading setext level s = some t ∧ Keeps s t := by
  rw [heading]
  by_cases h0 : (trimSpace s).length = 0
  · rw [if_pos h0]
    have := trimSpace_empty (List.length_eq_zero_iff.1 h0)
    exact ⟨[], rfl, utf8_nil, by rw [this]; exact List.nil_sublist _⟩
  rw [if_neg h0]
  split
  · refine ⟨_, rfl, ?_⟩
    have k := (keeps_newlines hs).trans (keeps_escapeMultiLine (keeps_newlines hs).1)
    have hu : Utf8 (setextUnderline level (underlineWidth (escapeMultiLine (trimConsecutiveNewlines s)) 3)) := by
      apply utf8_of_ascii
      intro b hb
      rw [setextUnderline, List.mem_replicate] at hb
      rw [hb.2]; split <;> decide
    exact (((k.after b!"\n\n" (utf8_of_ascii (by decide))).before [NL] (utf8_byte (by decide))).before _ hu).before b!"\n\n" (utf8_of_ascii (by decide))
  · obtain ⟨he, hk⟩ := atx_ends hs h
    have hne : atxContent s ≠ [] := Props.atx_nonempty fun hw => h0 (by rw [(trimSpace_nil_iff s).2 hw]; rfl)
    obtain ⟨t, ht, kt⟩ := pound_keeps hk.1 hne he
    refine ⟨_, by rw [ht]; rfl, ?_⟩
    have hu : Utf8 (List.replicate level (35 : UInt8)) := utf8_of_ascii fun b hb => by rw [List.mem_replicate] at hb; rw [hb.2]; decide
    exact ((((hk.trans kt).after _ (utf8_byte (b := SP) (by decide))).after _ hu).after b!"\n\n" (utf8_of_ascii (by decide))).before b!"\n\n" (utf8_of_ascii (by decide))
      |> fun k => by simpa [List.append_assoc] using k

end Verif.Chars
