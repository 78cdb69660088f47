import Verif.Proofs.CharsTree
/-!
# The visible characters in the result of the renderers
-/
set_option linter.unusedSimpArgs false

namespace Verif.Chars
open Verif Verif.Spec Verif.TextUtils Verif.Escape Verif.Commonmark

/-! ## All characters are found -/

theorem spelled_refl : ∀ cs, Spelled cs cs
  | [] => .nil
  | c :: cs => .same c (spelled_refl cs)

theorem spelled_append {a b a' b' : List Bytes} (h1 : Spelled a a') (h2 : Spelled b b') : Spelled (a ++ b) (a' ++ b') := by
  induction h1 with
  | nil => exact h2
  | same c _ ih => exact .same c ih
  | lt _ ih => simpa [List.append_assoc] using Spelled.lt ih
  | gt _ ih => simpa [List.append_assoc] using Spelled.gt ih
  | null _ ih => simpa [List.append_assoc] using Spelled.null ih

theorem Shows.mono {out out' cs : List Bytes} (h : Shows out cs) (hs : out.Sublist out') : Shows out' cs := by
  obtain ⟨ds, h1, h2⟩ := h
  exact ⟨ds, h1, h2.trans hs⟩

theorem Shows.append {o1 o2 c1 c2 : List Bytes} (h1 : Shows o1 c1) (h2 : Shows o2 c2) : Shows (o1 ++ o2) (c1 ++ c2) := by
  obtain ⟨d1, a1, b1⟩ := h1
  obtain ⟨d2, a2, b2⟩ := h2
  exact ⟨d1 ++ d2, spelled_append a1 a2, b1.append b2⟩

theorem shows_refl (cs : List Bytes) : Shows cs cs := ⟨cs, spelled_refl cs, List.Sublist.refl _⟩
theorem shows_nil (out : List Bytes) : Shows out [] := ⟨[], .nil, List.nil_sublist _⟩

theorem spelled_sublist {cs ds : List Bytes} (h : Spelled cs ds) : ∀ {cs' : List Bytes}, cs'.Sublist cs → ∃ ds', Spelled cs' ds' ∧ ds'.Sublist ds := by
  induction h with
  | nil => intro cs' hs; exact ⟨[], by rw [List.sublist_nil.1 hs]; exact .nil, List.Sublist.refl _⟩
  | same c _ ih =>
    intro cs' hs
    cases hs with
    | cons _ hs => obtain ⟨d, h1, h2⟩ := ih hs; exact ⟨d, h1, .cons _ h2⟩
    | cons_cons _ hs => obtain ⟨d, h1, h2⟩ := ih hs; exact ⟨c :: d, .same c h1, .cons_cons _ h2⟩
  | lt _ ih =>
    intro cs' hs
    cases hs with
    | cons _ hs => obtain ⟨d, h1, h2⟩ := ih hs; exact ⟨d, h1, h2.trans (List.sublist_append_right _ _)⟩
    | cons_cons _ hs => obtain ⟨d, h1, h2⟩ := ih hs; exact ⟨_, .lt h1, (List.Sublist.refl _).append h2⟩
  | gt _ ih =>
    intro cs' hs
    cases hs with
    | cons _ hs => obtain ⟨d, h1, h2⟩ := ih hs; exact ⟨d, h1, h2.trans (List.sublist_append_right _ _)⟩
    | cons_cons _ hs => obtain ⟨d, h1, h2⟩ := ih hs; exact ⟨_, .gt h1, (List.Sublist.refl _).append h2⟩
  | null _ ih =>
    intro cs' hs
    cases hs with
    | cons _ hs => obtain ⟨d, h1, h2⟩ := ih hs; exact ⟨d, h1, h2.trans (List.sublist_append_right _ _)⟩
    | cons_cons _ hs => obtain ⟨d, h1, h2⟩ := ih hs; exact ⟨_, .null h1, (List.Sublist.refl _).append h2⟩

theorem Shows.less {out cs cs' : List Bytes} (h : Shows out cs) (hs : cs'.Sublist cs) : Shows out cs' := by
  obtain ⟨ds, h1, h2⟩ := h
  obtain ⟨ds', h3, h4⟩ := spelled_sublist h1 hs
  exact ⟨ds', h3, h4.trans h2⟩

/-- The text `x` shows the characters. -/
def Has (x : Bytes) (cs : List Bytes) : Prop := Utf8 x ∧ Shows (visibleChars x) cs

theorem Has.keeps {x y : Bytes} {cs : List Bytes} (h : Has x cs) (k : Keeps x y) : Has y cs := ⟨k.1, Shows.mono h.2 k.2⟩

theorem Has.append {x y : Bytes} {cs ds : List Bytes} (h1 : Has x cs) (h2 : Has y ds) : Has (x ++ y) (cs ++ ds) :=
  ⟨utf8_append h1.1 h2.1, by rw [vis_append h2.1]; exact Shows.append h1.2 h2.2⟩

theorem Has.wrap {x : Bytes} {cs : List Bytes} (h : Has x cs) {a b : Bytes} (ha : Utf8 a) (hb : Utf8 b) : Has (a ++ x ++ b) cs :=
  h.keeps (((Keeps.refl h.1).after a ha).before b hb)

theorem has_nil {x : Bytes} (h : Utf8 x) : Has x [] := ⟨h, shows_nil _⟩

/-! ## Text -/

theorem shows_flatMap (f : UInt8 → Bytes) (hhi : ∀ b, 128 ≤ b → f b = [b])
    (hlo : ∀ b, b < 128 → Utf8 (f b) ∧ (vis [b] = true → Shows (visibleChars (f b)) [[b]])) :
    ∀ s, Utf8 s → Has (s.flatMap f) (visibleChars s) := by
  apply utf8_induct
  · exact has_nil utf8_nil
  · intro c s hc hs ih
    rw [List.flatMap_append, vis_append hs]
    refine Has.append ?_ ih
    rcases isChar_cases hc with ⟨b, rfl, hb⟩ | h
    · refine ⟨by simpa using (hlo b hb).1, ?_⟩
      rw [vis_low hb]
      split
      · rename_i hv; simpa using (hlo b hb).2 hv
      · exact shows_nil _
    · have e : c.flatMap f = c := by
        clear hc
        induction c with
        | nil => rfl
        | cons x c ih =>
          rw [List.flatMap_cons, hhi x (h x (by simp)), ih fun y hy => h y (by simp [hy])]; rfl
      rw [e]
      exact ⟨by simpa using utf8_char hc utf8_nil, shows_refl _⟩

/-- What becomes of the bytes of a text. -/
def textByte (mode : Mode) (b : UInt8) : Bytes :=
  if b = 60 then b!"&lt;"
  else if b = 62 then b!"&gt;"
  else match mode with
    | .disabled => [b]
    | .smart => if b = 0 then b!"�" else if b ∈ commonmarkChars then [MARK, b] else [b]

theorem escapeLoop_flatMap : ∀ s : Bytes, escapeLoop isCommonmarkChar s =
    s.flatMap fun b => if b = 0 then b!"�" else if b ∈ commonmarkChars then [MARK, b] else [b]
  | [] => rfl
  | b :: s => by
    rw [escapeLoop, List.flatMap_cons, escapeLoop_flatMap s]
    have := isCommonmarkChar_decode b s
    by_cases h0 : b = 0
    · rw [if_pos h0, if_pos h0]
    · rw [if_neg h0, if_neg h0]
      by_cases hb : b ∈ commonmarkChars
      · rw [if_pos (this.2 hb), if_pos hb]; rfl
      · rw [if_neg (fun h => hb (this.1 h)), if_neg hb]; rfl

theorem entityReplace_flatMap (s : Bytes) : entityReplace s =
    s.flatMap fun b => if b = 60 then b!"&lt;" else if b = 62 then b!"&gt;" else [b] := by
  rw [entityReplace, replaceBytes]
  congr 1
  funext b
  split
  · rfl
  · split <;> rfl

theorem textTransform_eq (mode : Mode) (d : Bytes) : baseTextTransform mode isCommonmarkChar d = d.flatMap (textByte mode) := by
  rw [baseTextTransform, entityReplace_flatMap]
  cases mode with
  | disabled => rfl
  | smart =>
    rw [escapeContent]
    rw [escapeLoop_flatMap, List.flatMap_assoc]
    congr 1
    funext b
    rw [textByte.eq_def]
    by_cases h1 : b = 60
    · rw [if_pos h1, if_pos h1]; decide
    · rw [if_neg h1, if_neg h1]
      by_cases h2 : b = 62
      · rw [if_pos h2, if_pos h2]; decide
      · rw [if_neg h2, if_neg h2]; simp

theorem shows_byte {b : UInt8} {x : Bytes} (hx : [b] ∈ visibleChars x) : Shows (visibleChars x) [[b]] :=
  ⟨[[b]], spelled_refl _, by rw [List.singleton_sublist]; exact hx⟩

theorem has_text (mode : Mode) {d : Bytes} (hd : Utf8 d) : Has (baseTextTransform mode isCommonmarkChar d) (visibleChars d) := by
  rw [textTransform_eq]
  refine shows_flatMap _ ?_ ?_ d hd
  · intro b hb
    rw [textByte.eq_def, if_neg (not_low hb (by decide)), if_neg (not_low hb (by decide))]
    cases mode with
    | disabled => rfl
    | smart =>
      simp only
      rw [if_neg (not_low hb (by decide)), if_neg]
      intro hm
      exact not_low hb (commonmarkChars_lt b hm).1 rfl
  · intro b hb
    rw [textByte.eq_def]
    by_cases h1 : b = 60
    · subst h1
      rw [if_pos rfl]
      exact ⟨utf8_of_ascii (by decide), fun _ => ⟨chars b!"&lt;" ++ [], .lt .nil, by decide⟩⟩
    rw [if_neg h1]
    by_cases h2 : b = 62
    · subst h2
      rw [if_pos rfl]
      exact ⟨utf8_of_ascii (by decide), fun _ => ⟨chars b!"&gt;" ++ [], .gt .nil, by decide⟩⟩
    rw [if_neg h2]
    cases mode with
    | disabled => exact ⟨utf8_byte hb, fun hv => shows_byte (vis_self hb hv)⟩
    | smart =>
      simp only
      by_cases h3 : b = 0
      · subst h3
        rw [if_pos rfl]
        refine ⟨?_, fun _ => ⟨chars b!"�" ++ [], .null .nil, by decide⟩⟩
        intro c hc; revert c; decide
      rw [if_neg h3]
      split
      · refine ⟨utf8_ascii (by decide) (utf8_byte hb), fun hv => shows_byte ?_⟩
        rw [vis_ascii (by decide) (utf8_byte hb)]
        exact vis_self hb hv
      · exact ⟨utf8_byte hb, fun hv => shows_byte (vis_self hb hv)⟩

theorem keeps_linkText (l : Bool) {s : Bytes} (hs : Utf8 s) : Keeps s (linkTextTransform l s) := by
  rw [linkTextTransform]
  split
  · refine keeps_replaceAll (by decide) (utf8_of_ascii (by decide)) ⟨utf8_of_ascii (by decide), by decide⟩ s hs
  · exact Keeps.refl hs

/-! ## The last visible character -/

/-- `c` is the last visible character of `s`. -/
structure LastVis (s q c w : Bytes) : Prop where
  eq : s = q ++ c ++ w
  before : Utf8 q
  char : isChar c = true
  vis : vis c = true
  after : Utf8 w
  blank : visibleChars w = []

theorem lastVis_exists : ∀ s, Utf8 s → visibleChars s = [] ∨ ∃ q c w, LastVis s q c w := by
  apply utf8_induct
  · left; rfl
  · intro c s hc hs ih
    rcases ih with h | ⟨q, c', w, h⟩
    · by_cases hv : vis c = true
      · right
        exact ⟨[], c, s, by simp, utf8_nil, hc, hv, hs, h⟩
      · left
        rw [vis_char hc hs, h, if_neg hv]
    · right
      refine ⟨c ++ q, c', w, ?_, utf8_char hc h.before, h.char, h.vis, h.after, h.blank⟩
      rw [h.eq]; simp

theorem last_unique {α} {P : α → Prop} : ∀ {l1 r1 l2 r2 : List α} {a b : α}, l1 ++ a :: r1 = l2 ++ b :: r2 → P a → P b →
    (∀ x ∈ r1, ¬ P x) → (∀ x ∈ r2, ¬ P x) → l1 = l2 ∧ a = b ∧ r1 = r2
  | [], r1, [], r2, a, b, h, _, _, _, _ => by simp at h; exact ⟨rfl, h.1, h.2⟩
  | [], r1, y :: l2, r2, a, b, h, _, hb, h1, _ => by
    simp at h
    exact absurd hb (h1 b (by rw [h.2]; simp))
  | x :: l1, r1, [], r2, a, b, h, ha, _, _, h2 => by
    simp at h
    exact absurd ha (h2 a (by rw [← h.2]; simp))
  | x :: l1, r1, y :: l2, r2, a, b, h, ha, hb, h1, h2 => by
    simp only [List.cons_append, List.cons.injEq] at h
    obtain ⟨e1, e2, e3⟩ := last_unique h.2 ha hb h1 h2
    exact ⟨by rw [h.1, e1], e2, e3⟩

theorem LastVis.chars {s q c w : Bytes} (h : LastVis s q c w) : Spec.chars s = Spec.chars q ++ c :: Spec.chars w := by
  rw [h.eq, List.append_assoc, chars_append _ (starts_char _ h.char), chars_char h.char (utf8_starts h.after)]

theorem blank_all {w : Bytes} (h : visibleChars w = []) : ∀ x ∈ Spec.chars w, ¬ Chars.vis x = true := by
  rw [visibleChars_eq, List.filter_eq_nil_iff] at h
  exact h

theorem LastVis.unique {s q c w q' c' w' : Bytes} (h : LastVis s q c w) (h' : LastVis s q' c' w') : q = q' ∧ c = c' ∧ w = w' := by
  have e := h.chars.symm.trans h'.chars
  obtain ⟨e1, e2, e3⟩ := last_unique (P := fun x => Chars.vis x = true) e h.vis h'.vis (blank_all h.blank) (blank_all h'.blank)
  refine ⟨?_, e2, ?_⟩
  · rw [← chars_flatten q, e1, chars_flatten]
  · rw [← chars_flatten w, e3, chars_flatten]

theorem LastVis.not_blank {s q c w : Bytes} (h : LastVis s q c w) : visibleChars s ≠ [] := by
  rw [visibleChars_eq, h.chars, List.filter_append, List.filter_cons, if_pos h.vis]
  simp

theorem LastVis.extend {s q c w x : Bytes} (h : LastVis s q c w) (hx : Utf8 x) (hb : visibleChars x = []) : LastVis (s ++ x) q c (w ++ x) :=
  ⟨by rw [h.eq]; simp, h.before, h.char, h.vis, utf8_append h.after hx, by rw [vis_append hx, h.blank, hb]; rfl⟩

theorem LastVis.prepend {s q c w x : Bytes} (h : LastVis s q c w) (hx : Utf8 x) : LastVis (x ++ s) (x ++ q) c w :=
  ⟨by rw [h.eq]; simp, utf8_append hx h.before, h.char, h.vis, h.after, h.blank⟩

/-- If the last visible character is a pound sign, it is escaped or carries the marker. -/
def EndsOk (s : Bytes) : Prop := ∀ q w, LastVis s q [35] w → ∃ p m, q = p ++ [m] ∧ (m = MARK ∨ m = BS)

theorem ends_blank {s : Bytes} (h : visibleChars s = []) : EndsOk s := fun _ _ hl => absurd h hl.not_blank

theorem ends_other {s q c w : Bytes} (h : LastVis s q c w) (hc : c ≠ [35]) : EndsOk s := fun _ _ hl => absurd (h.unique hl).2.1 hc

theorem EndsOk.append {a b : Bytes} (ha : EndsOk a) (hb : EndsOk b) (ua : Utf8 a) (ub : Utf8 b) : EndsOk (a ++ b) := by
  intro q w hl
  rcases lastVis_exists b ub with h | ⟨qb, cb, wb, h⟩
  · rcases lastVis_exists a ua with h' | ⟨qa, ca, wa, h'⟩
    · exact absurd (by rw [vis_append ub, h, h']; rfl) hl.not_blank
    · have := (h'.extend ub h).unique hl
      obtain ⟨rfl, rfl, _⟩ := this
      exact ha qa wa h'
  · have := (h.prepend ua).unique hl
    obtain ⟨rfl, rfl, _⟩ := this
    obtain ⟨p, m, rfl, hm⟩ := hb qb wb h
    exact ⟨a ++ p, m, by simp, hm⟩

/-- A text that ends with one of these bytes, and then something invisible. -/
theorem ends_byte {s w : Bytes} {b : UInt8} (hs : Utf8 s) (hb : b < 128) (hv : vis [b] = true) (h35 : b ≠ 35) (hw : Utf8 w) (hbl : visibleChars w = []) :
    EndsOk (s ++ [b] ++ w) :=
  ends_other ⟨rfl, hs, by simpa [isChar] using hb, hv, hw, hbl⟩ (by simpa using h35)

/-- A text without pound sign that has something visible. -/
theorem ends_none {s : Bytes} (h : 35 ∉ s) : EndsOk s := by
  intro q w hl
  exact absurd (by rw [hl.eq]; simp) h

/-- `s` behind anything: the last visible character is in `s`. -/
theorem ends_after {p s : Bytes} (hp : Utf8 p) (hs : Utf8 s) (hv : visibleChars s ≠ []) (h35 : 35 ∉ s) : EndsOk (p ++ s) := by
  rcases lastVis_exists s hs with h | ⟨q, c, w, h⟩
  · exact absurd h hv
  · refine ends_other (h.prepend hp) ?_
    rintro rfl
    exact h35 (by rw [h.eq]; simp)

/-! ## Pound signs in texts -/

/-- Every pound sign follows a marker or a backslash; `pr`: so does the first byte. -/
def hashOk : Bool → Bytes → Bool
  | _, [] => true
  | pr, b :: s => (b ≠ 35 || pr) && hashOk (b = MARK || b = BS) s

theorem hashOk_true : ∀ (s : Bytes) (pr : Bool), hashOk pr s = true → hashOk true s = true
  | [], _, _ => rfl
  | b :: s, pr, h => by
    rw [hashOk, Bool.and_eq_true] at h ⊢
    exact ⟨by simp, h.2⟩

theorem hashOk_split : ∀ (p w : Bytes) (pr : Bool), hashOk pr (p ++ 35 :: w) = true → (p = [] ∧ pr = true) ∨ ∃ q m, p = q ++ [m] ∧ (m = MARK ∨ m = BS)
  | [], w, pr, h => by
    rw [List.nil_append, hashOk, Bool.and_eq_true] at h
    left; exact ⟨rfl, by simpa using h.1⟩
  | b :: p, w, pr, h => by
    rw [List.cons_append, hashOk, Bool.and_eq_true] at h
    right
    rcases hashOk_split p w _ h.2 with ⟨rfl, hb⟩ | ⟨q, m, rfl, hm⟩
    · exact ⟨[], b, rfl, by simpa using hb⟩
    · exact ⟨b :: q, m, rfl, hm⟩

theorem ends_hashOk {s : Bytes} (h : hashOk false s = true) : EndsOk s := by
  intro q w hl
  rw [hl.eq] at h
  rcases hashOk_split q w false (by simpa using h) with ⟨_, hf⟩ | h
  · simp at hf
  · exact h

theorem hashOk_none : ∀ (s : Bytes) (pr : Bool), 35 ∉ s → hashOk pr s = true
  | [], _, _ => rfl
  | b :: s, pr, h => by
    rw [hashOk, hashOk_none s _ (fun hm => h (by simp [hm]))]
    have : b ≠ 35 := fun e => h (by simp [e])
    simp [this]

theorem hashOk_flatMap (f : UInt8 → Bytes) : ∀ (s : Bytes), (∀ b ∈ s, ∀ x, (∀ pr, hashOk pr x = true) → ∀ pr, hashOk pr (f b ++ x) = true) →
    ∀ pr, hashOk pr (s.flatMap f) = true
  | [], _, _ => rfl
  | b :: s, h, pr => by
    rw [List.flatMap_cons]
    exact h b (by simp) _ (hashOk_flatMap f s fun c hc => h c (by simp [hc])) pr

theorem hashOk_link (l : Bool) (s : Bytes) (pr : Bool) (h : hashOk pr s = true) : hashOk pr (linkTextTransform l s) = true := by
  rw [linkTextTransform]
  split
  · have main : ∀ (n : Nat) (s : Bytes), s.length ≤ n → ∀ pr, hashOk pr s = true → hashOk pr (replaceAll [MARK, 93] [BS, 93] s) = true := by
      intro n
      induction n with
      | zero => intro s hl pr h; rw [List.length_eq_zero_iff.1 (Nat.le_zero.1 hl)]; rfl
      | succ n ih =>
        intro s hl pr h
        by_cases hp : [MARK, 93] <+: s
        · obtain ⟨t, rfl⟩ := hp
          rw [replaceAll_match _ _ _ (by decide)]
          simp only [List.cons_append, List.nil_append, hashOk, Bool.and_eq_true] at h ⊢
          simp at hl
          exact ⟨by simp, by simp, ih t (by omega) _ h.2.2⟩
        · cases s with
          | nil => rfl
          | cons b s =>
            rw [replaceAll_nomatch hp]
            rw [hashOk, Bool.and_eq_true] at h ⊢
            simp at hl
            exact ⟨h.1, ih s (by omega) _ h.2⟩
    exact main s.length s (Nat.le_refl _) pr h
  · exact h

theorem hashOk_text (mode : Mode) {d : Bytes} (hd : mode = .smart ∨ 35 ∉ d) : ∀ pr, hashOk pr (baseTextTransform mode isCommonmarkChar d) = true := by
  rw [textTransform_eq]
  apply hashOk_flatMap
  intro b hb x hx pr
  rw [textByte.eq_def]
  by_cases h1 : b = 60
  · rw [if_pos h1]; simp [hashOk, hx]
  rw [if_neg h1]
  by_cases h2 : b = 62
  · rw [if_pos h2]; simp [hashOk, hx]
  rw [if_neg h2]
  rcases hd with rfl | hd
  · simp only
    by_cases h3 : b = 0
    · rw [if_pos h3]; simp [hashOk, hx]
    rw [if_neg h3]
    by_cases h4 : b ∈ commonmarkChars
    · rw [if_pos h4]; simp [hashOk, hx]
    · rw [if_neg h4]
      have : b ≠ 35 := by rintro rfl; exact h4 (by decide)
      simp [hashOk, hx, this]
  · have h35 : b ≠ 35 := by rintro rfl; exact hd hb
    cases mode with
    | disabled => simp [hashOk, hx, h35]
    | smart =>
      simp only
      by_cases h3 : b = 0
      · rw [if_pos h3]; simp [hashOk, hx]
      rw [if_neg h3]
      by_cases h4 : b ∈ commonmarkChars
      · rw [if_pos h4]; simp [hashOk, hx]
      · rw [if_neg h4]
        simp [hashOk, hx, h35]

theorem ends_text (mode : Mode) (l : Bool) {d : Bytes} (hd : mode = .smart ∨ 35 ∉ d) :
    EndsOk (linkTextTransform l (baseTextTransform mode isCommonmarkChar d)) :=
  ends_hashOk (hashOk_link l _ _ (hashOk_text mode hd _))

end Verif.Chars
