import Verif.Proofs.PageQuote
import Verif.Proofs.PageRichHeading
/-!
# Lines of text in quotes
-/
namespace Verif.Page
open Verif Verif.Escape Verif.Spec Verif.Commonmark Verif.TextUtils

variable {dig : Nat → Bool} {hs : List Handler} {bullet : Bytes} {st : Style}

/-! ## Starts of blocks -/

theorem takeWhile_mem {p : UInt8 → Bool} {l : Bytes} {b : UInt8} (h : b ∈ l.takeWhile p) : p b = true := by
  induction l with
  | nil => cases h
  | cons x l ih =>
    rw [List.takeWhile_cons] at h
    split at h
    · rcases List.mem_cons.1 h with rfl | h
      · assumption
      · exact ih h
    · cases h

/-- The line is the marker, or begins with it and a space, tab or carriage return. -/
def Marked (w l : Bytes) : Prop := l = w ∨ ∃ c, (c = 32 ∨ c = 9 ∨ c = 13) ∧ w ++ [c] <+: l

/-- What begins with a marker. -/
def ByMarker (X : Bytes → Bool) : Prop :=
  ∀ l : Bytes, l.head? ≠ some 32 → X l = true → ∃ w : Bytes, w ≠ [] ∧ (∀ b ∈ w, b ∈ [35, 45, 43, 42, 46, 41] ∨ isDigit b = true) ∧ (w.length ≤ 1 ∨ 42 ∉ w) ∧
    Marked w l ∧ ∀ z, Marked w z → X z = true

theorem marked_of {w r : Bytes} (h : endOrBlank r = true) : Marked w (w ++ r) := by
  cases r with
  | nil => left; simp
  | cons b r =>
    right
    refine ⟨b, by simpa [endOrBlank, or_assoc] using h, ⟨r, by simp⟩⟩

theorem marked_to {w z : Bytes} (h : Marked w z) : ∃ r, z = w ++ r ∧ endOrBlank r = true := by
  rcases h with rfl | ⟨c, hc, r, e⟩
  · exact ⟨[], by simp, rfl⟩
  · refine ⟨c :: r, by rw [← e]; simp, ?_⟩
    rcases hc with rfl | rfl | rfl <;> rfl

theorem endOrBlank_head {p : UInt8 → Bool} (h32 : p 32 = false) (h9 : p 9 = false) (h13 : p 13 = false) {r : Bytes} (h : endOrBlank r = true) :
    r.takeWhile p = [] ∧ r.dropWhile p = r := by
  cases r with
  | nil => exact ⟨rfl, rfl⟩
  | cons b r =>
    have hb : b = 32 ∨ b = 9 ∨ b = 13 := by simpa [endOrBlank, or_assoc] using h
    have : p b = false := by rcases hb with rfl | rfl | rfl <;> assumption
    simp [this]

theorem atx_marker : ByMarker isAtxHeading := by
  intro l h32 h
  have h' := h
  rw [isAtxHeading, dropSpaces_of_head h32] at h'
  simp only [Bool.and_eq_true, decide_eq_true_eq] at h'
  obtain ⟨⟨h1, h6⟩, hb⟩ := h'
  have hw : ∀ b ∈ l.takeWhile (· == 35), b = 35 := by
    intro b hb
    have := takeWhile_mem hb
    simpa using this
  refine ⟨l.takeWhile (· == 35), ?_, ?_, .inr ?_, ?_, ?_⟩
  · intro e; rw [e] at h1; simp at h1
  · intro b hb; rw [hw b hb]; left; simp
  · intro hm; exact absurd (hw _ hm) (by decide)
  · have := marked_of (w := l.takeWhile (· == 35)) hb
    rwa [List.takeWhile_append_dropWhile] at this
  · intro z hz
    obtain ⟨r, rfl, hr⟩ := marked_to hz
    generalize l.takeWhile (· == 35) = w at *
    obtain ⟨t1, t2⟩ := endOrBlank_head (p := (· == 35)) (by decide) (by decide) (by decide) hr
    have hall : ∀ b ∈ w, (b == 35) = true := by intro b hb; simp [hw b hb]
    have hz32 : (w ++ r).head? ≠ some 32 := by
      cases w with
      | nil => simp at h1
      | cons b w => rw [hw b (by simp)]; simp
    rw [isAtxHeading, dropSpaces_of_head hz32]
    simp only [List.takeWhile_append_of_pos hall, List.dropWhile_append_of_pos hall, t1, t2, List.append_nil, hr, h1, h6]
    rfl

theorem bullet_marker : ByMarker isBulletItem := by
  intro l h32 h
  rw [isBulletItem, dropSpaces_of_head h32] at h
  cases l with
  | nil => cases h
  | cons b l =>
    simp only [Bool.and_eq_true] at h
    obtain ⟨hb, he⟩ := h
    have hb' : b = 45 ∨ b = 43 ∨ b = 42 := by simpa [or_assoc] using hb
    refine ⟨[b], by simp, ?_, .inl (by simp), marked_of he, ?_⟩
    · intro x hx
      simp at hx
      subst hx
      left
      rcases hb' with rfl | rfl | rfl <;> simp
    · intro z hz
      obtain ⟨r, rfl, hr⟩ := marked_to hz
      rw [isBulletItem, dropSpaces_of_head (by simpa using h32)]
      simp [hr]
      rcases hb' with rfl | rfl | rfl <;> simp

theorem ordered_marker : ByMarker isOrderedItem := by
  intro l h32 h
  rw [isOrderedItem, dropSpaces_of_head h32] at h
  simp only [Bool.and_eq_true, decide_eq_true_eq] at h
  obtain ⟨h1, h⟩ := h
  cases hd : l.dropWhile isDigit with
  | nil => rw [hd] at h; cases h
  | cons b r =>
    rw [hd] at h
    simp only [Bool.and_eq_true] at h
    obtain ⟨hb, he⟩ := h
    have hb' : b = 46 ∨ b = 41 := by simpa using hb
    have hbd : isDigit b = false := by rcases hb' with rfl | rfl <;> decide
    have hw : ∀ x ∈ l.takeWhile isDigit, isDigit x = true := fun x hx => takeWhile_mem hx
    have hl : l = l.takeWhile isDigit ++ b :: r := by
      conv => lhs; rw [← List.takeWhile_append_dropWhile (p := isDigit) (l := l), hd]
    refine ⟨l.takeWhile isDigit ++ [b], by simp, ?_, .inr ?_, ?_, ?_⟩
    · intro x hx
      rw [List.mem_append, List.mem_singleton] at hx
      rcases hx with hx | rfl
      · exact .inr (hw x hx)
      · left; rcases hb' with rfl | rfl <;> simp
    · intro hm
      rw [List.mem_append, List.mem_singleton] at hm
      rcases hm with hm | hm
      · exact absurd (hw _ hm) (by decide)
      · rcases hb' with rfl | rfl <;> cases hm
    · have := marked_of (w := l.takeWhile isDigit ++ [b]) he
      rw [List.append_assoc, List.singleton_append, ← hl] at this
      exact this
    · intro z hz
      obtain ⟨r', rfl, hr⟩ := marked_to hz
      generalize l.takeWhile isDigit = w at *
      have hz32 : (w ++ [b] ++ r').head? ≠ some 32 := by
        cases w with
        | nil => simp at h1
        | cons x w =>
          have := hw x (by simp)
          simp
          rintro rfl
          revert this; decide
      rw [isOrderedItem, dropSpaces_of_head hz32]
      rw [List.append_assoc, List.singleton_append]
      simp only [List.takeWhile_append_of_pos hw, List.dropWhile_append_of_pos hw, List.takeWhile_cons, List.dropWhile_cons, hbd]
      simp [hb, hr]
      omega

/-! ## Escapes take nothing for a start -/

theorem ren_prefix : ∀ {w : Bytes} {D : Toks}, 92 ∉ w → w <+: renToks D → w <+: D.map Prod.snd
  | [], _, _, _ => List.nil_prefix
  | c :: w, [], _, h => h
  | c :: w, (m, b) :: D, h92, h => by
    rw [List.mem_cons, not_or] at h92
    cases m with
    | true =>
      rw [show renToks ((true, b) :: D) = 92 :: b :: renToks D from rfl, List.cons_prefix_cons] at h
      exact absurd h.1.symm h92.1
    | false =>
      rw [renToks_cons_f, List.cons_prefix_cons] at h
      rw [List.map_cons, List.cons_prefix_cons]
      exact ⟨h.1, ren_prefix h92.2 h.2⟩

theorem ren_eq : ∀ {w : Bytes} {D : Toks}, 92 ∉ w → renToks D = w → D.map Prod.snd = w
  | [], [], _, _ => rfl
  | [], (m, b) :: D, _, h => by cases m <;> simp [renToks] at h
  | c :: w, [], _, h => by cases h
  | c :: w, (m, b) :: D, h92, h => by
    rw [List.mem_cons, not_or] at h92
    cases m with
    | true =>
      rw [show renToks ((true, b) :: D) = 92 :: b :: renToks D from rfl, List.cons.injEq] at h
      exact absurd h.1 h92.1
    | false =>
      rw [renToks_cons_f, List.cons.injEq] at h
      rw [List.map_cons, h.1, ren_eq h92.2 h.2]

theorem marker_chars {b : UInt8} (h : b ∈ [35, 45, 43, 42, 46, 41] ∨ isDigit b = true) : b ≠ 92 ∧ b ∉ b!"&ltg;" ∧ b ∉ [33, 91, 95, 96] := by
  revert h
  exact forall_u8 (P := fun b => (b ∈ [35, 45, 43, 42, 46, 41] ∨ isDigit b = true) → b ≠ 92 ∧ b ∉ b!"&ltg;" ∧ b ∉ [33, 91, 95, 96]) (by decide +kernel) b

theorem start_ren {X : Bytes → Bool} (hX : ByMarker X) {D : Toks} (h32 : (D.map Prod.snd).head? ≠ some 32) (h : X (renToks D) = true) :
    X (D.map Prod.snd) = true := by
  obtain ⟨w, -, hw, -, hm, hz⟩ := hX (renToks D) (by
    rcases renToks_head (D := D) with e | e
    · rw [e]; exact h32
    · rw [e]; decide) h
  have h92 : 92 ∉ w := fun hb => (marker_chars (hw _ hb)).1 rfl
  refine hz _ ?_
  rcases hm with hm | ⟨c, hc, hm⟩
  · exact .inl (ren_eq h92 hm)
  · refine .inr ⟨c, hc, ren_prefix ?_ hm⟩
    rw [List.mem_append, List.mem_singleton, not_or]
    refine ⟨h92, ?_⟩
    rcases hc with rfl | rfl | rfl <;> decide

theorem entity_eq {w v : Bytes} (hw : ∀ b ∈ w, b ∉ b!"&ltg;") (h : entityReplace v = w) : v = w := by
  have h38 : 38 ∉ entityReplace v := by
    rw [h]; intro hb; exact hw _ hb (by decide)
  rw [entityReplace_id h38] at h
  exact h

theorem start_entity {X : Bytes → Bool} (hX : ByMarker X) {v : Bytes} (h32 : (entityReplace v).head? ≠ some 32) (h : X (entityReplace v) = true) : X v = true := by
  obtain ⟨w, -, hw, -, hm, hz⟩ := hX _ h32 h
  refine hz _ ?_
  have hw' : ∀ b ∈ w, b ∉ b!"&ltg;" := fun b hb => (marker_chars (hw _ hb)).2.1
  rcases hm with hm | ⟨c, hc, hm⟩
  · exact .inl (entity_eq hw' hm)
  · refine .inr ⟨c, hc, entityReplace_prefix ?_ _ hm⟩
    intro b hb
    rw [List.mem_append, List.mem_singleton] at hb
    rcases hb with hb | rfl
    · exact hw' b hb
    · rcases hc with rfl | rfl | rfl <;> decide

theorem start_cut {X : Bytes → Bool} (hX : ByMarker X) {a b : Bytes} {c : UInt8} (hc : c ∈ [33, 42, 91, 95, 96]) (ha : a ≠ []) (h32 : a.head? ≠ some 32)
    (h : X (a ++ c :: b) = true) : X a = true := by
  obtain ⟨w, hne, hw, hlen, hm, hz⟩ := hX _ (by cases a with | nil => exact absurd rfl ha | cons x a => simpa using h32) h
  have hcw : a.length < w.length → c ∉ w := by
    intro hl hcw
    have h1 := (marker_chars (hw c hcw)).2.2
    have h42 : c = 42 := by
      simp only [List.mem_cons, List.not_mem_nil, or_false, not_or] at hc h1
      rcases hc with h | h | h | h | h
      · exact absurd h h1.1
      · exact h
      · exact absurd h h1.2.1
      · exact absurd h h1.2.2.1
      · exact absurd h h1.2.2.2
    subst h42
    rcases hlen with hlen | hlen
    · have : 0 < a.length := List.length_pos_iff.2 ha
      omega
    · exact hlen hcw
  refine hz _ ?_
  rcases hm with hm | ⟨d, hd, hm⟩
  · exfalso
    refine hcw ?_ ?_
    · rw [← hm]; simp
    · rw [← hm]; simp
  · right
    refine ⟨d, hd, ?_⟩
    have hcd : c ≠ d := by
      rintro rfl
      rcases hd with rfl | rfl | rfl <;> revert hc <;> decide
    rcases Nat.lt_trichotomy a.length w.length with hl | hl | hl
    · exfalso
      have hp : a ++ c :: b <+: w ++ [d] ∨ w ++ [d] <+: a ++ c :: b := .inr hm
      have : (w ++ [d])[a.length]? = some c := by
        have := List.prefix_iff_getElem?.1 hm a.length (by simp; omega)
        rw [List.getElem?_append_right (Nat.le_refl _), Nat.sub_self] at this
        rw [List.getElem?_eq_getElem (by simp; omega)]
        simpa using this.symm
      rw [List.getElem?_append_left hl] at this
      exact hcw hl (List.mem_of_getElem? this)
    · exfalso
      have := List.prefix_iff_getElem?.1 hm a.length (by simp; omega)
      rw [List.getElem?_append_right (Nat.le_refl _), Nat.sub_self, List.getElem_append_right (by omega)] at this
      simp at this
      exact hcd this
    · refine List.prefix_of_prefix_length_le hm (List.prefix_append a (c :: b)) ?_
      simp; omega

/-! ## Lines -/

theorem run_three (c : UInt8) (l : Bytes) : 3 ≤ (l.takeWhile (· == c)).length ↔ [c, c, c] <+: l := by
  constructor
  · intro h
    match l, h with
    | [], h => simp at h
    | [x], h => simp only [List.takeWhile_cons, List.takeWhile_nil] at h; split at h <;> simp at h
    | [x, y], h =>
      simp only [List.takeWhile_cons, List.takeWhile_nil] at h
      split at h
      · split at h <;> simp at h
      · simp at h
    | x :: y :: z :: l, h =>
      simp only [List.takeWhile_cons] at h
      split at h
      · rename_i hx
        split at h
        · rename_i hy
          split at h
          · rename_i hz
            have hx : x = c := by simpa using hx
            have hy : y = c := by simpa using hy
            have hz : z = c := by simpa using hz
            subst hx hy hz
            exact ⟨l, rfl⟩
          · simp at h
        · simp at h
      · simp at h
  · rintro ⟨r, rfl⟩
    simp

/-- Where a fence begins. -/
theorem fence_ren {D : Toks} (h : isFence (renToks D) = true) (h32 : (D.map Prod.snd).head? ≠ some 32) :
    ∃ c, (c = 96 ∨ c = 126) ∧ [c, c, c] <+: D.map Prod.snd := by
  have h32' : (renToks D).head? ≠ some 32 := by
    rcases renToks_head (D := D) with e | e
    · rw [e]; exact h32
    · rw [e]; decide
  rw [isFence, dropSpaces_of_head h32'] at h
  simp only [Bool.or_eq_true, decide_eq_true_eq, run_three] at h
  rcases h with h | h
  · exact ⟨96, .inl rfl, ren_prefix (by decide) h⟩
  · exact ⟨126, .inr rfl, ren_prefix (by decide) h⟩

/-- What is needed of a line in a quote. -/
theorem para_of {D : Toks} {u : Bytes} {spans : List Span} (hD : D.map Prod.snd = u) (hne : u ≠ []) (hb : ∀ b ∈ [0, 10, 13], b ∉ u)
    (hl : NoLeadingWhitespace u) (ht : NoTrailingWhitespace u) (hc : ¬ codeNewline <:+: u) (hh : ∀ c, u.head? = some c → c ≠ 60 ∧ c ≠ 62)
    (hread : ∀ f, (renToks D).length < f → readSpans f [] none (renToks D) = some (spans, [])) (h1 : isAtxHeading (renToks D) = false)
    (h2 : isBulletItem (renToks D) = false) (h3 : isOrderedItem (renToks D) = false) (h4 : isThematicBreak (renToks D) = false)
    (h5 : ∀ ls, readFenced (renToks D :: ls) = none) (h6 : First bullet (renToks D)) : ParaLine bullet spans (renToks D) := by
  have hmem : ∀ b ∈ renToks D, b = 92 ∨ b ∈ u := by
    intro b hb
    rw [renToks_by] at hb
    have := encBy_mem hb
    rwa [hD] at this
  have hnot : ∀ b ∈ [0, 10, 13], b ∉ renToks D := by
    intro b hb' hm
    rcases hmem b hm with e | hm
    · rw [e] at hb'; revert hb'; decide
    · exact hb b hb' hm
  have hlead : NoLeadingWhitespace (renToks D) := by
    rw [renToks_by]; exact encBy_noLeading ws_bs (by rw [hD]; exact hl)
  have htrail : NoTrailingWhitespace (renToks D) := by
    rw [renToks_by]; exact encBy_noTrailing ws_bs (by rw [hD]; exact ht)
  have hcode : ¬ codeNewline <:+: renToks D := by
    intro hc'
    rw [renToks_by] at hc'
    have := encBy_infix (by decide) (by decide) _ hc'
    rw [hD] at this
    exact hc this
  have hhead : ∀ c, (renToks D).head? = some c → c ≠ 60 ∧ c ≠ 62 := by
    intro c hc'
    rcases renToks_head (D := D) with e | e
    · rw [e, hD] at hc'; exact hh c hc'
    · rw [e] at hc'; cases hc'; decide
  obtain ⟨hb1, hb2⟩ := noLeading_head hlead
  have hlast := noTrailing_last htrail
  refine ⟨?_, ⟨hb1, hb2⟩, ⟨fun e => (hhead 60 e).1 rfl, fun e => (hhead 62 e).2 rfl⟩, h4, readAtx_none hb1 h1, h5,
    readMarker_none hb1 h2 h3, ⟨h2, h3⟩, ?_, h6, ⟨hnot 10 (by decide), hnot 13 (by decide), hnot 0 (by decide)⟩, hcode, hlead, htrail⟩
  · intro e
    obtain ⟨x, hx⟩ := List.exists_mem_of_ne_nil _ hne
    have := mem_renToks (D := D) (x := x) (by rw [hD]; exact hx)
    rw [e] at this; cases this
  · rw [readInline, trimBlank_self ⟨hb1, hb2⟩ hlast, hread _ (by omega)]
    rfl

/-- The loop behind the marker of a quote. -/
theorem ren_quoted (hst : IsStock dig hs) {X : List Tok} (hn : NL ∉ (flatX X).map Prod.snd) :
    renToks (W hs [32, 62] 0 (flatX X)) = renToks (P hs [32, 62] X []) := by
  rw [W_within hst _ _ (by decide) hn, ren_embed]

/-- A text in a quote. -/
theorem para_quoted (hst : IsStock dig hs) {v : Bytes} (hbul : bullet ∈ [b!"-", b!"+", b!"*"]) (h : Text bullet v) (hno : NoStart v) :
    ParaLine bullet [.text v] (renToks (W hs [32, 62] 0 (textToks (entityReplace v)))) := by
  have hS : StyleOK (⟨b!"-", 42, 42, id⟩ : Style) := by constructor <;> simp
  have hflat : flatX (textX v) = textToks (entityReplace v) := by rw [textX, flat_embed]
  have e1 := ren_quoted hst (X := textX v) (by rw [hflat, h.toks_snd]; exact h.u_nl)
  rw [hflat] at e1
  have hseg := textX_seg h.toCharsOK ⟨h.no_tab, h.no_nl, h.no_cr, h.no_two⟩
  have hD : (P hs [32, 62] (textX v) []).map Prod.snd = entityReplace v := (P_snd _ _ _).trans hseg.bytes
  have hread := read_rest hst hS (k := false) (ctx := []) (fun c n hm => by cases hm) (fun h => by cases h) [] h.toCharsOK
    ⟨h.no_tab, h.no_nl, h.no_cr, h.no_two⟩ (fun _ _ hm => by cases hm) (by rw [RestOK]; trivial)
    (Z := []) Fine.nil (.inl ⟨rfl, rfl⟩) (fun prev rev f hf => by cases f with | zero => simp at hf | succ f => rfl) (prev := none) (.inr rfl) [32, 62]
  rw [e1]
  obtain ⟨hb1, hb2⟩ := noLeading_head h.u_leading
  have h32 : ((P hs [32, 62] (textX v) []).map Prod.snd).head? ≠ some 32 := by rw [hD]; exact hb1
  have st3 : ∀ X, ByMarker X → X v = false → X (renToks (P hs [32, 62] (textX v) [])) = false := by
    intro X hX hv
    rw [← Bool.not_eq_true]
    intro hx
    have := start_ren hX h32 hx
    rw [hD] at this
    rw [start_entity hX hb1 this] at hv
    cases hv
  have hth : isThematicBreak (renToks (P hs [32, 62] (textX v) [])) = false := by
    rw [← Bool.not_eq_true]
    intro hx
    have hall : ∀ b ∈ renToks (P hs [32, 62] (textX v) []), b ∈ [32, 9, 45, 95, 42] := by
      intro b hb
      apply Classical.byContradiction
      intro hn
      rw [thematic_none hb hn] at hx
      cases hx
    have e := ren_eq (D := P hs [32, 62] (textX v) []) (fun hb => absurd (hall _ hb) (by decide)) rfl
    rw [hD] at e
    have e2 := entity_eq (fun b hb => by
      have := hall b hb
      revert this
      exact forall_u8 (P := fun b => b ∈ [32, 9, 45, 95, 42] → b ∉ b!"&ltg;") (by decide +kernel) b) e
    rw [← e2, hno.rule] at hx
    cases hx
  have hbi := st3 _ bullet_marker hno.bullet
  refine para_of hD h.u_ne ?_ h.u_leading h.u_trailing h.u_mark ?_ ?_ (st3 _ atx_marker hno.heading) hbi
    (st3 _ ordered_marker hno.ordered) hth ?_ ?_
  · intro b hb
    simp only [List.mem_cons, List.not_mem_nil, or_false] at hb
    rcases hb with rfl | rfl | rfl
    · exact h.u_nul
    · exact h.u_nl
    · exact h.u_cr
  · intro c hc
    have := entityReplace_not v
    refine ⟨?_, ?_⟩
    · rintro rfl; exact this.1 (List.mem_of_mem_head? hc)
    · rintro rfl; exact this.2 (List.mem_of_mem_head? hc)
  · intro f hf
    rw [restX, List.append_nil, List.append_nil] at hread
    have := hread f hf
    rw [spansRest, textSpans, if_neg h.nonempty] at this
    exact this
  · intro ls
    refine readFenced_none ?_ ?_ ls
    · rcases renToks_head (D := P hs [32, 62] (textX v) []) with e | e
      · rw [e]; exact h32
      · rw [e]; decide
    · rw [← Bool.not_eq_true]
      intro hf
      obtain ⟨c, hc, r, hr⟩ := fence_ren hf h32
      rw [hD] at hr
      have h2 := h.no_fence
      rw [← fence_entity, startsWithFenceChars, dropSpaces_of_head hb1, ← hr] at h2
      rcases hc with rfl | rfl <;> simp at h2
  · by_cases hp : bullet = [43]
    · exact .inl hp
    · right
      apply Classical.byContradiction
      intro hnb
      obtain ⟨b, rfl, hb⟩ : ∃ b, bullet = [b] ∧ (b = 45 ∨ b = 42) := by
        simp at hbul
        rcases hbul with rfl | rfl | rfl
        · exact ⟨45, rfl, .inl rfl⟩
        · exact absurd rfl hp
        · exact ⟨42, rfl, .inr rfl⟩
      have hall : ∀ x ∈ renToks (P hs [32, 62] (textX v) []), x = b ∨ x = 32 ∨ x = 9 := by
        intro x hx
        apply Classical.byContradiction
        intro hc
        simp only [not_or] at hc
        exact hnb ⟨x, hx, by simpa using hc.1, hc.2⟩
      have hlead : NoLeadingWhitespace (renToks (P hs [32, 62] (textX v) [])) := by
        rw [renToks_by]; exact encBy_noLeading ws_bs (by rw [hD]; exact h.u_leading)
      have htrail : NoTrailingWhitespace (renToks (P hs [32, 62] (textX v) [])) := by
        rw [renToks_by]; exact encBy_noTrailing ws_bs (by rw [hD]; exact h.u_trailing)
      have hne : renToks (P hs [32, 62] (textX v) []) ≠ [] := by
        intro e
        have := ren_eq (by simp) e
        rw [hD] at this
        exact h.u_ne this
      have e := bullets_only hb hne hall (noLeading_head hlead) (noTrailing_last htrail) hth hbi
      have e2 := ren_eq (by rcases hb with rfl | rfl <;> decide) e
      rw [hD] at e2
      have e3 := entity_eq (by rcases hb with rfl | rfl <;> decide) e2
      exact h.no_bullets e3

/-- Behind the first character of an element it does not matter whether there is a quote. -/
theorem elem_quoted (hst : IsStock dig hs) (hS : StyleOK st) {rest : List (Inl × Bytes)} {v0 : Bytes} (hne : rest ≠ []) (hok : RestOK st [] v0 rest)
    (hn : NL ∉ (restX st false rest).map Tok.byte) : P hs [32, 62] (restX st false rest) [] = P hs [] (restX st false rest) [] := by
  obtain ⟨c, X', e, hc⟩ := rest_start hS (k := false) hok hne
  have hin : ∀ rev, digitsToLineStart (c :: rev) = false := by
    intro rev
    have : c ≠ NL ∧ c ≠ SP ∧ c ≠ MARK ∧ isDigitByte c = false := by
      revert hc
      exact forall_u8 (P := fun c => c ∈ [33, 42, 91, 95, 96] → c ≠ NL ∧ c ≠ SP ∧ c ≠ MARK ∧ isDigitByte c = false) (by decide +kernel) c
    rw [digitsToLineStart, if_neg this.1, if_neg this.2.1, if_neg this.2.2.1, if_neg (by simp [this.2.2.2])]
  rw [e] at hn ⊢
  rw [List.map_cons, List.mem_cons, not_or] at hn
  rw [P, P, P_inside hst [] _ _ _ (hin _) (hin _) hn.2]

/-- A paragraph with elements in a quote. -/
theorem rich_quoted (hst : IsStock dig hs) (hS : StyleOK st) (hbul : bullet ∈ [b!"-", b!"+", b!"*"]) {first : Bytes}
    {rest : List (Inl × Bytes)} (h : RichOK st first rest) (hno : NoStart (shownFirst first)) :
    ParaLine bullet (textSpans (shownFirst first) ++ spansRest st.resolve rest) (renToks (W hs [32, 62] 0 (flatX (richX st first rest)))) := by
  have hok := h.elements
  have hf := rich_fine hS h
  have hX := textX_seg h.chars (shownFirst_seen first)
  have hbytes : ∀ b ∈ [0, 10, 13], b ∉ (richX st first rest).map Tok.byte := by
    intro b hb hm
    obtain ⟨x, hx, e⟩ := List.mem_map.1 hm
    refine hf.bytes x hx ?_
    rw [e]
    revert hb
    exact forall_u8 (P := fun b => b ∈ [0, 10, 13] → b ∈ [0, 7, 10, 13]) (by decide +kernel) b
  have hnl : NL ∉ (flatX (richX st first rest)).map Prod.snd := by
    rw [flat_snd]
    intro hm
    rcases encBy_mem hm with hm | hm
    · exact absurd hm (by decide)
    · rw [escT_snd] at hm; exact hbytes 10 (by decide) hm
  rw [ren_quoted hst hnl]
  have hD : (P hs [32, 62] (richX st first rest) []).map Prod.snd = (richX st first rest).map Tok.byte := P_snd _ _ _
  have hu : (richX st first rest).map Tok.byte = entityReplace (shownFirst first) ++ (restX st false rest).map Tok.byte := by
    rw [richX, List.map_append, hX.bytes]
  have hl := rich_leading hS h
  obtain ⟨hb1, hb2⟩ := noLeading_head hl
  obtain ⟨x, hx, hx2⟩ := rich_visible h
  have hxl : x ∈ renToks (P hs [32, 62] (richX st first rest) []) := mem_renToks (by rw [hD]; exact hx)
  have h32 : ((P hs [32, 62] (richX st first rest) []).map Prod.snd).head? ≠ some 32 := by rw [hD]; exact hb1
  have h32' : (renToks (P hs [32, 62] (richX st first rest) [])).head? ≠ some 32 := by
    rcases renToks_head (D := P hs [32, 62] (richX st first rest) []) with e | e
    · rw [e]; exact h32
    · rw [e]; decide
  have hblocks : isAtxHeading (renToks (P hs [32, 62] (richX st first rest) [])) = false ∧
      isBulletItem (renToks (P hs [32, 62] (richX st first rest) [])) = false ∧
      isOrderedItem (renToks (P hs [32, 62] (richX st first rest) [])) = false ∧
      ∀ ls, readFenced (renToks (P hs [32, 62] (richX st first rest) []) :: ls) = none := by
    by_cases hv : shownFirst first = []
    · have e : richX st first rest = restX st false rest := by rw [richX, hv, textX_nil, List.nil_append]
      have hn := hbytes 10 (by decide)
      rw [e] at hn ⊢
      rw [elem_quoted hst hS h.nonempty hok hn]
      exact rich_elem_line hS h.nonempty hok rfl
    · obtain ⟨c, R, eR, hc⟩ : ∃ c R, (restX st false rest).map Tok.byte = c :: R ∧ c ∈ [33, 42, 91, 95, 96] := by
        obtain ⟨c, X', e, hc⟩ := rest_start hS (k := false) hok h.nonempty
        exact ⟨c, _, by rw [e]; rfl, hc⟩
      have hene : entityReplace (shownFirst first) ≠ [] := fun e => hv (entityReplace_eq_nil e)
      have he32 : (entityReplace (shownFirst first)).head? ≠ some 32 := by
        rw [hu] at hb1
        cases he : entityReplace (shownFirst first) with
        | nil => exact absurd he hene
        | cons y s => rw [he] at hb1; simpa using hb1
      have st3 : ∀ X, ByMarker X → X (shownFirst first) = false → X (renToks (P hs [32, 62] (richX st first rest) [])) = false := by
        intro X hX hv
        rw [← Bool.not_eq_true]
        intro hx
        have := start_ren hX h32 hx
        rw [hD, hu, eR] at this
        rw [start_entity hX he32 (start_cut hX hc hene he32 this)] at hv
        cases hv
      refine ⟨st3 _ atx_marker hno.heading, st3 _ bullet_marker hno.bullet, st3 _ ordered_marker hno.ordered, fun ls => readFenced_none h32' ?_ ls⟩
      rw [← Bool.not_eq_true]
      intro hfe
      obtain ⟨c, hc, r, hr⟩ := fence_ren hfe h32
      rw [hD, hu] at hr
      have : (entityReplace (shownFirst first)).head? = some c := by
        cases he : entityReplace (shownFirst first) with
        | nil => exact absurd he hene
        | cons y s => rw [he] at hr; have := (List.cons.inj hr).1; rw [this]; rfl
      have := seg_no_fence h.no_fence c this
      rcases hc with rfl | rfl
      · exact this.1 rfl
      · exact this.2 rfl
  obtain ⟨q1, q2, q3, q4⟩ := hblocks
  refine para_of hD ?_ hbytes hl (rich_trailing hS h) (rich_code hS h) ?_ ?_ q1 q2 q3 (thematic_none hxl hx2) q4 ?_
  · intro e; rw [e] at hx; cases hx
  · intro c hc
    rw [hu] at hc
    cases he : entityReplace (shownFirst first) with
    | nil =>
      rw [he, List.nil_append] at hc
      have := (rest_facts hS false rest hok).head c hc
      revert this
      exact forall_u8 (P := fun c => c ∈ [33, 42, 91, 95, 96] → c ≠ 60 ∧ c ≠ 62) (by decide +kernel) c
    | cons b s =>
      rw [he] at hc
      cases hc
      have := entityReplace_not (shownFirst first)
      rw [he] at this
      simp at this
      grind
  · exact rich_read hst hS h [32, 62]
  · by_cases hp : bullet = [43]
    · exact .inl hp
    · right
      simp only [List.mem_cons, List.not_mem_nil, or_false, not_or] at hx2
      refine ⟨x, hxl, ?_, hx2.1, hx2.2.1⟩
      simp at hbul
      rcases hbul with rfl | rfl | rfl
      · simp [hx2]
      · exact absurd rfl hp
      · simp [hx2]

/-! ## Pieces -/

theorem unl_one (l : Bytes) : unl [l] = l := rfl

theorem quoted_mark {ts : Toks} {rev : Bytes} (hm : WF ts) : MARK ∉ renToks (W hs rev 0 ts) := by
  intro hb
  rw [renToks_by] at hb
  rcases encBy_mem hb with hb | hb
  · exact absurd hb (by decide)
  · rw [W_snd, List.mem_map] at hb
    obtain ⟨t, ht, e⟩ := hb
    exact (hm t ht).1 e

theorem qok_para {p : Piece} {spans : List Span} (hmd : p.md = [.paragraph spans]) (hil : p.isList = false) (hnl : NL ∉ p.toks.map Prod.snd)
    (hc : p.flat) (hm : WF p.toks) (hl : ParaLine bullet spans (renToks (W hs [32, 62] 0 p.toks))) : QOK hs bullet p := by
  refine ⟨?_, hc⟩
  have e : p.quoted hs = rawPiece (renToks (W hs [32, 62] 0 p.toks)) [.paragraph spans] false := by
    rw [Piece.quoted, qlines_one hnl, unl_one, hmd, hil]
  rw [e]
  have hwf := rawPiece_wf (quoted_mark (hs := hs) (rev := [32, 62]) hm) [.paragraph spans] false
  have hso := solid_line hl.nonempty hl.leading hl.trailing hl.bytes.1 hl.code
  have ef : (rawPiece (renToks (W hs [32, 62] 0 p.toks)) [.paragraph spans] false).fin hs = [renToks (W hs [32, 62] 0 p.toks)] :=
    fin_line (rawPiece_out _ _ _) hl.bytes.1 hl.code
  refine ⟨hwf, by rwa [rawPiece_raw], by rwa [rawPiece_out], ?_, ?_, by rw [rawPiece_out]; exact hl.bytes.2, out_mark hwf⟩
  · rw [ef]; exact reads_para hl
  · rw [ef]; exact ⟨_, _, rfl, hl.visible, hl.first, fun _ => .inl hl.marker⟩

theorem snd_enc {ts : Toks} {b : UInt8} (h : b ∈ ts.map Prod.snd) : b ∈ encToks ts := by
  rw [List.mem_map] at h
  obtain ⟨t, ht, e⟩ := h
  rw [encToks, List.mem_flatMap]
  refine ⟨t, ht, ?_⟩
  rw [e]
  split <;> simp

theorem qok_atx {n : Nat} (h1 : 1 ≤ n) {spans : List Span} {T : Toks} (hst : IsStock dig hs) (hbul : bullet ∈ [b!"-", b!"+", b!"*"]) (h : AtxLine hs n spans T) :
    QOK hs bullet (Piece.mk T [.heading n spans] false) := by
  refine qok_same (atx_ok h1 hbul h) ?_ h.code
  have hnl : NL ∉ T.map Prod.snd := fun hm => h.no_nl (snd_enc hm)
  rw [Piece.out, qlines_one hnl, unl_one]
  congr 1
  obtain ⟨x, ex⟩ := h.enc
  cases T with
  | nil => cases ex
  | cons t T =>
    obtain ⟨m, c⟩ := t
    cases m with
    | true => rw [encToks_cons_t] at ex; exact absurd (List.cons.inj ex).1 (by decide)
    | false =>
      rw [encToks_cons_f] at ex
      have hc := (List.cons.inj ex).1
      subst hc
      rw [List.map_cons, List.mem_cons, not_or] at hnl
      rw [W, W, W_inside hst (rev := 35 :: [32, 62]) (rev' := [35]) (by decide) (by decide) hnl.2]

theorem flat_setext {n : Nat} {spans : List Span} {ts T : Toks} (h : SetextLines hs bullet n spans ts T)
    (hc : ¬ codeNewline <:+: ts.map Prod.snd) : (Piece.mk T [.heading n spans] false).flat := by
  obtain ⟨hnl, u, rfl, hu, hh, hb⟩ := h.shape
  have hune : u ≠ [] := by rintro rfl; simp at hh
  obtain ⟨u1, u2, u3, u4, u5⟩ := underline_facts hune hb
  intro hi
  have e : (ts ++ (false, NL) :: u.map ((false, ·) : UInt8 → Bool × UInt8)).map Prod.snd = unl [ts.map Prod.snd, u] := by
    rw [List.map_append, List.map_cons, List.map_map]
    have : u.map (Prod.snd ∘ ((false, ·) : UInt8 → Bool × UInt8)) = u := List.map_id _
    rw [this]; rfl
  rw [e] at hi
  obtain ⟨l, h1, h2⟩ := code_unl hi
  simp only [List.mem_cons, List.not_mem_nil, or_false] at h1
  rcases h1 with rfl | rfl
  · exact hc h2
  · exact u5 h2

theorem qok_setext {n : Nat} (hn : n = 1 ∨ n = 2) {spans : List Span} {ts T : Toks} (h : SetextLines hs bullet n spans ts T)
    (hc : ¬ codeNewline <:+: ts.map Prod.snd) (hl : ParaLine bullet spans (renToks (W hs [32, 62] 0 ts))) :
    QOK hs bullet (Piece.mk T [.heading n spans] false) := by
  have hflat := flat_setext h hc
  obtain ⟨hnl, u, rfl, hu, hh, hb⟩ := h.shape
  have hune : u ≠ [] := by rintro rfl; simp at hh
  obtain ⟨u1, u2, u3, u4, u5⟩ := underline_facts hune hb
  have hwt : WF ts := (WF.append.1 h.wf).1
  have hmu : MARK ∉ u := fun hm => by rcases hb _ hm with h | h <;> exact absurd h (by decide)
  have hq : qlines hs (ts ++ (false, NL) :: u.map (false, ·)) = [renToks (W hs [32, 62] 0 ts), u] := by
    have hu2 : NL ∉ (u.map ((false, ·) : UInt8 → Bool × UInt8)).map Prod.snd := by
      rw [List.map_map]
      have : u.map (Prod.snd ∘ ((false, ·) : UInt8 → Bool × UInt8)) = u := List.map_id _
      rw [this]; exact u2
    rw [qlines_append, qlines_one hnl]
    have := qlines_raw (hs := hs) u
    rw [qlines_one hu2, unl_one] at this
    rw [qlines_one hu2, this]
    rfl
  refine ⟨?_, hflat⟩
  · have e : (Piece.mk (ts ++ (false, NL) :: u.map (false, ·)) [.heading n spans] false).quoted hs =
        rawPiece (renToks (W hs [32, 62] 0 ts) ++ 10 :: u) [.heading n spans] false := by
      rw [Piece.quoted]
      simp only []
      rw [hq]; rfl
    rw [e]
    have hwf := rawPiece_wf (s := renToks (W hs [32, 62] 0 ts) ++ 10 :: u) (by
      rw [List.mem_append, List.mem_cons, not_or, not_or]
      exact ⟨quoted_mark hwt, by decide, hmu⟩) [.heading n spans] false
    have hso := solid_two hl.nonempty hl.leading hl.trailing hl.bytes.1 hl.code hune u1 u2 u5
    have ef : (rawPiece (renToks (W hs [32, 62] 0 ts) ++ 10 :: u) [.heading n spans] false).fin hs = [renToks (W hs [32, 62] 0 ts), u] := by
      rw [Piece.fin, rawPiece_out, restore_cut (by decide), restoreCodeNewlines, restoreCodeNewlines, replaceAll_id hl.code, replaceAll_id u5, lines,
        splitOn_append, splitOn_of_no_sep hl.bytes.1, splitOn_of_no_sep u2]
      rfl
    refine ⟨hwf, by rwa [rawPiece_raw], by rwa [rawPiece_out], ?_, ?_, ?_, out_mark hwf⟩
    · rw [ef]; exact reads_setext hl hu hn hh
    · rw [ef]; exact ⟨_, _, rfl, hl.visible, hl.first, fun _ => .inl hl.marker⟩
    · rw [rawPiece_out]; simp [hl.bytes, u3, u4]

theorem flat_text {v : Bytes} (h : Text bullet v) : (paraPiece v).flat := by
  rw [Piece.flat, paraPiece, h.toks_snd]; exact h.u_mark

/-- Text in a quote. -/
theorem qok_text (hst : IsStock dig hs) {v : Bytes} (hbul : bullet ∈ [b!"-", b!"+", b!"*"]) (h : Text bullet v) (hno : NoStart v) :
    QOK hs bullet (paraPiece v) :=
  qok_para rfl rfl (by rw [paraPiece, h.toks_snd]; exact h.u_nl) (by rw [Piece.flat, paraPiece, h.toks_snd]; exact h.u_mark) h.wf
    (para_quoted hst hbul h hno)

theorem rich_flat (hS : StyleOK st) {first : Bytes} {rest : List (Inl × Bytes)} (h : RichOK st first rest) :
    ¬ codeNewline <:+: (flatX (richX st first rest)).map Prod.snd := by
  intro hi
  rw [flat_snd] at hi
  have := encBy_infix (by decide) (by decide) _ hi
  rw [escT_snd] at this
  exact rich_code hS h this

/-- A paragraph with elements in a quote. -/
theorem qok_rich (hst : IsStock dig hs) (hS : StyleOK st) (hbul : bullet ∈ [b!"-", b!"+", b!"*"]) {first : Bytes}
    {rest : List (Inl × Bytes)} (h : RichOK st first rest) (hno : NoStart (shownFirst first)) : QOK hs bullet (richPiece st first rest) := by
  obtain ⟨-, -, -, r4, -⟩ := rich_enc hS h
  exact qok_para rfl rfl (fun hm => r4 (snd_enc hm)) (rich_flat hS h) (rich_fine hS h).wf (rich_quoted hst hS hbul h hno)

end Verif.Page
