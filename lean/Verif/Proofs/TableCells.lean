import Verif.Proofs.Table
import Verif.Proofs.EscapeText
/-!
# Lemmas about tables: reading rows, content of cells
-/

namespace Verif.Table
open Verif Escape

set_option linter.unusedSimpArgs false
set_option linter.unnecessarySimpa false

/-! ## Rows -/

theorem pointwise_map {α β : Type} {R : α → β → Prop} (f : α → β) : ∀ (l : List α), (∀ a ∈ l, R a (f a)) →
    Spec.Pointwise R l (l.map f)
  | [], _ => .nil
  | a :: l, h => .cons (h a (by simp)) (pointwise_map f l fun b hb => h b (by simp [hb]))

theorem tableRows_ne {cfg : Config} {un : Bytes → Bytes} {header : Option (List RawCell)}
    {normal : List (List RawCell)} {rows : List (List Bytes)} (h : tableRows cfg un header normal = some rows) : rows ≠ [] := by
  simp only [tableRows] at h
  split at h
  · simp at h
  rename_i hne
  split at h
  · cases h; simpa using hne
  split at h
  · simp at h
  · cases h; exact hne

theorem tableRows_no_newline {cfg : Config} {un : Bytes → Bytes} {header : Option (List RawCell)}
    {normal : List (List RawCell)} {rows : List (List Bytes)} (h : tableRows cfg un header normal = some rows) :
    ∀ r ∈ rows, ∀ c ∈ r, NL ∉ c := by
  simp only [tableRows] at h
  split at h
  · simp at h
  split at h
  · cases h
    intro r hr c hc
    obtain ⟨r', _, rfl⟩ := List.mem_map.1 hr
    obtain ⟨c', _, rfl⟩ := List.mem_map.1 hc
    rw [replaceAll_one]
    intro hm
    obtain ⟨b, _, hb⟩ := List.mem_flatMap.1 hm
    split at hb
    · exact absurd hb (by decide)
    · rename_i hne; simp at hb; exact hne hb.symm
  split at h
  · simp at h
  · rename_i hn
    cases h
    intro r hr c hc hm
    apply hn
    simp only [List.any_eq_true]
    exact ⟨r, hr, c, hc, by simpa using hm⟩

theorem written_no_newline {cells : List Bytes} {line : Bytes} (hw : Spec.WrittenRow cells line) (h : ∀ c ∈ cells, NL ∉ c) :
    NL ∉ line := by
  obtain ⟨pads, _, rfl⟩ := hw
  intro hm
  rcases List.mem_append.1 hm with hm | hm
  · split at hm
    · simp at hm
    · exact absurd hm (by decide)
  · obtain ⟨⟨c, l, r⟩, hz, hm⟩ := List.mem_flatMap.1 hm
    have hc := h c (List.of_mem_zip hz).1
    simp only [List.mem_append, List.mem_replicate, List.mem_singleton] at hm
    rcases hm with ((⟨-, hm⟩ | hm) | ⟨-, hm⟩) | hm
    · exact absurd hm (by decide)
    · exact hc hm
    · exact absurd hm (by decide)
    · exact absurd hm (by decide)

/-! ## Reading a row -/

theorem cutPipes_safe : ∀ (s acc rest : Bytes), Spec.pipeSafe s = true →
    Spec.cutPipes acc (s ++ 124 :: rest) = (acc.reverse ++ s) :: Spec.cutPipes [] rest
  | [], acc, rest, _ => by
    cases rest <;> simp [Spec.cutPipes]
  | [b], acc, rest, h => by
    simp only [Spec.pipeSafe, Bool.and_eq_true, bne_iff_ne, ne_eq] at h
    simp only [List.cons_append, List.nil_append, Spec.cutPipes, h, if_false]
    cases rest <;> simp [Spec.cutPipes]
  | b :: c :: s, acc, rest, h => by
    simp only [Spec.pipeSafe] at h
    simp only [List.cons_append, Spec.cutPipes]
    by_cases hb : b = 92
    · simp only [hb, if_true] at h ⊢
      rw [cutPipes_safe s _ _ h]
      simp
    · simp only [hb, if_false, Bool.and_eq_true, bne_iff_ne, ne_eq] at h ⊢
      simp only [h.1, if_false]
      rw [← List.cons_append, cutPipes_safe (c :: s) _ _ h.2]
      simp

theorem pipeSafe_cons {b : UInt8} (h1 : b ≠ 92) (h2 : b ≠ 124) (s : Bytes) : Spec.pipeSafe (b :: s) = Spec.pipeSafe s := by
  cases s <;> simp [Spec.pipeSafe, h1, h2]

theorem pipeSafe_append : ∀ (a b : Bytes), Spec.pipeSafe a = true → Spec.pipeSafe (a ++ b) = Spec.pipeSafe b
  | [], b, _ => rfl
  | [x], b, h => by
    simp only [Spec.pipeSafe, Bool.and_eq_true, bne_iff_ne, ne_eq] at h
    exact pipeSafe_cons h.1 h.2 b
  | x :: y :: a, b, h => by
    simp only [Spec.pipeSafe] at h
    simp only [List.cons_append, Spec.pipeSafe]
    by_cases hx : x = 92
    · simp only [hx, if_true] at h ⊢; exact pipeSafe_append a b h
    · simp only [hx, if_false, Bool.and_eq_true, bne_iff_ne, ne_eq] at h ⊢
      rw [← List.cons_append, pipeSafe_append (y :: a) b h.2]; simp [h.1]

theorem pipeSafe_spaces (n : Nat) : Spec.pipeSafe (List.replicate n 32) = true := by
  induction n with
  | zero => rfl
  | succ n ih => rw [List.replicate_succ, pipeSafe_cons (by decide) (by decide), ih]

theorem dropWhile_replicate (n : Nat) (s : Bytes) : (List.replicate n (32 : UInt8) ++ s).dropWhile (· == 32) = s.dropWhile (· == 32) := by
  induction n with
  | zero => rfl
  | succ n ih => simpa [List.replicate_succ] using ih

theorem dropWhile_spaces_end (c : Bytes) (n : Nat) :
    (c ++ List.replicate n (32 : UInt8)).dropWhile (· == 32) =
      if c.dropWhile (· == 32) = [] then [] else c.dropWhile (· == 32) ++ List.replicate n 32 := by
  induction c with
  | nil => simp
  | cons b c ih =>
    by_cases hb : b = 32
    · simpa [hb] using ih
    · simp [hb, List.dropWhile_cons]

theorem stripSpaces_pads (l r : Nat) (c : Bytes) :
    Spec.stripSpaces (List.replicate l 32 ++ c ++ List.replicate r 32) = Spec.stripSpaces c := by
  unfold Spec.stripSpaces
  rw [List.append_assoc, dropWhile_replicate, dropWhile_spaces_end]
  split
  · rename_i h; simp [h]
  · rw [List.reverse_append, List.reverse_replicate, dropWhile_replicate]

theorem cutPipes_row : ∀ (segs : List Bytes), (∀ s ∈ segs, Spec.pipeSafe s = true) →
    Spec.cutPipes [] (segs.flatMap (· ++ [124])) = segs ++ [[]]
  | [], _ => rfl
  | s :: segs, h => by
    rw [List.flatMap_cons, List.append_assoc, List.singleton_append, cutPipes_safe s _ _ (h s (by simp)),
      cutPipes_row segs (fun x hx => h x (by simp [hx]))]
    simp

theorem rowCells_segs (segs : List Bytes) (h : ∀ s ∈ segs, Spec.pipeSafe s = true) :
    Spec.rowCells ([124] ++ segs.flatMap (· ++ [124])) = segs.map Spec.stripSpaces := by
  have h1 := cutPipes_safe [] [] (segs.flatMap (· ++ [124])) rfl
  simp only [List.nil_append, List.reverse_nil] at h1
  rw [Spec.rowCells, List.singleton_append, h1, cutPipes_row segs h]
  simp

theorem rowCells_written {cells : List Bytes} {line : Bytes} (hw : Spec.WrittenRow cells line) (hne : cells ≠ [])
    (h : ∀ c ∈ cells, Spec.pipeSafe c = true) : Spec.rowCells line = cells.map Spec.stripSpaces := by
  obtain ⟨pads, hl, rfl⟩ := hw
  let segs := (cells.zip pads).map fun (c, l, r) => List.replicate l 32 ++ c ++ List.replicate r 32
  have h1 : ((cells.zip pads).flatMap fun (c, l, r) => List.replicate l 32 ++ c ++ List.replicate r 32 ++ [124]) =
      segs.flatMap (· ++ [124]) := by
    simp only [segs, List.flatMap_map]
  rw [h1]
  simp only [hne, if_false]
  rw [rowCells_segs segs]
  · simp only [segs, List.map_map]
    rw [← List.map_fst_zip (l₁ := cells) (l₂ := pads) (by omega)]
    rw [List.map_map]
    congr 1
    · funext x; exact stripSpaces_pads _ _ _
    · rw [List.map_fst_zip (by omega)]
  · intro s hs
    simp only [segs, List.mem_map] at hs
    obtain ⟨⟨c, l, r⟩, hm, rfl⟩ := hs
    simp only
    rw [List.append_assoc, pipeSafe_append _ _ (pipeSafe_spaces l), pipeSafe_append _ _ (h c (List.of_mem_zip hm).1)]
    exact pipeSafe_spaces r

theorem pipeSafe_delimiterCell (l r : Bool) (n : Nat) : Spec.pipeSafe (Spec.delimiterCell l r n) = true := by
  have h : ∀ n : Nat, Spec.pipeSafe (List.replicate n 45) = true := by
    intro n; induction n with
    | zero => rfl
    | succ n ih => rw [List.replicate_succ, pipeSafe_cons (by decide) (by decide), ih]
  unfold Spec.delimiterCell
  cases l <;> cases r <;> simp only [if_true, if_false, Bool.false_eq_true, List.append_assoc, List.nil_append, List.append_nil]
  · exact h _
  · rw [pipeSafe_append _ _ (h _)]; rfl
  · rw [pipeSafe_append _ _ rfl]; exact h _
  · rw [pipeSafe_append _ _ rfl, pipeSafe_append _ _ (h _)]; rfl

theorem rowCells_delimiter (cols : List (Bool × Bool × Nat)) (hne : cols ≠ []) :
    Spec.rowCells (Spec.delimiterRow cols) = cols.map fun (l, r, n) => Spec.stripSpaces (Spec.delimiterCell l r n) := by
  have h1 : (cols.flatMap fun (l, r, n) => Spec.delimiterCell l r n ++ [124]) =
      (cols.map fun (l, r, n) => Spec.delimiterCell l r n).flatMap (· ++ [124]) := by
    simp only [List.flatMap_map]
  rw [Spec.delimiterRow, h1]
  simp only [hne, if_false]
  rw [rowCells_segs _]
  · simp only [List.map_map]; rfl
  · intro s hs
    simp only [List.mem_map] at hs
    obtain ⟨⟨l, r, n⟩, _, rfl⟩ := hs
    exact pipeSafe_delimiterCell l r n

/-! ## Content of a cell -/

/-- Tokens in which pipes and backslashes are marked. -/
def PipesMarked (ts : Toks) : Prop := ∀ t ∈ ts, t.1 = false → t.2 ≠ 92 ∧ t.2 ≠ 124

theorem markedText_toks {s : Bytes} (h : Spec.MarkedText s) :
    ∃ ts, encToks ts = s ∧ WF ts ∧ PipesMarked ts ∧ ∀ t ∈ ts, t.1 = true → 32 < t.2 ∧ t.2 < 128 := by
  induction h with
  | nil => exact ⟨[], rfl, by simp [WF], by simp [PipesMarked], by simp⟩
  | plain h1 h2 h3 _ ih =>
    obtain ⟨ts, rfl, hw, hp, ha⟩ := ih
    rename_i b _
    refine ⟨(false, b) :: ts, rfl, ?_, ?_, ?_⟩
    · intro t ht
      rcases List.mem_cons.1 ht with rfl | ht
      · exact ⟨h1, by simp⟩
      · exact hw t ht
    · intro t ht
      rcases List.mem_cons.1 ht with rfl | ht
      · intro _; exact ⟨h2, h3⟩
      · exact hp t ht
    · intro t ht
      rcases List.mem_cons.1 ht with rfl | ht
      · simp
      · exact ha t ht
  | marked h1 h4 _ ih =>
    obtain ⟨ts, rfl, hw, hp, ha⟩ := ih
    rename_i c _
    refine ⟨(true, c) :: ts, rfl, ?_, ?_, ?_⟩
    · intro t ht
      rcases List.mem_cons.1 ht with rfl | ht
      · have : ∀ c : UInt8, 32 < c → c ≠ NL ∧ c ≠ SP ∧ c ≠ MARK := forall_u8 (by decide +kernel)
        have := this c h1
        exact ⟨this.2.2, fun _ => this⟩
      · exact hw t ht
    · intro t ht
      rcases List.mem_cons.1 ht with rfl | ht
      · simp
      · exact hp t ht
    · intro t ht
      rcases List.mem_cons.1 ht with rfl | ht
      · intro _; exact ⟨h1, h4⟩
      · exact ha t ht

/-- The tokens after marked pipes have been replaced. -/
def pipeToks (ts : Toks) : Toks := ts.flatMap fun t => if t = (true, 124) then [(false, 92), (false, 124)] else [t]

theorem replacePipe_enc : ∀ (ts : Toks), WF ts → replaceAll [MARK, 124] [BS, 124] (encToks ts) = encToks (pipeToks ts) := by
  intro ts
  induction ts with
  | nil => intro _; rfl
  | cons t ts ih =>
    intro hw
    have ih := ih hw.tail
    have hc := hw.head.1
    obtain ⟨m, c⟩ := t
    cases m with
    | false =>
      rw [encToks_cons_f, replaceAll_nomatch (by intro h; simp at h; exact hc h.1.symm), ih]
      simp [pipeToks]
    | true =>
      by_cases hp : c = 124
      · subst hp
        have := replaceAll_match [MARK, 124] [BS, 124] (encToks ts) (by simp)
        simp only [List.cons_append, List.nil_append] at this
        rw [encToks_cons_t, this, ih]
        simp [pipeToks]
      · rw [encToks_cons_t, replaceAll_nomatch (by intro h; simp at h; exact hp h.symm),
          replaceAll_nomatch (by intro h; simp at h; exact hc h.1.symm), ih]
        simp [pipeToks, hp]

/-- After the replacement: a backslash is marked unless it stands in front of a pipe, and a pipe is behind such a
backslash. -/
inductive PipesDone : Toks → Prop
  | nil : PipesDone []
  | pipe {ts} : PipesDone ts → PipesDone ((false, 92) :: (false, 124) :: ts)
  | plain {c ts} : c ≠ 92 → c ≠ 124 → PipesDone ts → PipesDone ((false, c) :: ts)
  | marked {c ts} : c ≠ 124 → PipesDone ts → PipesDone ((true, c) :: ts)

theorem pipeToks_done : ∀ (ts : Toks), PipesMarked ts → PipesDone (pipeToks ts) := by
  intro ts
  induction ts with
  | nil => intro _; exact .nil
  | cons t ts ih =>
    intro h
    have ih := ih (fun x hx => h x (by simp [hx]))
    obtain ⟨m, c⟩ := t
    cases m with
    | false =>
      have := h (false, c) (by simp) rfl
      simpa [pipeToks] using PipesDone.plain this.1 this.2 ih
    | true =>
      by_cases hp : c = 124
      · subst hp; simpa [pipeToks] using PipesDone.pipe ih
      · simpa [pipeToks, hp] using PipesDone.marked hp ih

theorem pipeToks_wf {ts : Toks} (h : WF ts) : WF (pipeToks ts) := by
  intro t ht
  simp only [pipeToks, List.mem_flatMap] at ht
  obtain ⟨x, hx, ht⟩ := ht
  split at ht
  · simp at ht
    rcases ht with rfl | rfl <;> exact ⟨by decide, by simp⟩
  · simp at ht; subst ht; exact h t hx

theorem pipeSafe_marked {hs : List Handler} (hok : ∀ h ∈ hs, SkipOK h) (hb : isBackslash ∈ hs) :
    ∀ (ts : Toks), PipesDone ts → WF ts → ∀ rev k, Inv rev k (encToks ts) → Spec.pipeSafe (renToks (W hs rev k ts)) = true := by
  intro ts hd
  induction hd with
  | nil => intro _ rev k _; simp [W, Spec.pipeSafe]
  | pipe _ ih =>
    intro hw rev k hi
    simp only [W, renToks_cons_f, Spec.pipeSafe, if_true]
    simp only [encToks_cons_f] at hi
    exact ih hw.tail.tail _ _ hi.step.step
  | plain h1 h2 _ ih =>
    intro hw rev k hi
    simp only [W, renToks_cons_f]
    rw [pipeSafe_cons h1 h2]
    simp only [encToks_cons_f] at hi
    exact ih hw.tail _ _ hi.step
  | marked h1 _ ih =>
    rename_i c ts _
    intro hw rev k hi
    simp only [encToks_cons_t] at hi
    cases k with
    | zero =>
      simp only [W]
      cases hce : checkElements hs (MARK :: rev) c (encToks ts) with
      | none =>
        have hc : c ≠ 92 := by
          rintro rfl
          have := checkElements_none hce _ hb
          simp [isBackslash] at this
        simp only [renToks_cons_f]
        rw [pipeSafe_cons hc h1]
        exact ih hw.tail _ _ (.inl rfl)
      | some n =>
        simp only [renToks_cons_t, Spec.pipeSafe, if_true]
        exact ih hw.tail _ _ (Inv.check (hw.head.2 rfl) hok hce)
    | succ k =>
      have hc : c ≠ 92 := by
        rintro rfl
        have := hi.zero_of_not_region (by unfold regionByte; decide)
        omega
      simp only [W, renToks_cons_f]
      rw [pipeSafe_cons hc h1]
      have h' := Inv.step (Inv.step hi)
      exact ih hw.tail _ _ (by rwa [show k + 1 - 1 - 1 = k - 1 by omega] at h')

theorem enc_cut_left : ∀ (l s : Bytes) (ts : Toks), MARK ∉ l → encToks ts = l ++ s → ∃ a b, ts = a ++ b ∧ encToks b = s := by
  intro l
  induction l with
  | nil => intro s ts _ h; exact ⟨[], ts, rfl, h⟩
  | cons x l ih =>
    intro s ts hl h
    simp only [List.mem_cons, not_or] at hl
    cases ts with
    | nil => simp at h
    | cons t ts =>
      obtain ⟨m, c⟩ := t
      cases m with
      | true => simp at h; exact absurd h.1 hl.1
      | false =>
        simp only [encToks_cons_f, List.cons_append, List.cons.injEq] at h
        obtain ⟨a, b, rfl, hb⟩ := ih s ts hl.2 h.2
        exact ⟨(false, c) :: a, b, rfl, hb⟩

theorem enc_cut_right : ∀ (ts : Toks) (s r : Bytes), (∀ t ∈ ts, t.1 = true → t.2 ∉ r) → encToks ts = s ++ r →
    ∃ a b, ts = a ++ b ∧ encToks a = s := by
  intro ts
  induction ts with
  | nil =>
    intro s r _ h
    simp only [encToks_nil] at h
    exact ⟨[], [], rfl, by simp [(List.append_eq_nil_iff.1 h.symm).1]⟩
  | cons t ts ih =>
    intro s r hr h
    cases s with
    | nil => exact ⟨[], t :: ts, rfl, rfl⟩
    | cons x s =>
      obtain ⟨m, c⟩ := t
      cases m with
      | false =>
        simp only [encToks_cons_f, List.cons_append, List.cons.injEq] at h
        obtain ⟨a, b, rfl, hb⟩ := ih s r (fun t ht => hr t (by simp [ht])) h.2
        exact ⟨(false, c) :: a, b, rfl, by simp [h.1, hb]⟩
      | true =>
        simp only [encToks_cons_t, List.cons_append, List.cons.injEq] at h
        cases s with
        | nil =>
          have := hr (true, c) (by simp) rfl
          simp only [List.nil_append] at h
          rw [← h.2] at this
          simp at this
        | cons y s =>
          simp only [List.cons_append, List.cons.injEq] at h
          obtain ⟨a, b, rfl, hb⟩ := ih s r (fun t ht => hr t (by simp [ht])) h.2.2
          exact ⟨(true, c) :: a, b, rfl, by simp [h.1, h.2.1, hb]⟩

/-- The ASCII bytes in white space are no punctuation. -/
theorem whitespace_bytes {r : Bytes} (h : Spec.AllWhitespace r) : ∀ b ∈ r, b = 32 ∨ (9 ≤ b ∧ b ≤ 13) ∨ 128 ≤ b := by
  obtain ⟨ws, hw, rfl⟩ := h
  intro b hb
  obtain ⟨w, h1, h2⟩ := List.mem_flatten.1 hb
  have h0 : ∀ w ∈ Spec.whitespace, ∀ b ∈ w, b = 32 ∨ (9 ≤ b ∧ b ≤ 13) ∨ 128 ≤ b := by decide
  exact h0 w (hw w h1) b h2

theorem toks_markedText : ∀ (ts : Toks), WF ts → PipesMarked ts → (∀ t ∈ ts, t.1 = true → 32 < t.2 ∧ t.2 < 128) → Spec.MarkedText (encToks ts) := by
  intro ts
  induction ts with
  | nil => intro _ _ _; exact .nil
  | cons t ts ih =>
    intro hw hp ha
    have ih := ih hw.tail (fun x hx => hp x (by simp [hx])) (fun x hx => ha x (by simp [hx]))
    obtain ⟨m, c⟩ := t
    cases m with
    | false =>
      have := hp (false, c) (by simp) rfl
      exact .plain hw.head.1 this.1 this.2 ih
    | true =>
      have := ha (true, c) (by simp) rfl
      exact .marked this.1 this.2 ih

/-- The content of a text is marked. -/
theorem markedText_text (t : Bytes) (hM : MARK ∉ t) : Spec.MarkedText (escapeContent .smart isCommonmarkChar t) := by
  simp only [escapeContent, escapeLoop_eq]
  refine toks_markedText _ (textToks_wf t hM) ?_ ?_
  · intro x hx hf
    have := textToks_marked t x hx
    constructor
    · intro h; rw [h] at this; simp [hf] at this; exact absurd this (by decide)
    · intro h; rw [h] at this; simp [hf] at this; exact absurd this (by decide)
  · intro x hx hf
    have : ∀ b ∈ commonmarkChars, 32 < b ∧ b < 128 := by decide
    exact this _ ((textToks_marked t x hx).1 hf)

theorem cellContent_safe {hs : List Handler} (hok : ∀ h ∈ hs, SkipOK h) (hb : isBackslash ∈ hs) {s : Bytes}
    (h : Spec.MarkedText s) : Spec.pipeSafe (cellContent (unEscapeContent .smart hs) s) = true := by
  obtain ⟨ts, he, hw, hp, ha⟩ := markedText_toks h
  obtain ⟨l, r, hl, hr, hs', -, -⟩ := trimSpace_spec s
  rw [← he, List.append_assoc] at hs'
  obtain ⟨a, b, rfl, hb'⟩ := enc_cut_left l _ ts (by
    intro hm
    have := whitespace_bytes hl _ hm
    revert this; decide) hs'
  have hw2 := (WF.append.1 hw).2
  obtain ⟨c, d, rfl, hc⟩ := enc_cut_right b _ r (by
    intro t ht h1 h2
    have hlt := ha t (by simp [ht]) h1
    have hws := whitespace_bytes hr _ h2
    have : ∀ c : UInt8, 32 < c ∧ c < 128 → ¬ (c = 32 ∨ (9 ≤ c ∧ c ≤ 13) ∨ 128 ≤ c) := forall_u8 (by decide +kernel)
    exact this _ hlt hws) hb'
  have hw3 := (WF.append.1 hw2).1
  rw [he] at hc
  rw [cellContent, ← hc, replacePipe_enc c hw3, unEscape_enc _ (fun t ht => (pipeToks_wf hw3 t ht).1)]
  exact pipeSafe_marked hok hb _ (pipeToks_done c (fun x hx => hp x (by simp [hx]))) (pipeToks_wf hw3) [] 0 (.inl rfl)

end Verif.Table
