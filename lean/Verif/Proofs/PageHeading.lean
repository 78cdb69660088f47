import Verif.Proofs.PageText
/-!
# Pages of blocks: the lines of headings
-/

namespace Verif.Page
open Verif Verif.Spec Verif.Escape Verif.Commonmark Verif.TextUtils

/-- A backslash of the output that was marked is escaped. -/
theorem backslash_at {dig : Nat → Bool} {hs : List Handler} (hg : Good dig hs) {ts A B : Toks} {e : Bool} (hwf : WF ts)
    (h : W hs [] 0 ts = A ++ (e, BS) :: B) :
    ∃ ts1 m ts2, ts = ts1 ++ (m, BS) :: ts2 ∧ A.map Prod.snd = ts1.map Prod.snd ∧ (m = true → e = true) := by
  obtain ⟨ts1, m, ts2, h1, h2, h3, h4, h5⟩ := at_token hg.ok hwf h
  refine ⟨ts1, m, ts2, h1, h2, ?_⟩
  intro hm
  rcases h5 hm with ⟨h5, -⟩ | ⟨-, k, hk, -⟩
  · have : isBackslash (MARK :: (encToks ts1).reverse) BS (encToks ts2) = some 1 := by simp [isBackslash]
    rw [checkElements_isSome_of_mem (hg.mem _ (by simp [commonmarkHandlers])) this] at h5
    exact h5
  · have := hk.mem BS (by simp)
    exact absurd this (by unfold regionByte; decide)

theorem lineStart_bytes : ∀ s : Bytes, NL ∉ s → atLineStart s = true → ∀ b ∈ s, b = MARK ∨ b = SP := by
  intro s
  induction s with
  | nil => intro _ _ b hb; simp at hb
  | cons c s ih =>
    intro h0 h b hb
    simp only [List.mem_cons, not_or] at h0
    rw [atLineStart_cons, if_neg (Ne.symm h0.1)] at h
    split at h
    · rename_i hc
      rcases List.mem_cons.1 hb with rfl | hb
      · exact hc
      · exact ih h0.2 h b hb
    · simp at h

theorem infix_drop_left {w a b : Bytes} (hne : w ≠ []) (hw : ∀ x ∈ w, x ∉ a) (h : w <:+: a ++ b) : w <:+: b := by
  induction a with
  | nil => exact h
  | cons c a ih =>
    rw [List.cons_append, List.infix_cons_iff] at h
    rcases h with h | h
    · cases w with
      | nil => exact absurd rfl hne
      | cons d w =>
        rw [List.cons_prefix_cons] at h
        have := hw d (by simp)
        rw [h.1] at this
        simp at this
    · exact ih (fun x hx hm => hw x hx (by simp [hm])) h

theorem infix_drop_right {w a b : Bytes} (hne : w ≠ []) (hw : ∀ x ∈ w, x ∉ b) (h : w <:+: a ++ b) : w <:+: a := by
  have := infix_drop_left (w := w.reverse) (a := b.reverse) (b := a.reverse) (by simpa using hne) (by simpa using hw)
    (by rw [← List.reverse_append]; exact List.reverse_infix.2 h)
  exact List.reverse_infix.1 this

/-- The tokens of `#... `. -/
def hashes (n : Nat) : Toks := List.replicate n (false, 35) ++ [(false, 32)]

theorem hashes_raw (n : Nat) : ∀ t ∈ hashes n, t.1 = false ∧ (t.2 = 35 ∨ t.2 = 32) := by
  intro t ht
  rw [hashes, List.mem_append] at ht
  rcases ht with ht | ht
  · rw [List.mem_replicate] at ht
    rw [ht.2]; simp
  · simp at ht; rw [ht]; simp

theorem hashes_snd (n : Nat) : (hashes n).map Prod.snd = List.replicate n 35 ++ [32] := by simp [hashes]

theorem hash_code (n : Nat) : ∀ x ∈ codeNewline, x ∉ (hashes n).map Prod.snd := by
  intro x hx hm
  rw [hashes_snd, List.mem_append, List.mem_replicate] at hm
  have key : ∀ x ∈ codeNewline, x ≠ 35 ∧ x ∉ ([32] : Bytes) := by decide
  rcases hm with hm | hm
  · exact (key x hx).1 hm.2
  · exact (key x hx).2 hm

theorem enc_raw (ts : Toks) (h : ∀ t ∈ ts, t.1 = false) : encToks ts = ts.map Prod.snd := by
  induction ts with
  | nil => rfl
  | cons t ts ih =>
    obtain ⟨m, c⟩ := t
    have := h (m, c) (by simp)
    simp only at this
    subst this
    rw [encToks_cons_f, ih fun t ht => h t (by simp [ht])]; rfl

/-- Behind `#... ` the text is plain. -/
theorem hash_ready {n : Nat} (hn : 1 ≤ n) {ts : Toks} (wf : WF ts)
    (special : ∀ m c, (m, c) ∈ ts → c = 42 ∨ c = 95 ∨ c = 91 ∨ c = 96 → m = true)
    (marked : ∀ t ∈ ts, t.1 = true → t.2 ∈ commonmarkChars) (no_nul : ∀ t ∈ ts, t.2 ≠ 0) (no_nl : NL ∉ ts.map Prod.snd)
    (no_sep : ∀ w ∈ [[11], [194, 133], [226, 128, 168], [226, 128, 169]], ¬ w <:+: ts.map Prod.snd) : Ready (hashes n ++ ts) := by
  have hnl : NL ∉ (hashes n ++ ts).map Prod.snd := by
    rw [List.map_append, List.mem_append, not_or, hashes_snd]
    exact ⟨by simp [List.mem_replicate], no_nl⟩
  have hwf : WF (hashes n ++ ts) := by
    refine WF.append.2 ⟨?_, wf⟩
    intro t ht
    obtain ⟨h1, h2⟩ := hashes_raw n t ht
    refine ⟨by rcases h2 with h2 | h2 <;> rw [h2] <;> decide, by rw [h1]; simp⟩
  refine ⟨hwf, ?_, ?_, ?_, hnl, ?_, ?_⟩
  · intro m c hm hc
    rcases List.mem_append.1 hm with hm | hm
    · obtain ⟨-, h2⟩ := hashes_raw n _ hm
      rcases hc with rfl | rfl | rfl | rfl <;> simp at h2
    · exact special m c hm hc
  · intro t ht h1
    rcases List.mem_append.1 ht with ht | ht
    · rw [(hashes_raw n t ht).1] at h1; simp at h1
    · exact marked t ht h1
  · intro t ht
    rcases List.mem_append.1 ht with ht | ht
    · rcases (hashes_raw n t ht).2 with h | h <;> rw [h] <;> decide
    · exact no_nul t ht
  · intro ts1 c ts2 e
    simp only [isFencedCode]
    split
    · rfl
    · rw [if_pos]
      simp only [Bool.not_eq_true', List.append_nil]
      -- the first `#` is in front
      obtain ⟨m, rfl⟩ : ∃ m, n = m + 1 := ⟨n - 1, by omega⟩
      cases hc : atLineStart (MARK :: (encToks ts1).reverse) with
      | false => rfl
      | true =>
        exfalso
        have hmem : (35 : UInt8) ∈ encToks ts1 := by
          cases ts1 with
          | nil =>
            rw [hashes, List.replicate_succ] at e
            simp at e
          | cons t ts1 =>
            rw [hashes, List.replicate_succ] at e
            simp only [List.cons_append, List.cons.injEq] at e
            rw [← e.1]; simp
        have hno : NL ∉ MARK :: (encToks ts1).reverse := by
          simp only [List.mem_cons, List.mem_reverse, not_or]
          refine ⟨by decide, ?_⟩
          intro h
          rw [encToks_by] at h
          rcases encBy_mem h with h | h
          · exact absurd h (by decide)
          · apply hnl
            rw [e, List.map_append, List.mem_append]
            exact .inl h
        have := lineStart_bytes _ hno hc 35 (by simp [hmem])
        exact absurd this (by decide)
  · intro w hw hi
    rw [List.map_append, hashes_snd] at hi
    refine no_sep w hw (infix_drop_left (sep_chars w hw).1 ?_ hi)
    have key : ∀ w ∈ ([[11], [194, 133], [226, 128, 168], [226, 128, 169]] : List Bytes), ∀ x ∈ w, x ≠ 35 ∧ x ≠ 32 := by decide
    intro x hx
    have := key w hw x hx
    simp [List.mem_replicate, this]

theorem squeeze_id {s : Bytes} (h : ¬ [32, 32] <:+: s) : squeeze s = s := by
  have main : ∀ (s : Bytes) (p : Bool), ¬ [32, 32] <:+: s → (p = true → s.head? ≠ some 32) → squeeze.squeezeAfter p s = s := by
    intro s
    induction s with
    | nil => intro p _ _; rfl
    | cons b s ih =>
      intro p h hp
      rw [squeeze.squeezeAfter, if_neg, ih]
      · exact fun h' => h (h'.trans (List.suffix_cons _ _).isInfix)
      · intro hb
        simp at hb
        subst hb
        cases s with
        | nil => simp
        | cons c s =>
          simp
          rintro rfl
          exact h ⟨[], s, rfl⟩
      · simp
        intro hp'
        have := hp hp'
        simpa using this
  rw [← squeeze_eq, dropDoubleSpaces_eq]
  exact main s _ h (by simp)

theorem trimSpace_id {s : Bytes} (h1 : NoLeadingWhitespace s) (h2 : NoTrailingWhitespace s) : trimSpace s = s := by
  have := trimSpace_spec s
  obtain ⟨l, r, hl, hr, e, g1, g2⟩ := this
  have hl' : l = [] := by
    obtain ⟨ws, hws, rfl⟩ := hl
    cases ws with
    | nil => rfl
    | cons w ws =>
      exfalso
      refine h1 w (hws w (by simp)) ?_
      rw [e]
      exact ⟨ws.flatten ++ trimSpace s ++ r, by simp⟩
  have hr' : r = [] := by
    obtain ⟨ws, hws, rfl⟩ := hr
    rcases List.eq_nil_or_concat ws with rfl | ⟨ws', w, rfl⟩
    · rfl
    · exfalso
      rw [List.concat_eq_append] at *
      refine h2 w (hws w (by simp)) ?_
      rw [e]
      exact ⟨l ++ trimSpace s ++ ws'.flatten, by simp⟩
  rw [hl', hr'] at e
  simpa using e.symm

section
variable {bullet v : Bytes} (h : Text bullet v)
include h

theorem Text.enc_leading : NoLeadingWhitespace (encToks (textToks (entityReplace v))) := by
  rw [encToks_by]; exact encBy_noLeading ws_mark (by rw [h.toks_snd]; exact h.u_leading)

theorem Text.enc_trailing : NoTrailingWhitespace (encToks (textToks (entityReplace v))) := by
  rw [encToks_by]; exact encBy_noTrailing ws_mark (by rw [h.toks_snd]; exact h.u_trailing)

theorem Text.enc_not {b : UInt8} (hb : b ≠ MARK) (hu : b ∉ entityReplace v) : b ∉ encToks (textToks (entityReplace v)) := by
  intro hm
  rw [encToks_by] at hm
  rcases encBy_mem hm with hm | hm
  · exact hb hm
  · rw [h.toks_snd] at hm; exact hu hm

theorem Text.atxContent_id : atxContent (encToks (textToks (entityReplace v))) = encToks (textToks (entityReplace v)) := by
  have e1 : Props.onOneLine (encToks (textToks (entityReplace v))) = encToks (textToks (entityReplace v)) := by
    rw [Props.onOneLine]
    refine (List.map_congr_left ?_).trans (List.map_id _)
    intro b hb
    rw [if_neg]
    · rfl
    · rintro (rfl | rfl)
      · exact h.enc_not (by decide) h.u_nl hb
      · exact h.enc_not (by decide) h.u_cr hb
  rw [Props.atxContent_eq, e1, squeeze_id, trimSpace_id h.enc_leading h.enc_trailing]
  intro hi
  rw [encToks_by] at hi
  have := encBy_infix (by decide) (by simp) _ hi
  rw [h.toks_snd] at this
  exact h.u_two this

theorem Text.enc_code : ¬ codeNewline <:+: encToks (textToks (entityReplace v)) := by
  intro hi
  rw [encToks_by] at hi
  have := encBy_infix (by decide) (by decide) _ hi
  rw [h.toks_snd] at this
  exact h.u_mark this

theorem Text.enc_ne : encToks (textToks (entityReplace v)) ≠ [] := by
  intro he
  have hs := h.toks_snd
  cases ht : textToks (entityReplace v) with
  | nil => rw [ht] at hs; exact h.u_ne hs.symm
  | cons t ts => rw [ht] at he; obtain ⟨m, c⟩ := t; cases m <;> simp at he

end

theorem textToks_concat {u0 : Bytes} {c : UInt8} (hc : c ≠ 0) : textToks (u0 ++ [c]) = textToks u0 ++ [(decide (c ∈ commonmarkChars), c)] := by
  rw [Props.textToks_append]
  simp [textToks, hc]

theorem enc_last : ∀ {ts : Toks} {x : Bytes} {c : UInt8}, encToks ts = x ++ [c] → ∃ ts' m, ts = ts' ++ [(m, c)] ∧
    x = encToks ts' ++ (if m then [MARK] else []) := by
  intro ts x c h
  rcases List.eq_nil_or_concat ts with rfl | ⟨ts', t, rfl⟩
  · simp at h
  · rw [List.concat_eq_append] at *
    obtain ⟨m, d⟩ := t
    rw [encToks_append] at h
    cases m with
    | true =>
      have h' : (encToks ts' ++ [MARK]) ++ [d] = x ++ [c] := by rw [← h]; simp
      have ⟨h1, h2⟩ := List.append_inj' h' rfl
      simp at h2
      exact ⟨ts', true, by rw [h2], by rw [← h1]; simp⟩
    | false =>
      have h' : encToks ts' ++ [d] = x ++ [c] := by rw [← h]; simp
      have ⟨h1, h2⟩ := List.append_inj' h' rfl
      simp at h2
      exact ⟨ts', false, by rw [h2], by rw [← h1]; simp⟩

/-- The line of an ATX heading: what the renderer writes, and how it is read in the end. -/
structure AtxLine (hs : List Handler) (n : Nat) (spans : List Span) (T : Toks) : Prop where
  wf : WF T
  enc : ∃ x, encToks T = 35 :: x
  no_nl : NL ∉ encToks T
  trailing : NoTrailingWhitespace (T.map Prod.snd)
  code : ¬ codeNewline <:+: T.map Prod.snd
  read : ∃ text, renToks (W hs [] 0 T) = List.replicate n 35 ++ 32 :: text ∧
    readAtx (List.replicate n 35 ++ 32 :: text) = some (n, text) ∧ readInline text = some spans ∧
    10 ∉ text ∧ 13 ∉ text ∧ 0 ∉ text ∧ ¬ codeNewline <:+: text

theorem read_hash {dig : Nat → Bool} {hs : List Handler} (hst : IsStock dig hs) {bullet v : Bytes} (h : Text bullet v) {n : Nat}
    (h1 : 1 ≤ n) (h6 : n ≤ 6) {ts D : Toks} (hw : W hs [] 0 (hashes n ++ ts) = hashes n ++ W hs ((hashes n).map Prod.snd).reverse 0 ts)
    (hren : renToks (W hs ((hashes n).map Prod.snd).reverse 0 ts) = renToks D) (hD : D.map Prod.snd = entityReplace v) (hP : Plain D)
    (hbs : ∀ d ∈ D, d.1 = false → d.2 ≠ BS)
    (hend : (∃ x, renToks D = x ++ [92, 35]) ∨ (entityReplace v).getLast? ≠ some 35) :
    ∃ text, renToks (W hs [] 0 (hashes n ++ ts)) = List.replicate n 35 ++ 32 :: text ∧
      readAtx (List.replicate n 35 ++ 32 :: text) = some (n, text) ∧ readInline text = some [.text v] ∧
      10 ∉ text ∧ 13 ∉ text ∧ 0 ∉ text ∧ ¬ codeNewline <:+: text := by
  have hlead : NoLeadingWhitespace (renToks D) := by
    rw [renToks_by]; exact encBy_noLeading ws_bs (by rw [hD]; exact h.u_leading)
  have htrail : NoTrailingWhitespace (renToks D) := by
    rw [renToks_by]; exact encBy_noTrailing ws_bs (by rw [hD]; exact h.u_trailing)
  have htb := trimBlank_self (noLeading_head hlead) (noTrailing_last htrail)
  have hmem : ∀ b ∈ renToks D, b = 92 ∨ b ∈ entityReplace v := by
    intro b hb
    rw [renToks_by] at hb
    have := encBy_mem hb
    rwa [hD] at this
  have hlast : ∀ c, (renToks D).getLast? = some c → (entityReplace v).getLast? = some c := by
    intro c hc
    rcases List.eq_nil_or_concat D with rfl | ⟨D', t, rfl⟩
    · simp at hc
    · rw [List.concat_eq_append] at *
      obtain ⟨m, d⟩ := t
      have e1 : (renToks (D' ++ [(m, d)])).getLast? = some d := by cases m <;> simp
      rw [e1] at hc
      rw [← hD]; simpa using hc
  have hne : renToks D ≠ [] := by
    intro he
    cases D with
    | nil => exact h.u_ne hD.symm
    | cons t D => obtain ⟨m, c⟩ := t; cases m <;> simp at he
  refine ⟨renToks D, ?_, ?_, ?_, ?_, ?_, ?_, ?_⟩
  · rw [hw, renToks_append, hren, renToks_raw _ fun t ht => (hashes_raw n t ht).1, hashes_snd]; simp
  · have := Props.readAtx_line h1 h6 (t := renToks D) ?_
    · rw [this, htb]
    · rcases hend with hend | hend
      · exact .inl hend
      · right
        rcases List.eq_nil_or_concat (renToks D) with he | ⟨x, e, he⟩
        · exact absurd he hne
        · rw [List.concat_eq_append] at he
          refine ⟨x, e, he, ?_, ?_, ?_⟩
          · rintro rfl; exact (noTrailing_last htrail).1 (by rw [he]; simp)
          · rintro rfl; exact (noTrailing_last htrail).2 (by rw [he]; simp)
          · rintro rfl; exact hend (hlast 35 (by rw [he]; simp))
  · rw [readInline, htb]
    rw [read_plain hD hP hbs h.no_entity h.nonempty none _ (by omega)]; rfl
  · intro hb; rcases hmem _ hb with hb | hb
    · exact absurd hb (by decide)
    · exact h.u_nl hb
  · intro hb; rcases hmem _ hb with hb | hb
    · exact absurd hb (by decide)
    · exact h.u_cr hb
  · intro hb; rcases hmem _ hb with hb | hb
    · exact absurd hb (by decide)
    · exact h.u_nul hb
  · intro hc
    rw [renToks_by] at hc
    have := encBy_infix (by decide) (by decide) _ hc
    rw [hD] at this
    exact h.u_mark this

theorem atx_enc {n : Nat} (hn : 1 ≤ n) (ts : Toks) : ∃ x, encToks (hashes n ++ ts) = 35 :: x := by
  obtain ⟨m, rfl⟩ : ∃ m, n = m + 1 := ⟨n - 1, by omega⟩
  rw [hashes, List.replicate_succ]
  exact ⟨_, by simp only [List.cons_append, encToks_cons_f]; rfl⟩

theorem noTrailing_append {a b : Bytes} (hb : b ≠ []) (h : NoTrailingWhitespace b) (hc : ∀ w ∈ whitespace, ∀ x, b.head? = some x → x ∉ w.tail) :
    NoTrailingWhitespace (a ++ b) := by
  intro w hw hs
  by_cases hl : w.length ≤ b.length
  · exact h w hw (List.suffix_of_suffix_length_le hs (List.suffix_append _ _) hl)
  · -- then `b` is a part of `w` without its first byte
    have h2 : b <:+ w := List.suffix_of_suffix_length_le (List.suffix_append _ _) hs (by omega)
    obtain ⟨x, hx⟩ := h2
    cases x with
    | nil => rw [← hx] at hl; simp at hl
    | cons y x =>
      cases b with
      | nil => exact hb rfl
      | cons z b => exact hc w hw z rfl (by rw [← hx]; simp)

theorem atx_heading {dig : Nat → Bool} {hs : List Handler} (hst : IsStock dig hs) {bullet v : Bytes} (h : Text bullet v) {n : Nat}
    (h1 : 1 ≤ n) (h6 : n ≤ 6) :
    ∃ T, (escapePoundSignAtEnd (atxContent (encToks (textToks (entityReplace v))))).map
        (fun c => b!"\n\n" ++ List.replicate n 35 ++ [SP] ++ c ++ b!"\n\n") = some (b!"\n\n" ++ encToks T ++ b!"\n\n") ∧
      AtxLine hs n [.text v] T := by
  rw [h.atxContent_id]
  have hpre : encToks (hashes n) = List.replicate n 35 ++ [32] := by
    rw [enc_raw _ fun t ht => (hashes_raw n t ht).1, hashes_snd]
  have hwraw : ∀ ts, W hs [] 0 (hashes n ++ ts) = hashes n ++ W hs ((hashes n).map Prod.snd).reverse 0 ts := by
    intro ts
    have := W_raw (hs := hs) (hashes n) ts [] fun t ht => (hashes_raw n t ht).1
    simpa using this
  have hnlpre : NL ∉ encToks (hashes n) := by rw [hpre]; simp [List.mem_replicate]
  have hr := h.ready
  -- the pound sign is not changed
  have same : ((∃ x, encToks (textToks (entityReplace v)) = x ++ [92, 7, 35]) ∨ (entityReplace v).getLast? ≠ some 35) →
      AtxLine hs n [.text v] (hashes n ++ textToks (entityReplace v)) := by
    intro hend
    have hready := hash_ready h1 h.wf hr.special hr.marked hr.no_nul hr.no_nl hr.no_sep
    have hplain := plain_W hst hready
    rw [hwraw] at hplain
    have hD : (W hs ((hashes n).map Prod.snd).reverse 0 (textToks (entityReplace v))).map Prod.snd = entityReplace v := by
      rw [W_snd, h.toks_snd]
    have hbs : ∀ d ∈ W hs ((hashes n).map Prod.snd).reverse 0 (textToks (entityReplace v)), d.1 = false → d.2 ≠ BS := by
      intro d hd
      refine backslash_escaped hst.good hready.wf ?_ d (by rw [hwraw]; simp [hd])
      intro m hm
      rcases List.mem_append.1 hm with hm | hm
      · have := (hashes_raw n _ hm).2; simp at this
      · exact (textToks_marked _ _ hm).2 (show BS ∈ commonmarkChars by decide)
    refine ⟨hready.wf, atx_enc h1 _, ?_, ?_, ?_, ?_⟩
    · rw [encToks_append, List.mem_append, not_or]
      exact ⟨hnlpre, h.enc_not (by decide) h.u_nl⟩
    · rw [List.map_append, h.toks_snd, hashes_snd]
      intro w hw hsuf
      -- white space behind `# ` is at the end of the text
      by_cases hl : w.length ≤ (entityReplace v).length
      · exact h.u_trailing w hw (List.suffix_of_suffix_length_le hsuf (List.suffix_append _ _) hl)
      · have h2 : 32 :: entityReplace v <:+ w := by
          refine List.suffix_of_suffix_length_le ?_ hsuf (by simp; omega)
          exact ⟨List.replicate n 35, by simp⟩
        have key : ∀ w ∈ whitespace, 32 ∈ w → w = [32] := by decide
        have hw32 := key w hw (h2.subset (by simp))
        rw [hw32] at hl
        cases he : entityReplace v with
        | nil => exact h.u_ne he
        | cons a b => rw [he] at hl; simp at hl
    · rw [List.map_append, h.toks_snd]
      intro hi
      exact h.u_mark (infix_drop_left (by decide) (hash_code n) hi)
    · refine read_hash hst h h1 h6 (hwraw _) rfl hD hplain.suffix hbs ?_
      rcases hend with ⟨x, hx⟩ | hend
      · left
        obtain ⟨ts1, m1, e1, e2⟩ := enc_last (x := x ++ [92, 7]) (c := 35) (by rw [hx]; simp)
        have hm1 : m1 = true := by
          have := (textToks_marked (entityReplace v) (m1, 35) (by rw [e1]; simp)).2 (show (35 : UInt8) ∈ commonmarkChars by decide)
          exact this
        subst hm1
        simp only [if_true] at e2
        have e3 : x ++ [92] = encToks ts1 := by
          have e4 : (x ++ [92]) ++ [7] = encToks ts1 ++ [7] := by rw [← e2]; simp
          exact (List.append_inj' e4 rfl).1
        obtain ⟨ts2, m2, e5, -⟩ := enc_last e3.symm
        have hu : ∃ y, entityReplace v = y ++ [92, 35] := ⟨ts2.map Prod.snd, by rw [← h.toks_snd, e1, e5]; simp⟩
        obtain ⟨y, hy⟩ := hu
        have hD2 := hD.trans hy
        rw [List.map_eq_append_iff] at hD2
        obtain ⟨D0, D1, hDe, -, hD1⟩ := hD2
        rw [hDe]
        match D1, hD1 with
        | [(a, c), (b, d)], hD1 =>
          simp at hD1
          obtain ⟨rfl, rfl⟩ := hD1
          have ha : a = true := by
            cases a with
            | true => rfl
            | false => exact absurd rfl (hbs (false, 92) (by rw [hDe]; simp) rfl)
          subst ha
          cases b with
          | true => exact ⟨renToks D0 ++ [92, 92], by simp⟩
          | false => exact ⟨renToks D0 ++ [92], by simp⟩
      · right; exact hend
  rcases Props.escapePound_spec _ h.enc_ne with ⟨hl, he⟩ | ⟨x, d, hx, he, -⟩ | ⟨x, d, hx, he⟩ | ⟨hx, he⟩
  · refine ⟨hashes n ++ textToks (entityReplace v), by rw [he, encToks_append, hpre]; simp, same (.inr ?_)⟩
    intro hu
    apply hl
    obtain ⟨y, hy⟩ : ∃ y, entityReplace v = y ++ [35] := by
      rcases List.eq_nil_or_concat (entityReplace v) with he | ⟨y, e, he⟩
      · rw [he] at hu; simp at hu
      · rw [List.concat_eq_append] at he
        rw [he] at hu; simp at hu
        exact ⟨y, by rw [he, hu]⟩
    rw [hy, textToks_concat (by decide), encToks_append]
    have : encToks [(decide ((35 : UInt8) ∈ commonmarkChars), 35)] = [7, 35] := by decide
    rw [this]; simp
  · -- the marker becomes a backslash
    obtain ⟨ts1, m1, e1, e2⟩ := enc_last (x := x ++ [d]) (c := 35) (by rw [hx]; simp)
    have hm1 : m1 = true := by
      have := (textToks_marked (entityReplace v) (m1, 35) (by rw [e1]; simp)).2 (show (35 : UInt8) ∈ commonmarkChars by decide)
      exact this
    subst hm1
    simp only [if_true] at e2
    have ⟨e3, e4⟩ := List.append_inj' e2 rfl
    simp at e4
    subst e4
    have hu : entityReplace v = ts1.map Prod.snd ++ [35] := by rw [← h.toks_snd, e1]; simp
    have hin : ∀ t ∈ ts1, t ∈ textToks (entityReplace v) := fun t ht => by rw [e1]; simp [ht]
    have hwf1 : WF ts1 := fun t ht => h.wf t (hin t ht)
    have htail : ∀ t ∈ ts1 ++ [(false, 92), (false, 35)], t ∈ ts1 ∨ t = (false, 92) ∨ t = (false, 35) := by
      intro t ht; simpa using ht
    have hready : Ready (hashes n ++ (ts1 ++ [(false, 92), (false, 35)])) := by
      refine hash_ready h1 ?_ ?_ ?_ ?_ ?_ ?_
      · intro t ht
        rcases htail t ht with ht | rfl | rfl
        · exact hwf1 t ht
        · exact ⟨by decide, by simp⟩
        · exact ⟨by decide, by simp⟩
      · intro m c hm hc
        rcases htail _ hm with ht | ht | ht
        · exact hr.special m c (hin _ ht) hc
        · simp at ht; rw [ht.2] at hc; simp at hc
        · simp at ht; rw [ht.2] at hc; simp at hc
      · intro t ht h1
        rcases htail t ht with ht | rfl | rfl
        · exact hr.marked t (hin t ht) h1
        · simp at h1
        · simp at h1
      · intro t ht
        rcases htail t ht with ht | rfl | rfl
        · exact hr.no_nul t (hin t ht)
        · decide
        · decide
      · have := hr.no_nl
        rw [e1] at this
        simp at this ⊢
        exact this
      · intro w hw hi
        rw [List.map_append] at hi
        have key : ∀ w ∈ ([[11], [194, 133], [226, 128, 168], [226, 128, 169]] : List Bytes), ∀ x ∈ w, x ∉ ([92, 35] : Bytes) := by decide
        have := infix_drop_right (sep_chars w hw).1 (by simpa using key w hw) hi
        refine h.u_sep w hw (this.trans ?_)
        rw [hu]
        exact (List.prefix_append _ _).isInfix
    have hplain := plain_W hst hready
    rw [hwraw] at hplain
    have hplain' := hplain.suffix
    -- what the loop returns
    obtain ⟨D0, hD0, hWD⟩ := W_append (hs := hs) [(false, 92), (false, 35)] ts1 ((hashes n).map Prod.snd).reverse 0
    have hWD' : W hs ((hashes n).map Prod.snd).reverse 0 (ts1 ++ [(false, 92), (false, 35)]) = D0 ++ [(false, 92), (false, 35)] := by
      rw [hWD]; simp [W]
    rw [hWD'] at hplain'
    refine ⟨hashes n ++ (ts1 ++ [(false, 92), (false, 35)]), ?_, hready.wf, atx_enc h1 _, ?_, ?_, ?_, ?_⟩
    · rw [he, encToks_append, hpre, encToks_append, e3]; simp
    · rw [encToks_append, List.mem_append, not_or]
      refine ⟨hnlpre, ?_⟩
      rw [encToks_append]
      have := h.enc_not (b := NL) (by decide) h.u_nl
      rw [e1, encToks_append] at this
      simp at this ⊢
      exact this
    · rw [List.map_append, List.map_append, ← List.append_assoc]
      refine noTrailing_append (by simp) (by intro w hw; revert w; decide) ?_
      have key : ∀ w ∈ whitespace, (92 : UInt8) ∉ w.tail := by decide
      intro w hw x hx
      simp at hx
      subst hx
      exact key w hw
    · rw [List.map_append, List.map_append]
      intro hi
      have := infix_drop_right (by decide) (by decide) (infix_drop_left (by decide) (hash_code n) hi)
      exact h.u_mark (this.trans (by rw [hu]; exact (List.prefix_append _ _).isInfix))
    · refine read_hash hst h h1 h6 (hwraw _) (D := D0 ++ [(true, 35)]) ?_ ?_ hplain'.hash ?_ (.inl ⟨renToks D0, by simp⟩)
      · rw [hWD']; simp
      · rw [List.map_append, hD0, hu]; rfl
      · intro d hd hd1
        rcases List.mem_append.1 hd with hd | hd
        · intro hdb
          obtain ⟨A, B, hAB⟩ := List.append_of_mem hd
          obtain ⟨dm, dc⟩ := d
          simp only at hd1 hdb
          subst hd1; subst hdb
          have hW : W hs [] 0 (hashes n ++ (ts1 ++ [(false, 92), (false, 35)])) = (hashes n ++ A) ++ (false, BS) :: (B ++ [(false, 92), (false, 35)]) := by
            rw [hwraw, hWD', hAB]; simp
          obtain ⟨t1, m, t2, g1, g2, g3⟩ := backslash_at hst.good hready.wf hW
          have hm : m = true := by
            have hlen : t1.length = n + 1 + A.length := by
              have := congrArg List.length g2
              simp [hashes] at this; omega
            have hlen2 : ts1.length = A.length + 1 + B.length := by
              have := congrArg List.length hD0
              rw [hAB] at this
              simp at this; omega
            have hget : (m, BS) ∈ ts1 := by
              have e5 : (hashes n ++ (ts1 ++ [(false, 92), (false, 35)]))[n + 1 + A.length]? = some (m, BS) := by
                rw [g1, List.getElem?_append_right (by omega), hlen]; simp
              rw [List.getElem?_append_right (by simp [hashes])] at e5
              have e6 : n + 1 + A.length - (hashes n).length = A.length := by simp [hashes]
              rw [e6, List.getElem?_append_left (by omega)] at e5
              exact List.mem_of_getElem? e5
            exact (textToks_marked _ _ (hin _ hget)).2 (show BS ∈ commonmarkChars by decide)
          exact absurd (g3 hm) (by simp)
        · simp at hd; subst hd; simp at hd1
  · refine ⟨hashes n ++ textToks (entityReplace v), by rw [he, encToks_append, hpre]; simp, same (.inl ⟨x, ?_⟩)⟩
    obtain ⟨ts1, m1, e1, e2⟩ := enc_last (x := x ++ [92, d]) (c := 35) (by rw [hx]; simp)
    have hm1 : m1 = true := by
      have := (textToks_marked (entityReplace v) (m1, 35) (by rw [e1]; simp)).2 (show (35 : UInt8) ∈ commonmarkChars by decide)
      exact this
    subst hm1
    simp only [if_true] at e2
    have e4 : (x ++ [92]) ++ [d] = encToks ts1 ++ [7] := by rw [← e2]; simp
    obtain ⟨-, e5⟩ := List.append_inj' e4 rfl
    simp at e5
    rw [hx, e5]
  · exfalso
    obtain ⟨ts1, m1, e1, e2⟩ := enc_last (x := []) (c := 35) (by rw [hx]; rfl)
    have hm1 : m1 = true := by
      have := (textToks_marked (entityReplace v) (m1, 35) (by rw [e1]; simp)).2 (show (35 : UInt8) ∈ commonmarkChars by decide)
      exact this
    subst hm1
    simp at e2

/-- The lines of a Setext heading; `ts` is the first one. -/
structure SetextLines (hs : List Handler) (bullet : Bytes) (n : Nat) (spans : List Span) (ts T : Toks) : Prop where
  wf : WF T
  shape : NL ∉ ts.map Prod.snd ∧ ∃ u, T = ts ++ (false, NL) :: u.map (false, ·) ∧ isSetextUnderline u = true ∧
    u.head? = some (if n = 1 then 61 else 45) ∧ ∀ b ∈ u, b = 61 ∨ b = 45
  enc : ∃ x y c, encToks T = x ++ NL :: y ++ [c] ∧ NL ∉ x ∧ NL ∉ y ++ [c] ∧ NoLeadingWhitespace x ∧ NoTrailingWhitespace x ∧ x ≠ [] ∧ ¬ codeNewline <:+: x ∧
    ∀ b ∈ y ++ [c], b = 61 ∨ b = 45
  read : ∃ l u, renToks (W hs [] 0 T) = l ++ NL :: u ∧ ParaLine bullet spans l ∧ isSetextUnderline u = true ∧
    u.head? = some (if n = 1 then 61 else 45) ∧ ∀ b ∈ u, b = 61 ∨ b = 45

theorem trimNewlines_line : ∀ (s buf : Bytes) (k : Nat), NL ∉ s → trimNewlinesGo k buf s = buf ++ s := by
  intro s
  induction s with
  | nil => intro buf k _; simp [trimNewlinesGo]
  | cons b s ih =>
    intro buf k h
    simp only [List.mem_cons, not_or] at h
    rw [trimNewlinesGo, if_neg (Ne.symm h.1)]
    split
    · rename_i hb
      subst hb
      rw [ih _ _ h.2]; simp
    · rw [ih _ _ h.2]; simp

/-- A line with an underline. -/
theorem setext_toks {dig : Nat → Bool} {hs : List Handler} (hst : IsStock dig hs) {bullet : Bytes} {spans : List Span} {ts : Toks} (n : Nat) (hwf0 : WF ts)
    (hnl : NL ∉ encToks ts) (hlead : NoLeadingWhitespace (encToks ts)) (htrail : NoTrailingWhitespace (encToks ts)) (hne : encToks ts ≠ [])
    (hcode : ¬ codeNewline <:+: encToks ts) (hpara : ParaLine bullet spans (renToks (W hs [] 0 ts))) :
    ∃ T, b!"\n\n" ++ escapeMultiLine (trimConsecutiveNewlines (encToks ts)) ++ [NL] ++
        setextUnderline n (underlineWidth (escapeMultiLine (trimConsecutiveNewlines (encToks ts))) 3) ++ b!"\n\n" =
          b!"\n\n" ++ encToks T ++ b!"\n\n" ∧
      SetextLines hs bullet n spans ts T := by
  have e1 : trimConsecutiveNewlines (encToks ts) = encToks ts := by
    rw [trimConsecutiveNewlines, trimNewlines_line _ _ _ hnl]; rfl
  have e2 : escapeMultiLine (encToks ts) = encToks ts := by
    rw [escapeMultiLine, splitOn_of_no_sep hnl]; rfl
  rw [e1, e2]
  have hw : ∃ w, underlineWidth (encToks ts) 3 = w + 1 := by
    rw [underlineWidth]
    split
    · exact ⟨2, rfl⟩
    · rename_i hw
      exact ⟨_, (Nat.sub_add_cancel (by omega)).symm⟩
  obtain ⟨w, hw⟩ := hw
  rw [hw, setextUnderline]
  generalize hc : (if n = 1 then (61 : UInt8) else 45) = c
  have hc' : c = 61 ∨ c = 45 := by rw [← hc]; split <;> simp
  have hcn : c ≠ NL ∧ c ≠ MARK ∧ c ≠ 32 := by rcases hc' with rfl | rfl <;> decide
  let U : Toks := List.replicate (w + 1) (false, c)
  have hU : ∀ t ∈ U, t = (false, c) := fun t ht => (List.mem_replicate.1 ht).2
  have hUraw : ∀ t ∈ (false, NL) :: U, t.1 = false := by
    intro t ht
    rcases List.mem_cons.1 ht with rfl | ht
    · rfl
    · rw [hU t ht]
  have hUsnd : U.map Prod.snd = List.replicate (w + 1) c := by simp [U]
  have hUenc : encToks U = List.replicate (w + 1) c := by
    rw [enc_raw _ fun t ht => hUraw t (by simp [ht]), hUsnd]
  have hwf : WF (ts ++ (false, NL) :: U) := by
    refine WF.append.2 ⟨hwf0, ?_⟩
    intro t ht
    rcases List.mem_cons.1 ht with rfl | ht
    · exact ⟨by decide, by simp⟩
    · rw [hU t ht]; exact ⟨hcn.2.1, by simp⟩
  have hnl' : NL ∉ ts.map Prod.snd := by
    intro hm
    rw [List.mem_map] at hm
    obtain ⟨⟨m, b⟩, ht, e⟩ := hm
    refine hnl ?_
    rw [encToks, List.mem_flatMap]
    refine ⟨(m, b), ht, ?_⟩
    simp only at e
    rw [e]
    split <;> simp
  have hund : isSetextUnderline (List.replicate (w + 1) c) = true := by
    rw [isSetextUnderline, dropSpaces_of_head (by rw [List.replicate_succ]; simpa using hcn.2.2), List.replicate_succ]
    have : (List.replicate w c).dropWhile (· == c) = [] := by
      have := (takeWhile_rep (c := c) w (s := []) (by simp)).2
      simpa using this
    simp only [this, List.all_nil, Bool.and_true]
    rcases hc' with rfl | rfl <;> decide
  have hbs : ∀ b ∈ List.replicate (w + 1) c, b = 61 ∨ b = 45 := by
    intro b hb
    rw [(List.mem_replicate.1 hb).2]; exact hc'
  have hhd : (List.replicate (w + 1) c).head? = some (if n = 1 then 61 else 45) := by
    rw [List.replicate_succ, hc]; rfl
  refine ⟨ts ++ (false, NL) :: U, by rw [encToks_append, encToks_cons_f, hUenc]; simp, hwf,
    ⟨hnl', List.replicate (w + 1) c, by simp [U], hund, hhd, hbs⟩, ?_, ?_⟩
  · have hrep : List.replicate w c ++ [c] = List.replicate (w + 1) c := by rw [List.replicate_succ']
    refine ⟨encToks ts, List.replicate w c, c, ?_, hnl, ?_, hlead, htrail, hne, hcode, ?_⟩
    · rw [encToks_append, encToks_cons_f, hUenc, ← hrep]; simp
    · rw [hrep]; simp [List.mem_replicate, Ne.symm hcn.1]
    · rw [hrep]
      intro b hb
      rw [(List.mem_replicate.1 hb).2]; exact hc'
  · refine ⟨_, List.replicate (w + 1) c, ?_, hpara, hund, hhd, hbs⟩
    · rw [W_front hst U _ [] 0 hwf0 (.inl rfl)]
      have hW0 : ∀ rev, W hs rev 0 ((false, NL) :: U) = (false, NL) :: U := by
        intro rev
        have := W_raw (hs := hs) ((false, NL) :: U) [] rev hUraw
        simp only [List.append_nil] at this
        rw [this]; simp [W]
      rw [hW0, renToks_append, renToks_raw _ hUraw, List.map_cons, hUsnd]

theorem setext_heading {dig : Nat → Bool} {hs : List Handler} (hst : IsStock dig hs) (hdig : Props.DigitsOK dig) {bullet v : Bytes}
    (hbul : bullet ∈ [b!"-", b!"+", b!"*"]) (h : Text bullet v) (n : Nat) :
    ∃ T, b!"\n\n" ++ escapeMultiLine (trimConsecutiveNewlines (encToks (textToks (entityReplace v)))) ++ [NL] ++
        setextUnderline n (underlineWidth (escapeMultiLine (trimConsecutiveNewlines (encToks (textToks (entityReplace v))))) 3) ++ b!"\n\n" =
          b!"\n\n" ++ encToks T ++ b!"\n\n" ∧
      SetextLines hs bullet n [.text v] (textToks (entityReplace v)) T :=
  setext_toks hst n h.wf (h.enc_not (b := NL) (by decide) h.u_nl) h.enc_leading h.enc_trailing h.enc_ne h.enc_code (para_line hst hdig hbul h)

end Verif.Page
