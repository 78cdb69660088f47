import Verif.Proofs.PageRich
/-! Headings with elements in them (see `Verif.Spec.Page`). -/

namespace Verif.Page
open Verif Verif.Escape Verif.Spec Verif.Commonmark Verif.TextUtils

variable {dig : Nat → Bool} {hs : List Handler} {st : Style} {bullet : Bytes}

/-! ## No two spaces -/

theorem two_append : ∀ {a b : Bytes}, ¬ [32, 32] <:+: a → ¬ [32, 32] <:+: b → (a.getLast? ≠ some 32 ∨ b.head? ≠ some 32) → ¬ [32, 32] <:+: a ++ b
  | [], _, _, hb, _ => hb
  | x :: a, b, ha, hb, h => by
    intro hi
    rw [List.cons_append, List.infix_cons_iff] at hi
    rw [List.infix_cons_iff, not_or] at ha
    rcases hi with hi | hi
    · rw [List.cons_prefix_cons] at hi
      obtain ⟨rfl, hi⟩ := hi
      cases a with
      | nil =>
        cases b with
        | nil => simp at hi
        | cons y b => simp at hi h; exact h hi.symm
      | cons y a =>
        rw [List.cons_append, List.cons_prefix_cons] at hi
        exact ha.1 (by rw [← hi.1]; exact ⟨a, rfl⟩)
    · refine two_append ha.2 hb ?_ hi
      cases a with
      | nil => simp
      | cons y a => simpa using h

theorem two_of {a : Bytes} (h : 32 ∉ a) : ¬ [32, 32] <:+: a := fun hi => h (hi.subset (by simp))

theorem two_entity {v : Bytes} (h : ¬ [32, 32] <:+: v) : ¬ [32, 32] <:+: entityReplace v :=
  fun hi => h (entityReplace_infix (by simp) (by decide) _ hi)

theorem two_title {t : Bytes} (h : ¬ [32, 32] <:+: t) : ¬ [32, 32] <:+: titlePart t := by
  have key : ∀ (x : Bytes) (q : UInt8), ¬ [32, 32] <:+: x → q ≠ 32 → ¬ [32, 32] <:+: 32 :: ([q] ++ x ++ [q]) := by
    intro x q hx hq
    rw [show 32 :: ([q] ++ x ++ [q]) = [32, q] ++ (x ++ [q]) by simp]
    refine two_append ?_ (two_append hx (two_of (by simpa using hq.symm)) (.inr (by simpa using hq))) (.inl (by simpa using hq))
    intro hi
    have := hi.eq_of_length (by simp)
    simp at this
    exact hq this.symm
  rw [titlePart]
  split
  · rw [surroundByQuotes, if_neg (by simpa using ‹t ≠ []›)]
    simp only [surroundBy]
    split
    · refine key _ _ ?_ (by decide)
      rw [show b!"\"" = [34] from rfl, show b!"\\\"" = [92, 34] from rfl, replaceAll_one]
      have : ∀ t : Bytes, (t.flatMap fun x => if x = 34 then [92, 34] else [x]) = encBy 92 (t.map fun x => (x == 34, x)) := by
        intro t
        induction t with
        | nil => rfl
        | cons x t ih =>
          rw [List.flatMap_cons, ih, List.map_cons, encBy_cons]
          by_cases hx : x = 34 <;> simp [hx]
      rw [this]
      intro hi
      have := encBy_infix (by decide) (by simp) _ hi
      rw [List.map_map] at this
      exact h (by simpa [Function.comp_def] using this)
    · split
      · exact key _ _ h (by decide)
      · exact key _ _ h (by decide)
  · exact two_of (by simp)

theorem two_linkEnd {dest title : Bytes} (hd : PlainDestination dest) (ht : ¬ [32, 32] <:+: title) : ¬ [32, 32] <:+: linkEnd dest title := by
  have h32 : 32 ∉ dest := fun h => absurd (hd.1 32 h).1 (by decide)
  rw [linkEnd]
  refine two_append (two_append (two_of (by simp [h32])) (two_title ht) (.inl ?_)) (two_of (by simp)) (.inr (by simp))
  intro h
  have := List.mem_of_getLast? h
  simp [h32] at this

theorem inl_ends (hS : StyleOK st) {k : Bool} {ctx : List Around} {v1 v2 : Bytes} {i : Inl} (h : i.OK st ctx v1 v2) :
    ((inlX st k i).map Tok.byte).head? ≠ some 32 ∧ ∃ c ∈ [41, 42, 95, 96], ((inlX st k i).map Tok.byte).getLast? = some (c : UInt8) := by
  have hf := inl_facts hS k i h
  obtain ⟨c, X', e, hc⟩ := hf.start
  obtain ⟨X'', c', e', hc'⟩ := hf.last
  refine ⟨?_, c', hc', ?_⟩
  · rw [e]
    intro h0
    simp [Tok.byte] at h0
    rw [h0] at hc
    revert hc; decide
  · rw [e']; simp [Tok.byte]

mutual
theorem inl_two (hS : StyleOK st) {k : Bool} {ctx : List Around} {v1 v2 : Bytes} : (i : Inl) → i.OK st ctx v1 v2 → i.single →
    ¬ [32, 32] <:+: (inlX st k i).map Tok.byte
  | .emph name first rest => by
    intro h hs
    rw [Inl.OK] at h
    rw [Inl.single] at hs
    obtain ⟨-, hin, -, hrest⟩ := h
    have hd := hS.delim name
    have hX := segX_seg k hin.chars (oneSpace_seen first)
    obtain ⟨h1, h2⟩ := rest_two hS (k := k) rest hrest hs
    have h32 : 32 ∉ delims st name := fun hx => by
      have := delims_mem hx
      rcases hd with h | h <;> (rw [h] at this; revert this; decide)
    rw [inlX, List.map_append, List.map_append, List.map_append, rawX_byte, hX.bytes]
    refine two_append (two_of h32) (two_append (two_entity (oneSpace_seen first).no_two) (two_append h1 (two_of h32) (.inr ?_)) (.inr ?_)) (.inl ?_)
    · exact fun h => h32 (List.mem_of_mem_head? h)
    · rw [List.head?_append]
      cases hh : ((restX st k rest).map Tok.byte).head? with
      | none => exact fun h => h32 (List.mem_of_mem_head? h)
      | some x => rw [hh] at h2; exact h2
    · exact fun h => h32 (List.mem_of_getLast? h)
  | .code c => by
    intro h _
    rw [Inl.OK] at h
    obtain ⟨k, e⟩ := h.eq
    have h96 : ∀ k, 32 ∉ List.replicate k (96 : UInt8) := by intro k; simp
    rw [inlX, rawX_byte, e]
    have hl : c.head? ≠ some 32 := (noLeading_head h.leading).1
    have ht : c.getLast? ≠ some 32 := (noTrailing_last h.trailing).1
    have one : ¬ [32, 32] <:+: [(32 : UInt8)] := by intro h; have := h.length_le; simp at this
    refine two_append (two_append (two_of (h96 _)) (two_append (two_append ?_ h.no_two (.inr hl)) ?_ ?_) ?_) (two_of (h96 _)) ?_
    · split
      · exact one
      · exact two_of (by simp)
    · split
      · exact one
      · exact two_of (by simp)
    · left
      rw [List.getLast?_append]
      cases hc : c.getLast? with
      | none => exact absurd (by simpa using hc) h.nonempty
      | some x => rw [hc] at ht; simpa using ht
    · left
      rw [List.replicate_succ']; simp
    · right
      rw [List.replicate_succ]; simp
  | .link href title first rest => by
    intro h hs
    rw [Inl.OK] at h
    rw [Inl.single] at hs
    obtain ⟨ha, htt, hb, hin, ht, hrest⟩ := h
    have hX := segX_seg true hin.chars (oneSpace_seen first)
    obtain ⟨h1, h2⟩ := rest_two hS (k := true) rest hrest hs.2
    have e : (inlX st k (.link href title first rest)).map Tok.byte =
        [91] ++ (entityReplace (oneSpace first) ++ ((restX st true rest).map Tok.byte ++ linkEnd (st.resolve href) title)) := by
      rw [inlX, List.map_cons, List.map_append, List.map_append, rawX_byte, hX.bytes]; rfl
    rw [e]
    refine two_append (two_of (by simp)) (two_append (two_entity (oneSpace_seen first).no_two)
      (two_append h1 (two_linkEnd ha.plain hs.1) (.inr (by simp [linkEnd]))) (.inr ?_)) (.inl (by simp))
    rw [List.head?_append]
    cases hh : ((restX st true rest).map Tok.byte).head? with
    | none => simp [linkEnd]
    | some x => rw [hh] at h2; exact h2
  | .image src title alt => by
    intro h hs
    rw [Inl.OK] at h
    rw [Inl.single] at hs
    obtain ⟨ha, htt, hal, -⟩ := h
    have h92 : 92 ∉ alt := fun h => (hal.chars 92 h).2.2.1 rfl
    rw [inlX, rawX_byte]
    refine two_append (two_append (two_of (by simp)) ?_ (.inl (by simp))) (two_linkEnd ha.plain hs.1) (.inr (by simp [linkEnd]))
    intro hi
    rw [escapeAlt_toks h92, renToks_by] at hi
    have := encBy_infix (by decide) (by simp) _ hi
    rw [altToks, List.map_map] at this
    exact hs.2 (by simpa [Function.comp_def] using this)
theorem rest_two (hS : StyleOK st) {k : Bool} {ctx : List Around} {v1 : Bytes} : (rest : List (Inl × Bytes)) → RestOK st ctx v1 rest → singleRest rest →
    ¬ [32, 32] <:+: (restX st k rest).map Tok.byte ∧ ((restX st k rest).map Tok.byte).head? ≠ some 32
  | [] => by intro _ _; rw [restX]; exact ⟨two_of (by simp), by simp⟩
  | (i, t) :: rest => by
    intro h hs
    rw [singleRest] at hs
    have hh := h.head
    obtain ⟨h1, h2⟩ := rest_two hS (k := k) rest hh.next hs.2
    have hi := inl_two hS (k := k) i hh.elem hs.1
    obtain ⟨e1, c, hc, e2⟩ := inl_ends hS (k := k) hh.elem
    have hne : (inlX st k i).map Tok.byte ≠ [] := by intro h0; rw [h0] at e2; cases e2
    rw [restX, List.map_append, List.map_append, (segX_seg k hh.chars (seenText_seen t rest)).bytes]
    refine ⟨two_append hi (two_append (two_entity (seenText_seen t rest).no_two) h1 (.inr h2)) (.inl ?_), ?_⟩
    · rw [e2]
      intro h0
      cases h0
      revert hc; decide
    · rw [List.head?_append]
      cases hh : ((inlX st k i).map Tok.byte).head? with
      | none => exact absurd (List.head?_eq_none_iff.1 hh) hne
      | some x => rw [hh] at e1; exact e1
end

theorem rich_two (hS : StyleOK st) {first : Bytes} {rest : List (Inl × Bytes)} (h : RichOK st first rest) (hs : singleRest rest) :
    ¬ [32, 32] <:+: (richX st first rest).map Tok.byte := by
  obtain ⟨h1, h2⟩ := rest_two hS (k := false) rest h.elements hs
  rw [richX, List.map_append, (textX_seg h.chars (shownFirst_seen first)).bytes]
  exact two_append (two_entity (shownFirst_seen first).no_two) h1 (.inr h2)

/-! ## The last character -/

theorem last_append {a b : Bytes} (h : b ≠ []) : (a ++ b).getLast? = b.getLast? := by
  rw [List.getLast?_append]
  cases hb : b.getLast? with
  | none => exact absurd (by simpa using hb) h
  | some x => rfl

theorem rest_last (hS : StyleOK st) {k : Bool} {ctx : List Around} : ∀ {rest : List (Inl × Bytes)} {v1 : Bytes}, RestOK st ctx v1 rest → rest ≠ [] →
    (∀ x, rest.getLast? = some x → (shownLast x.2).getLast? ≠ some 35) →
    ((restX st k rest).map Tok.byte) ≠ [] ∧ ((restX st k rest).map Tok.byte).getLast? ≠ some 35
  | [], _, _, h, _ => absurd rfl h
  | [(i, t)], _, h, _, hl => by
    obtain ⟨-, c, hc, e2⟩ := inl_ends hS (k := k) h.head.elem
    have hl := hl (i, t) rfl
    rw [restX, restX, List.append_nil, List.map_append, (segX_seg k h.head.chars (seenText_seen t [])).bytes, seenText]
    refine ⟨fun h0 => by (rw [(List.append_eq_nil_iff.1 h0).1] at e2; cases e2), ?_⟩
    rw [List.getLast?_append, e2]
    cases hv : (entityReplace (shownLast t)).getLast? with
    | none =>
      simp
      rintro rfl
      revert hc; decide
    | some x =>
      simp
      rintro rfl
      have h1 : [35] <:+ entityReplace (shownLast t) := by
        rw [List.getLast?_eq_some_iff] at hv
        obtain ⟨ys, e⟩ := hv
        exact ⟨ys, e.symm⟩
      obtain ⟨ys, e⟩ := entityReplace_suffix _ rfl (by decide) _ h1
      exact hl (by rw [← e]; simp)
  | (i, t) :: y :: rest, _, h, _, hl => by
    obtain ⟨h1, h2⟩ := rest_last hS (k := k) h.head.next (by simp) (fun x hx => hl x (by simpa using hx))
    rw [restX, List.map_append, List.map_append]
    refine ⟨fun h0 => h1 (List.append_eq_nil_iff.1 (List.append_eq_nil_iff.1 h0).2).2, ?_⟩
    rw [last_append (fun h0 => h1 (List.append_eq_nil_iff.1 h0).2), last_append h1]
    exact h2

theorem rich_last (hS : StyleOK st) {first : Bytes} {rest : List (Inl × Bytes)} (h : RichOK st first rest) (hh : HeadingOK rest) :
    (richX st first rest).map Tok.byte ≠ [] ∧ ((richX st first rest).map Tok.byte).getLast? ≠ some 35 := by
  obtain ⟨h1, h2⟩ := rest_last hS (k := false) h.elements h.nonempty hh.last
  rw [richX, List.map_append]
  exact ⟨fun h0 => h1 (List.append_eq_nil_iff.1 h0).2, by rw [last_append h1]; exact h2⟩

theorem encBy_last {e : UInt8} {ts : Toks} : (encBy e ts).getLast? = (ts.map Prod.snd).getLast? := by
  rcases List.eq_nil_or_concat ts with rfl | ⟨ts, t, rfl⟩
  · rfl
  · rw [List.concat_eq_append, List.map_append]
    have : encBy e (ts ++ [t]) = encBy e ts ++ encBy e [t] := by
      induction ts with
      | nil => rfl
      | cons x ts ih => obtain ⟨m, c⟩ := x; rw [List.cons_append, encBy_cons, encBy_cons, ih]; simp
    rw [this]
    obtain ⟨m, c⟩ := t
    rw [encBy_cons]
    cases m <;> simp [encBy]

/-! ## The line -/

theorem atx_content (hS : StyleOK st) {first : Bytes} {rest : List (Inl × Bytes)} (h : RichOK st first rest) (hh : HeadingOK rest) :
    atxContent (encToks (flatX (richX st first rest))) = encToks (flatX (richX st first rest)) ∧
      escapePoundSignAtEnd (encToks (flatX (richX st first rest))) = some (encToks (flatX (richX st first rest))) := by
  obtain ⟨r1, r2, r3, r4, r5⟩ := rich_enc hS h
  have hsnd := flat_snd (richX st first rest)
  have hesc := escT_snd (richX st first rest)
  have e : encToks (flatX (richX st first rest)) = encBy MARK (flatX (richX st first rest)) := encToks_by _
  have h13 : 13 ∉ encToks (flatX (richX st first rest)) := by
    rw [e]
    intro hm
    rcases encBy_mem hm with hm | hm
    · exact absurd hm (by decide)
    · rw [hsnd] at hm
      rcases encBy_mem hm with hm | hm
      · exact absurd hm (by decide)
      · rw [hesc, List.mem_map] at hm
        obtain ⟨y, hy, ey⟩ := hm
        refine (rich_fine hS h).bytes y hy ?_
        rw [ey]; decide
  have e1 : Props.onOneLine (encToks (flatX (richX st first rest))) = encToks (flatX (richX st first rest)) := by
    rw [Props.onOneLine]
    refine (List.map_congr_left ?_).trans (List.map_id _)
    intro b hb
    rw [if_neg]
    · rfl
    · rintro (rfl | rfl)
      · exact r4 hb
      · exact h13 hb
  constructor
  · rw [Props.atxContent_eq, e1, squeeze_id, trimSpace_id r2 r3]
    intro hi
    rw [e] at hi
    have h1 := encBy_infix (by decide) (by simp) _ hi
    rw [hsnd] at h1
    have h2 := encBy_infix (by decide) (by simp) _ h1
    rw [hesc] at h2
    exact rich_two hS h hh.single h2
  · have hl : (encToks (flatX (richX st first rest))).getLast? ≠ some 35 := by
      rw [e, encBy_last, hsnd, encBy_last, hesc]
      exact (rich_last hS h hh).2
    rcases Props.escapePound_spec _ r1 with ⟨-, he⟩ | ⟨x, d, hx, -⟩ | ⟨x, d, hx, -⟩ | ⟨hx, -⟩
    · exact he
    · rw [hx] at hl; simp at hl
    · rw [hx] at hl; simp at hl
    · rw [hx] at hl; simp at hl

theorem hashes_start {n : Nat} (hn : 1 ≤ n) : atLineStart ((hashes n).map Prod.snd).reverse = false := by
  obtain ⟨m, rfl⟩ : ∃ m, n = m + 1 := ⟨n - 1, by omega⟩
  rw [hashes_snd, List.reverse_append, List.reverse_replicate, List.replicate_succ]
  show atLineStart (32 :: 35 :: List.replicate m 35) = false
  rw [atLineStart_cons, if_neg (by decide), if_pos (by decide), atLineStart_cons, if_neg (by decide), if_neg (by decide)]

theorem atx_rich (hst : IsStock dig hs) (hS : StyleOK st) {first : Bytes} {rest : List (Inl × Bytes)} (h : RichOK st first rest) (hh : HeadingOK rest)
    {n : Nat} (h1 : 1 ≤ n) (h6 : n ≤ 6) :
    ∃ T, (escapePoundSignAtEnd (atxContent (encToks (flatX (richX st first rest))))).map
        (fun c => b!"\n\n" ++ List.replicate n 35 ++ [SP] ++ c ++ b!"\n\n") = some (b!"\n\n" ++ encToks T ++ b!"\n\n") ∧
      AtxLine hs n (textSpans (shownFirst first) ++ spansRest st.resolve rest) T := by
  obtain ⟨a1, a2⟩ := atx_content hS h hh
  obtain ⟨r1, r2, r3, r4, r5⟩ := rich_enc hS h
  rw [a1, a2]
  have hpre : encToks (hashes n) = List.replicate n 35 ++ [32] := by
    rw [enc_raw _ fun t ht => (hashes_raw n t ht).1, hashes_snd]
  have hf := rich_fine hS h
  have hsnd := flat_snd (richX st first rest)
  have hesc := escT_snd (richX st first rest)
  have hbytes : ∀ b ∈ [0, 10, 13], b ∉ (richX st first rest).map Tok.byte := by
    intro b hb hm
    obtain ⟨x, hx, e⟩ := List.mem_map.1 hm
    refine hf.bytes x hx ?_
    rw [e]
    revert hb
    exact forall_u8 (P := fun b => b ∈ [0, 10, 13] → b ∈ [0, 7, 10, 13]) (by decide +kernel) b
  have hnl : NL ∉ (flatX (richX st first rest)).map Prod.snd := by
    rw [hsnd]
    intro hm
    rcases encBy_mem hm with hm | hm
    · exact absurd hm (by decide)
    · rw [hesc] at hm; exact hbytes 10 (by decide) hm
  have hW : W hs [] 0 (hashes n ++ flatX (richX st first rest)) =
      hashes n ++ P hs ((hashes n).map Prod.snd).reverse (embed (flatX (richX st first rest))) [] := by
    have := W_raw (hs := hs) (hashes n) (flatX (richX st first rest)) [] fun t ht => (hashes_raw n t ht).1
    rw [this, List.append_nil, W_within hst _ _ (hashes_start h1) hnl]
  generalize hrev : ((hashes n).map Prod.snd).reverse = rev at hW
  have hren : renToks (W hs [] 0 (hashes n ++ flatX (richX st first rest))) =
      List.replicate n 35 ++ 32 :: renToks (P hs rev (richX st first rest) []) := by
    rw [hW, renToks_append, ren_embed, renToks_raw _ fun t ht => (hashes_raw n t ht).1, hashes_snd]; simp
  have hPs : (P hs rev (richX st first rest) []).map Prod.snd = (richX st first rest).map Tok.byte := P_snd _ _ _
  have hmem : ∀ b ∈ renToks (P hs rev (richX st first rest) []), b = 92 ∨ b ∈ (richX st first rest).map Tok.byte := by
    intro b hb
    rw [renToks_by] at hb
    have := encBy_mem hb
    rwa [hPs] at this
  have hnot : ∀ b ∈ [0, 10, 13], b ∉ renToks (P hs rev (richX st first rest) []) := by
    intro b hb hm
    rcases hmem b hm with e | hm
    · rw [e] at hb; revert hb; decide
    · exact hbytes b hb hm
  have hlead : NoLeadingWhitespace (renToks (P hs rev (richX st first rest) [])) := by
    rw [renToks_by]; exact encBy_noLeading ws_bs (by rw [hPs]; exact rich_leading hS h)
  have htrail : NoTrailingWhitespace (renToks (P hs rev (richX st first rest) [])) := by
    rw [renToks_by]; exact encBy_noTrailing ws_bs (by rw [hPs]; exact rich_trailing hS h)
  have hlast : (renToks (P hs rev (richX st first rest) [])).getLast? ≠ some 35 := by
    rw [renToks_by, encBy_last, hPs]; exact (rich_last hS h hh).2
  have hne : renToks (P hs rev (richX st first rest) []) ≠ [] := by
    obtain ⟨x, hx, -⟩ := rich_visible h
    intro h0
    have := mem_renToks (D := P hs rev (richX st first rest) []) (by rw [hPs]; exact hx)
    rw [h0] at this; cases this
  have hcode : ¬ codeNewline <:+: renToks (P hs rev (richX st first rest) []) := by
    intro hc
    rw [renToks_by] at hc
    have := encBy_infix (by decide) (by decide) _ hc
    rw [hPs] at this
    exact rich_code hS h this
  have htb : trimBlank (renToks (P hs rev (richX st first rest) [])) = renToks (P hs rev (richX st first rest) []) :=
    trimBlank_self (noLeading_head hlead) (noTrailing_last htrail)
  have hu : NoTrailingWhitespace ((flatX (richX st first rest)).map Prod.snd) := by
    rw [hsnd]; exact encBy_noTrailing ws_bs (by rw [hesc]; exact rich_trailing hS h)
  have hune : (flatX (richX st first rest)).map Prod.snd ≠ [] := by
    intro h0
    rw [List.map_eq_nil_iff] at h0
    rw [h0] at r1
    exact r1 rfl
  refine ⟨hashes n ++ flatX (richX st first rest), by rw [encToks_append, hpre]; simp, ?_, atx_enc h1 _, ?_, ?_, ?_, ?_⟩
  · refine WF.append.2 ⟨?_, hf.wf⟩
    intro t ht
    obtain ⟨e1, e2⟩ := hashes_raw n t ht
    refine ⟨?_, by rw [e1]; simp⟩
    rcases e2 with e2 | e2 <;> (rw [e2]; decide)
  · rw [encToks_append, List.mem_append, not_or, hpre]
    exact ⟨by simp [List.mem_replicate], r4⟩
  · rw [List.map_append, hashes_snd]
    intro w hw hsuf
    by_cases hl : w.length ≤ ((flatX (richX st first rest)).map Prod.snd).length
    · exact hu w hw (List.suffix_of_suffix_length_le hsuf (List.suffix_append _ _) hl)
    · have h2 : 32 :: (flatX (richX st first rest)).map Prod.snd <:+ w := by
        refine List.suffix_of_suffix_length_le ?_ hsuf (by simp at hl ⊢; omega)
        exact ⟨List.replicate n 35, by simp⟩
      have key : ∀ w ∈ whitespace, 32 ∈ w → w = [32] := by decide
      have hw32 := key w hw (h2.subset (by simp))
      rw [hw32] at hl
      cases he : (flatX (richX st first rest)).map Prod.snd with
      | nil => exact hune he
      | cons a b => rw [he] at hl; simp at hl
  · rw [List.map_append]
    intro hi
    have := infix_drop_left (by decide) (hash_code n) hi
    rw [hsnd] at this
    have h2 := encBy_infix (by decide) (by decide) _ this
    rw [hesc] at h2
    exact rich_code hS h h2
  · refine ⟨_, hren, ?_, ?_, hnot 10 (by decide), hnot 13 (by decide), hnot 0 (by decide), hcode⟩
    · have := Props.readAtx_line h1 h6 (t := renToks (P hs rev (richX st first rest) [])) (.inr ?_)
      · rw [this, htb]
      · rcases List.eq_nil_or_concat (renToks (P hs rev (richX st first rest) [])) with he | ⟨x, e, he⟩
        · exact absurd he hne
        · rw [List.concat_eq_append] at he
          refine ⟨x, e, he, ?_, ?_, ?_⟩
          · rintro rfl; exact (noTrailing_last htrail).1 (by rw [he]; simp)
          · rintro rfl; exact (noTrailing_last htrail).2 (by rw [he]; simp)
          · rintro rfl; exact hlast (by rw [he]; simp)
    · rw [readInline, htb, rich_read hst hS h rev _ (by omega)]
      rfl

theorem setext_rich (hst : IsStock dig hs) (hdig : Props.DigitsOK dig) (hS : StyleOK st) (hbul : bullet ∈ [b!"-", b!"+", b!"*"]) {first : Bytes}
    {rest : List (Inl × Bytes)} (h : RichOK st first rest) (n : Nat) :
    ∃ T, b!"\n\n" ++ escapeMultiLine (trimConsecutiveNewlines (encToks (flatX (richX st first rest)))) ++ [NL] ++
        setextUnderline n (underlineWidth (escapeMultiLine (trimConsecutiveNewlines (encToks (flatX (richX st first rest))))) 3) ++ b!"\n\n" =
          b!"\n\n" ++ encToks T ++ b!"\n\n" ∧
      SetextLines hs bullet n (textSpans (shownFirst first) ++ spansRest st.resolve rest) (flatX (richX st first rest)) T := by
  obtain ⟨r1, r2, r3, r4, r5⟩ := rich_enc hS h
  exact setext_toks hst n (rich_fine hS h).wf r4 r2 r3 r1 r5 (rich_line hst hdig hS hbul h)

end Verif.Page
