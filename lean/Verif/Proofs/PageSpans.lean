import Verif.Proofs.PageInert
import Verif.Props.Links
import Verif.Props.Code
/-!
# The elements of a line are read back
-/

namespace Verif.Page
open Verif Verif.Spec Verif.Escape Verif.Commonmark

variable {dig : Nat → Bool} {hs : List Handler}

/-! ## Texts -/

/-- The characters of a text: those with a meaning in Markdown are marked. -/
def textX (v : Bytes) : List Tok := embed (textToks (entityReplace v))

/-- The characters of the text of a link: closing brackets are escaped. -/
def closeX (v : Bytes) : List Tok := (textX v).map fun x => if x = .mark 93 then .esc 93 else x

/-- The characters `X` are those of the text `v`. -/
structure Seg (v : Bytes) (X : List Tok) : Prop where
  fine : Fine X
  raw : ∀ c, .raw c ∈ X → c ∉ commonmarkChars
  bytes : X.map Tok.byte = entityReplace v
  chars : CharsOK v

theorem textX_seg {v : Bytes} (h : CharsOK v) (hn : Seen v) : Seg v (textX v) := by
  have h0 : 0 ∉ entityReplace v := not_mem_entity h.no_nul (by decide)
  have hb : (textX v).map Tok.byte = entityReplace v := by
    rw [textX, embed, List.map_map]
    refine (List.map_congr_left (g := Prod.snd) ?_).trans (textToks_snd _ h0)
    rintro ⟨m, c⟩ _
    cases m <;> rfl
  refine ⟨⟨?_, ?_, ?_⟩, ?_, hb, h⟩
  · intro x hx hm
    have : x.byte ∈ entityReplace v := by rw [← hb]; exact List.mem_map_of_mem hx
    simp only [List.mem_cons, List.not_mem_nil, or_false] at hm
    rcases hm with e | e | e | e <;> rw [e] at this
    · exact h0 this
    · exact not_mem_entity h.no_bell (by decide) this
    · exact not_mem_entity hn.no_nl (by decide) this
    · exact not_mem_entity hn.no_cr (by decide) this
  · intro c hc
    rw [textX, embed, List.mem_map] at hc
    obtain ⟨⟨m, d⟩, hm, e⟩ := hc
    cases m with
    | false => cases e
    | true =>
      cases e
      exact (textToks_marked _ _ hm).1 rfl
  · intro c hc
    rw [textX, embed, List.mem_map] at hc
    obtain ⟨⟨m, d⟩, hm, e⟩ := hc
    cases m <;> cases e
  · intro c hc hcm
    rw [textX, embed, List.mem_map] at hc
    obtain ⟨⟨m, d⟩, hm, e⟩ := hc
    cases m with
    | true => cases e
    | false =>
      cases e
      have := (textToks_marked _ _ hm).2 hcm
      cases this

theorem textX_nil : textX [] = [] := rfl

theorem closeX_mem {v : Bytes} {x : Tok} (h : x ∈ closeX v) : x ∈ textX v ∧ x ≠ .mark 93 ∨ x = .esc 93 ∧ .mark 93 ∈ textX v := by
  rw [closeX, List.mem_map] at h
  obtain ⟨y, hy, rfl⟩ := h
  split
  · rename_i e; subst e; exact .inr ⟨rfl, hy⟩
  · rename_i e; exact .inl ⟨hy, e⟩

theorem closeX_seg {v : Bytes} (h : CharsOK v) (hn : Seen v) : Seg v (closeX v) := by
  have hT := textX_seg h hn
  refine ⟨⟨?_, ?_, ?_⟩, ?_, ?_, h⟩
  · intro x hx
    rcases closeX_mem hx with ⟨hx, -⟩ | ⟨rfl, -⟩
    · exact hT.fine.bytes x hx
    · decide
  · intro c hc
    rcases closeX_mem hc with ⟨hx, -⟩ | ⟨e, -⟩
    · exact hT.fine.marked c hx
    · cases e
  · intro c hc
    rcases closeX_mem hc with ⟨hx, -⟩ | ⟨e, -⟩
    · exact hT.fine.escaped c hx
    · cases e; rfl
  · intro c hc
    rcases closeX_mem hc with ⟨hx, -⟩ | ⟨e, -⟩
    · exact hT.raw c hx
    · cases e
  · rw [← hT.bytes, closeX, List.map_map]
    refine List.map_congr_left ?_
    intro x _
    show (if x = .mark 93 then Tok.esc 93 else x).byte = x.byte
    split
    · rename_i e; subst e; rfl
    · rfl

theorem flat_close (v : Bytes) : flatX (closeX v) = Links.closeToks (textToks (entityReplace v)) := by
  rw [closeX, textX]
  generalize textToks (entityReplace v) = ts
  induction ts with
  | nil => rfl
  | cons t ts ih =>
    obtain ⟨m, c⟩ := t
    have e : ∀ (x : Tok) X, flatX (x :: X) = x.flat ++ flatX X := fun _ _ => rfl
    have e2 : ∀ t ts, Links.closeToks (t :: ts) = (if t = (true, 93) then [(false, 92), (false, 93)] else [t]) ++ Links.closeToks ts := fun _ _ => rfl
    rw [embed, List.map_cons, List.map_cons, e, e2, ← embed, ih]
    congr 1
    cases m with
    | false => simp [Tok.flat]
    | true =>
      by_cases h : c = 93
      · subst h; rfl
      · simp [h, Tok.flat]

theorem Seg.sep {v : Bytes} {X : List Tok} (h : Seg v X) : ∀ w ∈ [[11], [194, 133], [226, 128, 168], [226, 128, 169]], ¬ w <:+: X.map Tok.byte := by
  intro w hw hi
  rw [h.bytes] at hi
  exact h.chars.no_sep w hw (entityReplace_infix (sep_chars w hw).1 (sep_chars w hw).2 _ hi)

theorem Starter.stops {Y : List Tok} (h : Starter Y) (rev : Bytes) : Stops (renToks (P hs rev Y [])) := by
  rcases h with rfl | ⟨c, Y', rfl, hc⟩
  · simp [Stops, P, renToks]
  · intro b hb
    rw [P, renToks_cons_f, List.head?_cons, Option.mem_some_iff] at hb
    subst hb
    exact (by decide : ∀ c ∈ [33, 42, 91, 93, 95, 96], isWordByte c = false ∧ c ≠ 35 ∧ c ≠ 59) c hc

theorem Starter.not_cont {Y : List Tok} (h : Starter Y) (rev : Bytes) : ∀ b, (renToks (P hs rev Y [])).head? = some b → isCont b = false := by
  rcases h with rfl | ⟨c, Y', rfl, hc⟩
  · simp [P, renToks]
  · intro b hb
    rw [P, renToks_cons_f, List.head?_cons, Option.some.injEq] at hb
    subst hb
    exact (by decide : ∀ c ∈ [33, 42, 91, 93, 95, 96], isCont c = false) c hc

/-- A text in front of other characters is read as text. -/
theorem read_seg (hst : IsStock dig hs) (ctx : List Around) {v : Bytes} {X Y : List Tok} (hX : Seg v X) (hY : Fine Y) (hYs : Starter Y) (rev : Bytes)
    (prev : Option UInt8) (hq : ∀ d ∈ P hs rev X (encX Y), d.1 = false → d.2 ∉ ctx.map Around.close) (r : List Span × Bytes)
    (hr : ∀ f, (renToks (P hs ((encX X).reverse ++ rev) Y [])).length < f →
      readSpans f ctx (v.getLast?.or prev) (renToks (P hs ((encX X).reverse ++ rev) Y [])) = some r) :
    ∀ f, (renToks (P hs rev (X ++ Y) [])).length < f → readSpans f ctx prev (renToks (P hs rev (X ++ Y) [])) = some (v.foldr pushChar r) := by
  have e : renToks (P hs rev (X ++ Y) []) = renToks (P hs rev X (encX Y)) ++ renToks (P hs ((encX X).reverse ++ rev) Y []) := by
    rw [P_append, List.append_nil, renToks_append]
  rw [e]
  exact read_inert ctx v _ _ r prev (by rw [P_snd, hX.bytes]) (inert_seg hst hX.fine hX.raw hY hYs hX.sep rev) hq hX.chars.no_entity (hYs.stops _) hr

/-- The characters of a text inside or outside of a link. -/
def segX (k : Bool) (v : Bytes) : List Tok := if k then closeX v else textX v

theorem segX_nil (k : Bool) : segX k [] = [] := by cases k <;> rfl

theorem segX_seg (k : Bool) {v : Bytes} (h : CharsOK v) (hn : Seen v) : Seg v (segX k v) := by
  cases k with
  | false => exact textX_seg h hn
  | true => exact closeX_seg h hn

/-- The delimiters of the emphasis around are asterisks or underscores. -/
def CtxOK (ctx : List Around) : Prop := ∀ c n, .delim c n ∈ ctx → c = 42 ∨ c = 95

theorem CtxOK.close {ctx : List Around} (h : CtxOK ctx) {b : UInt8} (hb : b ∈ ctx.map Around.close) :
    ((b = 42 ∨ b = 95) ∧ ∃ n, .delim b n ∈ ctx) ∨ b = 93 ∧ .bracket ∈ ctx := by
  obtain ⟨a, ha, rfl⟩ := List.mem_map.1 hb
  cases a with
  | delim c n => exact .inl ⟨h c n ha, n, ha⟩
  | bracket => exact .inr ⟨rfl, ha⟩

theorem CtxOK.mem {ctx : List Around} (h : CtxOK ctx) {b : UInt8} (hb : b ∈ ctx.map Around.close) : b ∈ [42, 93, 95] := by
  rcases h.close hb with ⟨rfl | rfl, -⟩ | ⟨rfl, -⟩ <;> decide

/-- Nothing in a text ends what is around it. -/
theorem quiet_seg (hst : IsStock dig hs) {ctx : List Around} (hctx : CtxOK ctx) {k : Bool} (hk : .bracket ∈ ctx → k = true) {v : Bytes} (hc : CharsOK v)
    (hn : Seen v) {Y : List Tok} (hY : Fine Y) (hYs : Starter Y) (hYne : ctx ≠ [] → Y ≠ []) (ht : TextIn ctx v) (rev : Bytes) :
    ∀ d ∈ P hs rev (segX k v) (encX Y), d.1 = false → d.2 ∉ ctx.map Around.close := by
  have hX := segX_seg k hc hn
  rintro ⟨m, b⟩ hd h1 hb
  simp only at h1 hb
  subst h1
  obtain ⟨A, B, eAB⟩ := List.append_of_mem hd
  rcases hctx.close hb with ⟨hb2, n, hm⟩ | ⟨rfl, hm⟩
  · obtain ⟨XA, XB, r, hXe, -, h⟩ := delim_space hst hX.fine hX.raw hY hYs hb2 eAB
    rcases h with h | ⟨-, w, hw, hp⟩
    · exact hYne (by rintro rfl; cases hm) (List.append_eq_nil_iff.1 h).2
    · refine ht b n hm w hw (entityReplace_infix (by simp) ?_ _ (show b :: w <:+: entityReplace v from ?_))
      · intro x hx
        rcases List.mem_cons.1 hx with rfl | hx
        · rcases hb2 with rfl | rfl <;> decide
        · exact (ws_chars w hw).2 x hx
      · rw [← hX.bytes, hXe, List.map_append, List.map_cons]
        obtain ⟨z, hz⟩ := hp
        exact ⟨XA.map Tok.byte, z, by rw [← hz]; simp [Tok.byte]⟩
  · rw [hk hm] at eAB hX
    obtain ⟨XA, x, XB, r1, hXe, -, -, h3⟩ := P_split _ _ _ _ _ _ _ eAB
    have hx : x ∈ closeX v := by rw [show closeX v = segX true v from rfl, hXe]; simp
    rcases h3 with ⟨rfl, -⟩ | ⟨-, h⟩ | ⟨rfl, -⟩
    · exact hX.raw 93 hx (by decide)
    · cases h
    · rcases closeX_mem hx with ⟨-, h⟩ | ⟨h, -⟩
      · exact h rfl
      · cases h

/-- The first character of what follows. -/
theorem seg_head (hst : IsStock dig hs) {v : Bytes} {X Y : List Tok} (hX : Seg v X) (hY : Fine Y) (hYs : Starter Y) (hne : v ≠ []) (rev : Bytes) :
    ∃ b, (renToks (P hs rev (X ++ Y) [])).head? = some b ∧ (v.head? = some b ∧ b ≠ 96 ∨ b = 92 ∨ b = 38 ∧ (v.head? = some 60 ∨ v.head? = some 62)) := by
  have hI := inert_seg hst hX.fine hX.raw hY hYs hX.sep rev
  have e : renToks (P hs rev (X ++ Y) []) = renToks (P hs rev X (encX Y)) ++ renToks (P hs ((encX X).reverse ++ rev) Y []) := by
    rw [P_append, List.append_nil, renToks_append]
  rw [e]
  have hs' : (P hs rev X (encX Y)).map Prod.snd = entityReplace v := by rw [P_snd, hX.bytes]
  generalize P hs rev X (encX Y) = D at *
  cases D with
  | nil => exact absurd (entityReplace_eq_nil hs'.symm) hne
  | cons d D =>
    obtain ⟨m, b⟩ := d
    cases m with
    | true => exact ⟨92, rfl, .inr (.inl rfl)⟩
    | false =>
      refine ⟨b, rfl, ?_⟩
      have hb : (entityReplace v).head? = some b := by rw [← hs']; rfl
      rcases entityReplace_head v with h | ⟨h1, h2⟩
      · left
        refine ⟨by rw [← h]; exact hb, ?_⟩
        rintro rfl
        have := hI.always (false, 96) (by simp) (.inl rfl)
        cases this
      · right; right
        rw [hb] at h2
        simp only [Option.some.injEq] at h2
        exact ⟨h2, h1⟩

/-! ## Emphasis -/

theorem takeWhile_run {c : UInt8} (n : Nat) {s : Bytes} (h : s.head? ≠ some c) :
    (List.replicate n c ++ s).takeWhile (· == c) = List.replicate n c ∧ (List.replicate n c ++ s).dropWhile (· == c) = s := by
  induction n with
  | zero =>
    cases s with
    | nil => exact ⟨rfl, rfl⟩
    | cons b s =>
      have : (b == c) = false := by simpa using h
      simp [this]
  | succ n ih => simp [List.replicate_succ, ih.1, ih.2]

theorem cm_go : ∀ r : Nat, cmWhitespace r = true → isSpaceRune r = true := by
  intro r h
  simp only [cmWhitespace, isSpaceRune, Bool.or_eq_true, Bool.and_eq_true, beq_iff_eq, decide_eq_true_eq] at h ⊢
  omega

theorem edge_of {v : Bytes} {b : UInt8} (h : v.head? = some b ∧ b ≠ 96 ∨ b = 92 ∨ b = 38 ∧ (v.head? = some 60 ∨ v.head? = some 62)) (he : edge v.head? = true) :
    edge (some b) = true := by
  rcases h with ⟨h, -⟩ | rfl | ⟨rfl, -⟩
  · rw [← h]; exact he
  · decide
  · decide

/-- The first byte of a text that is a letter or digit. -/
theorem word_head {v : Bytes} {D : Toks} (hD : D.map Prod.snd = entityReplace v) (hm : ∀ d ∈ D, d.1 = true → d.2 ∈ commonmarkChars)
    (h : v.head?.any isWordByte = true) : (renToks D).head?.any isWordByte = true := by
  have hw : ∀ c ∈ commonmarkChars, isWordByte c = false := by decide
  cases v with
  | nil => cases h
  | cons b v =>
    simp only [List.head?_cons, Option.any_some] at h
    have h1 : b ≠ 60 := by rintro rfl; revert h; decide
    have h2 : b ≠ 62 := by rintro rfl; revert h; decide
    rw [entityReplace_other h1 h2] at hD
    cases D with
    | nil => cases hD
    | cons d D =>
      obtain ⟨m, c⟩ := d
      rw [List.map_cons, List.cons.injEq] at hD
      simp only at hD
      obtain ⟨rfl, -⟩ := hD
      cases m with
      | true => rw [hw c (hm (true, c) (by simp) rfl)] at h; cases h
      | false => exact h

/-- The last character. -/
theorem renToks_last (D : Toks) : (renToks D).getLast? = (D.map Prod.snd).getLast? := by
  rcases List.eq_nil_or_concat D with rfl | ⟨D', d, rfl⟩
  · rfl
  · rw [List.concat_eq_append]
    obtain ⟨m, c⟩ := d
    cases m <;> simp [renToks_append, renToks]

theorem entityReplace_last {v : Bytes} (h : v.getLast?.any isWordByte = true) : (entityReplace v).getLast? = v.getLast? := by
  rcases List.eq_nil_or_concat v with rfl | ⟨v', b, rfl⟩
  · cases h
  · rw [List.concat_eq_append] at *
    simp only [List.getLast?_append, List.getLast?_singleton, Option.some_or, Option.any_some] at h
    have h1 : b ≠ 60 := by rintro rfl; revert h; decide
    have h2 : b ≠ 62 := by rintro rfl; revert h; decide
    rw [entityReplace_append, entityReplace_other h1 h2, entityReplace_nil]
    simp

theorem onlyOpens_true {ctx : List Around} {prev : Option UInt8} {c : UInt8} {n : Nat} {s : Bytes} (hn : 0 < n) (hs : s.head? ≠ some c)
    (h : ∀ m, .delim c m ∈ ctx → prev = some 32 ∧ m ≠ n) : onlyOpens ctx prev (List.replicate n c ++ s) = true := by
  rw [onlyOpens, List.all_eq_true]
  have hh : (List.replicate n c ++ s).head? = some c := by
    obtain ⟨k, rfl⟩ : ∃ k, n = k + 1 := ⟨n - 1, by omega⟩
    rfl
  intro a ha
  cases a with
  | bracket => rfl
  | delim d m =>
    simp only [hh]
    by_cases hd : c = d
    · subst hd
      obtain ⟨h1, h2⟩ := h m ha
      rw [(takeWhile_run n hs).1]
      simp [h1, Ne.symm h2]
    · simp [hd]

theorem onlyOpens_false {ctx : List Around} {prev : Option UInt8} {c : UInt8} {n : Nat} {s : Bytes} (hn : 0 < n) (hs : s.head? ≠ some c)
    (h : .delim c n ∈ ctx) : onlyOpens ctx prev (List.replicate n c ++ s) = false := by
  rw [onlyOpens, List.all_eq_false]
  have hh : (List.replicate n c ++ s).head? = some c := by
    obtain ⟨k, rfl⟩ : ∃ k, n = k + 1 := ⟨n - 1, by omega⟩
    rfl
  refine ⟨_, h, ?_⟩
  simp only [hh]
  rw [(takeWhile_run n hs).1]
  simp

/-- The closing delimiters end the content. -/
theorem read_close {ctx : List Around} {c : UInt8} (hc : c = 42 ∨ c = 95) {n : Nat} (hn : 0 < n) {rest : Bytes} (hrest : rest.head? ≠ some c)
    (prev : Option UInt8) {f : Nat} (hf : (List.replicate n c ++ rest).length < f) :
    readSpans f (.delim c n :: ctx) prev (List.replicate n c ++ rest) = some ([], List.replicate n c ++ rest) := by
  have ho := onlyOpens_false (ctx := .delim c n :: ctx) (prev := prev) hn hrest (by simp)
  obtain ⟨k, rfl⟩ : ∃ k, n = k + 1 := ⟨n - 1, by omega⟩
  have e : List.replicate (k + 1) c ++ rest = c :: (List.replicate k c ++ rest) := rfl
  rw [e] at hf ho ⊢
  cases f with
  | zero => omega
  | succ f =>
    rw [readSpans, if_neg (by rintro ⟨h, -⟩; rcases hc with rfl | rfl <;> cases h), if_neg (by rcases hc with rfl | rfl <;> decide),
      if_neg (by rcases hc with rfl | rfl <;> decide), if_neg (by rintro ⟨-, -, h⟩; rw [ho] at h; cases h),
      if_pos (by simp [Around.close]), if_pos (by simp [Around.close])]

/-- Emphasis is read back. -/
theorem read_emph {ctx : List Around} {c : UInt8} (hc : c = 42 ∨ c = 95) {n : Nat} (hn : n = 1 ∨ n = 2) {prev : Option UInt8} {D rest : Bytes}
    {ss : List Span} {r : List Span × Bytes} (ho : ∀ m, .delim c m ∈ ctx → prev = some 32 ∧ m ≠ n) (hne : D ≠ []) (hD : D.head? ≠ some c)
    (hlead : ∀ w ∈ whitespace, ¬ w <+: D ++ (List.replicate n c ++ rest)) (htr : NoTrailingWhitespace D) (hrest : rest.head? ≠ some c)
    (hl : edge prev = true ∨ c = 42 ∧ D.head?.any isWordByte = true) (hr : edge rest.head? = true ∨ c = 42 ∧ D.getLast?.any isWordByte = true)
    (hin : ∀ f, (D ++ (List.replicate n c ++ rest)).length < f →
      readSpans f (.delim c n :: ctx) (some c) (D ++ (List.replicate n c ++ rest)) = some (ss, List.replicate n c ++ rest))
    (hread : ∀ f, rest.length < f → readSpans f ctx (some c) rest = some r) :
    ∀ f, (List.replicate n c ++ (D ++ (List.replicate n c ++ rest))).length < f →
      readSpans f ctx prev (List.replicate n c ++ (D ++ (List.replicate n c ++ rest))) = some (pushSpan (if n = 1 then .em ss else .strong ss) r) := by
  have hhead : (D ++ (List.replicate n c ++ rest)).head? = D.head? := by
    cases D with
    | nil => exact absurd rfl hne
    | cons d D => rfl
  have hdc : (D ++ (List.replicate n c ++ rest)).head? ≠ some c := by rw [hhead]; exact hD
  have hoo := onlyOpens_true (n := n) (by omega) hdc ho
  have hop : opens c (List.replicate (n - 1) c ++ (D ++ (List.replicate n c ++ rest))) = true := by
    rw [opens, (takeWhile_run (n - 1) hdc).2]
    have h1 : (D ++ (List.replicate n c ++ rest)).isEmpty = false := by
      cases D with
      | nil => exact absurd rfl hne
      | cons d D => rfl
    have h2 : cmWhitespace (decodeRune (D ++ (List.replicate n c ++ rest))).1 = false := by
      cases hcm : cmWhitespace (decodeRune (D ++ (List.replicate n c ++ rest))).1 with
      | false => rfl
      | true =>
        obtain ⟨w, hw, hp⟩ := space_prefix (cm_go _ hcm)
        exact absurd hp (hlead w hw)
    simp [h1, h2]
  have hn3 : ∀ s : Bytes, List.replicate n c ++ s = c :: (List.replicate (n - 1) c ++ s) := by
    intro s
    obtain ⟨k, rfl⟩ : ∃ k, n = k + 1 := ⟨n - 1, by omega⟩
    rfl
  have hrun := takeWhile_run n hdc
  have hrun2 := takeWhile_run n hrest
  have hso : surelyOpens c n prev (D ++ (List.replicate n c ++ rest)) = true := by
    rw [surelyOpens, hhead]
    simp only [Bool.and_eq_true, Bool.or_eq_true, beq_iff_eq]
    exact ⟨hn, hl⟩
  have htake : (D ++ (List.replicate n c ++ rest)).take ((D ++ (List.replicate n c ++ rest)).length - (List.replicate n c ++ rest).length) = D := by
    rw [List.length_append, Nat.add_sub_cancel, List.take_left]
  have hsc : surelyCloses c n D (List.replicate n c ++ rest) = true := by
    rw [surelyCloses, hrun2.1, hrun2.2]
    simp only [List.length_replicate, beq_self_eq_true, Bool.true_and, Bool.and_eq_true, Bool.or_eq_true, beq_iff_eq, List.all_eq_true]
    refine ⟨fun w hw => ?_, hr⟩
    have := htr w hw
    rw [← List.isSuffixOf_iff_suffix] at this
    cases h : w.isSuffixOf D with
    | false => rfl
    | true => exact absurd h this
  intro f hf
  cases f with
  | zero => omega
  | succ f =>
    have hnpos : 1 ≤ n := by omega
    have hlen : (D ++ (List.replicate n c ++ rest)).length < f := by
      rw [List.length_append, List.length_replicate] at hf; omega
    have hlen2 : rest.length < f := by
      simp only [List.length_append] at hlen; omega
    have e1 : (c :: (List.replicate (n - 1) c ++ (D ++ (List.replicate n c ++ rest)))).takeWhile (· == c) = List.replicate n c := by
      rw [← hn3]; exact hrun.1
    have e2 : (List.replicate (n - 1) c ++ (D ++ (List.replicate n c ++ rest))).dropWhile (· == c) = D ++ (List.replicate n c ++ rest) :=
      (takeWhile_run (n - 1) hdc).2
    rw [hn3 (D ++ _)] at hoo ⊢
    rw [readSpans, if_neg (by rintro ⟨h, -⟩; rcases hc with rfl | rfl <;> cases h), if_neg (by rcases hc with rfl | rfl <;> decide),
      if_neg (by rcases hc with rfl | rfl <;> decide), if_pos ⟨hc, hop, hoo⟩]
    simp only [e1, e2, List.length_replicate]
    rw [if_pos hso, hin f hlen]
    simp only [Option.bind_some]
    rw [htake, if_pos hsc, hrun2.2, hread f hlen2]
    rfl

/-! ## Code -/

theorem trimmed_id {s mid : Bytes} (h : Trimmed s mid) (hl : NoLeadingWhitespace s) (ht : NoTrailingWhitespace s) : mid = s := by
  obtain ⟨l, r, ⟨ws, hws, rfl⟩, ⟨ws2, hws2, rfl⟩, e, -, -⟩ := h
  have h1 : ws = [] := by
    cases ws with
    | nil => rfl
    | cons w ws =>
      refine absurd ?_ (hl w (hws w (by simp)))
      rw [e]
      exact ⟨ws.flatten ++ mid ++ ws2.flatten, by simp⟩
  have h2 : ws2 = [] := by
    rcases List.eq_nil_or_concat ws2 with h | ⟨ws2', w, rfl⟩
    · exact h
    · rw [List.concat_eq_append] at *
      refine absurd ?_ (ht w (hws2 w (by simp)))
      rw [e]
      exact ⟨ws.flatten ++ mid ++ ws2'.flatten, by simp⟩
  subst h1; subst h2
  rw [e]; simp

section
variable {c : Bytes} (h : SpanCodeOK c)
include h

theorem _root_.Verif.Spec.SpanCodeOK.asSpaces : asSpaces c = c := by
  have : ∀ b ∈ c, (fun b : UInt8 => if b = 10 ∨ b = 9 then 32 else b) b = id b := by
    intro b hb
    have := h.chars b hb
    refine if_neg ?_
    rintro (rfl | rfl) <;> exact absurd this (by decide)
  rw [Spec.asSpaces, List.map_congr_left this, List.map_id]

theorem _root_.Verif.Spec.SpanCodeOK.visible : ¬ AllWhitespace c := by
  rintro ⟨ws, hws, e⟩
  cases ws with
  | nil => exact h.nonempty e.symm
  | cons w ws => exact h.leading w (hws w (by simp)) ⟨ws.flatten, by rw [← e]; rfl⟩

theorem _root_.Verif.Spec.SpanCodeOK.eq : ∃ k, inlineCode c = List.replicate (k + 1) 96 ++ ((if c.head? = some 96 then [32] else []) ++ c ++
    (if c.getLast? = some 96 then [32] else [])) ++ List.replicate (k + 1) 96 := by
  obtain ⟨mid, hT, -, e⟩ := inlineCode_eq h.visible
  rw [h.asSpaces] at hT
  obtain rfl := trimmed_id hT h.leading h.trailing
  rw [squeeze_id h.no_two] at e
  exact ⟨_, e⟩

theorem _root_.Verif.Spec.SpanCodeOK.mem : ∀ b ∈ inlineCode c, b ∈ c ∨ b = 96 ∨ b = 32 := by
  obtain ⟨k, e⟩ := h.eq
  rw [e]
  intro b hb
  simp only [List.mem_append, List.mem_replicate] at hb
  rcases hb with (hb | (hb | hb) | hb) | hb
  · exact .inr (.inl hb.2)
  · split at hb
    · exact .inr (.inr (by simpa using hb))
    · cases hb
  · exact .inl hb
  · split at hb
    · exact .inr (.inr (by simpa using hb))
    · cases hb
  · exact .inr (.inl hb.2)

theorem _root_.Verif.Spec.SpanCodeOK.fine : Fine (rawX (inlineCode c)) := by
  refine rawX_fine ?_
  intro b hb
  rcases h.mem b hb with hb | rfl | rfl
  · have := h.chars b hb
    revert this
    exact forall_u8 (P := fun b => 32 ≤ b → b ∉ [0, 7, 10, 13]) (by decide +kernel) b
  · decide
  · decide

theorem _root_.Verif.Spec.SpanCodeOK.head : ∃ s, inlineCode c = 96 :: s := by
  obtain ⟨k, e⟩ := h.eq
  exact ⟨_, by rw [e]; rfl⟩

theorem _root_.Verif.Spec.SpanCodeOK.read {rest : Bytes} (hr : rest.head? ≠ some 96) : readCodeSpan (inlineCode c ++ rest) = some (c, rest) := by
  have h13 : 13 ∉ c := fun hm => absurd (h.chars 13 hm) (by decide)
  obtain ⟨mid, hT, e⟩ := Props.c18_code_span_partial c rest h.visible h13 hr
  rw [h.asSpaces] at hT
  obtain rfl := trimmed_id hT h.leading h.trailing
  rw [squeeze_id h.no_two, if_neg, if_neg] at e
  · simpa using e
  · rintro ⟨h1, h2⟩; exact h1 (h.ticks.2 h2)
  · rintro ⟨h1, h2⟩; exact h2 (h.ticks.1 h1)

/-- Code is read back. -/
theorem read_code {ctx : List Around} {Y : List Tok} {prev : Option UInt8} {rev : Bytes} {r : List Span} {E : Bytes → Bytes}
    (hrest : ∀ rev, (renToks (P hs rev Y [])).head? ≠ some 96)
    (hread : ∀ rev f, (renToks (P hs rev Y [])).length < f → readSpans f ctx (some 96) (renToks (P hs rev Y [])) = some (r, E rev)) :
    ∀ f, (renToks (P hs rev (rawX (inlineCode c) ++ Y) [])).length < f →
      readSpans f ctx prev (renToks (P hs rev (rawX (inlineCode c) ++ Y) [])) = some (.code c :: r, E ((inlineCode c).reverse ++ rev)) := by
  intro f hf
  rw [P_raw, renToks_append, ren_map_raw] at hf ⊢
  have h1 := h.read (hrest ((inlineCode c).reverse ++ rev))
  have h2 := hread ((inlineCode c).reverse ++ rev)
  generalize renToks (P hs ((inlineCode c).reverse ++ rev) Y []) = rest at *
  obtain ⟨s, e⟩ := h.head
  rw [e] at h1 hf ⊢
  cases f with
  | zero => omega
  | succ f =>
    simp only [List.cons_append, List.length_cons, List.length_append] at h1 hf ⊢
    rw [readSpans, if_neg (by simp), if_neg (by decide), if_pos rfl, h1]
    simp only [Option.bind_some]
    rw [h2 f (by omega), e]
    rfl
end

/-! ## Links and images -/

theorem enclosed_ren : ∀ (D : Toks), (∀ d ∈ D, d.1 = true → isPunct d.2 = true) → (∀ d ∈ D, d.1 = false → d.2 ≠ 91 ∧ d.2 ≠ 93 ∧ d.2 ≠ 92) →
    Enclosed (renToks D) := by
  intro D
  induction D with
  | nil => intro _ _; exact .nil
  | cons d D ih =>
    intro h1 h2
    have ih := ih (fun x hx => h1 x (by simp [hx])) (fun x hx => h2 x (by simp [hx]))
    obtain ⟨m, b⟩ := d
    cases m with
    | true => exact .escaped (h1 (true, b) (by simp) rfl) ih
    | false =>
      obtain ⟨a1, a2, a3⟩ := h2 (false, b) (by simp) rfl
      exact .plain a1 a2 a3 ih

theorem _root_.Verif.Spec.AttrOK.noEscapes {t : Bytes} (h : AttrOK t) : Props.NoEscapes t := by
  intro a b e
  exact absurd rfl ((h.chars 92 (by rw [e]; simp)).2.2.1)

/-- Reading a link without brackets in its text. -/
theorem readLink_written {D : Toks} (h1 : ∀ d ∈ D, d.1 = true → isPunct d.2 = true) (h2 : ∀ d ∈ D, d.1 = false → d.2 ≠ 91 ∧ d.2 ≠ 93 ∧ d.2 ≠ 92)
    {dest title : Bytes} (hd : AttrOK dest) (hp : PlainDestination dest) (ht : AttrOK title) (rest : Bytes) :
    readLink (91 :: (renToks D ++ b!"](" ++ dest ++ titlePart title ++ b!")") ++ rest) = some (renToks D, dest, title, rest) := by
  rw [readLink, Links.read_written (enclosed_ren D h1 h2) hp ht.noEscapes]
  simp only [Option.bind_some]
  rw [if_pos]
  refine ⟨?_, fun b hb => ?_, hd.no_entity, fun b hb => ?_, ht.no_entity⟩
  · rw [read_ren D h1 (fun d hd h => (h2 d hd h).2.2)]
    intro hm
    exact (h2 _ hm rfl).1 rfl
  · exact (hd.chars b hb).2
  · have := (ht.chars b hb).2
    exact ⟨this.1, this.2.2⟩

/-- What follows the text of a link. -/
def linkEnd (dest title : Bytes) : Bytes := b!"](" ++ dest ++ titlePart title ++ b!")"

theorem surround_mem {t : Bytes} : ∀ b ∈ titlePart t, b ∈ t ∨ b = 34 ∨ b = 39 ∨ b = 92 ∨ b = 32 := by
  have h2 : ∀ b ∈ replaceAll [34] [92, 34] t, b ∈ t ∨ b = 34 ∨ b = 39 ∨ b = 92 ∨ b = 32 := by
    intro b hm
    rw [replaceAll_one] at hm
    obtain ⟨x, hx, hm⟩ := List.mem_flatMap.1 hm
    split at hm
    · simp at hm; grind
    · simp at hm; exact .inl (hm ▸ hx)
  intro b hb
  rw [titlePart] at hb
  split at hb
  · rcases List.mem_cons.1 hb with hb | hb
    · exact .inr (.inr (.inr (.inr hb)))
    · simp only [TextUtils.surroundByQuotes, TextUtils.surroundBy] at hb
      split at hb
      · cases hb
      · split at hb
        · simp only [List.mem_append, List.mem_singleton] at hb
          rcases hb with (hb | hb) | hb
          · grind
          · exact h2 b hb
          · grind
        · split at hb <;> simp only [List.mem_append, List.mem_singleton] at hb <;> grind
  · cases hb

theorem linkEnd_fine {dest title : Bytes} (hd : AttrOK dest) (ht : AttrOK title) : Fine (rawX (linkEnd dest title)) := by
  refine rawX_fine ?_
  have hlo : ∀ b : UInt8, 32 ≤ b → b ∉ [0, 7, 10, 13] := forall_u8 (P := fun b => 32 ≤ b → b ∉ [0, 7, 10, 13]) (by decide +kernel)
  intro b hb
  simp only [linkEnd, List.mem_append] at hb
  rcases hb with ((hb | hb) | hb) | hb
  · revert hb b; decide
  · exact hlo b (hd.chars b hb).1
  · rcases surround_mem b hb with hb | rfl | rfl | rfl | rfl
    · exact hlo b (ht.chars b hb).1
    all_goals decide
  · revert hb b; decide

/-- The closing bracket ends the text of a link. -/
theorem read_closing {ctx : List Around} (rest : Bytes) (prev : Option UInt8) {f : Nat} (hf : (93 :: rest).length < f) :
    readSpans f (.bracket :: ctx) prev (93 :: rest) = some ([], 93 :: rest) := by
  cases f with
  | zero => omega
  | succ f =>
    rw [readSpans, if_neg (by simp), if_neg (by decide), if_neg (by decide), if_neg (by simp), if_pos (by simp [Around.close]), if_pos (by simp [Around.close])]

/-- A link is read back. -/
theorem read_link {ctx : List Around} (hctx : CtxOK ctx) (hb : .bracket ∉ ctx) {dest title : Bytes} (hd : AttrOK dest) (hp : PlainDestination dest)
    (htt : AttrOK title) {prev : Option UInt8} {D rest : Bytes} {ss : List Span} {r : List Span × Bytes}
    (hin : ∀ f, (D ++ (linkEnd dest title ++ rest)).length < f →
      readSpans f (.bracket :: ctx) (some 91) (D ++ (linkEnd dest title ++ rest)) = some (ss, linkEnd dest title ++ rest))
    (hread : ∀ f, rest.length < f → readSpans f ctx (some 41) rest = some r) :
    ∀ f, (91 :: (D ++ (linkEnd dest title ++ rest))).length < f →
      readSpans f ctx prev (91 :: (D ++ (linkEnd dest title ++ rest))) = some (pushSpan (.link dest title ss) r) := by
  have hl := readLink_written (D := []) (by simp) (by simp) hd hp htt rest
  have e2 : 91 :: (renToks [] ++ b!"](" ++ dest ++ titlePart title ++ b!")") ++ rest = 91 :: (linkEnd dest title ++ rest) := by
    simp [linkEnd, renToks]
  rw [e2] at hl
  have h91 : 91 ∉ ctx.map Around.close := fun h => absurd (hctx.mem h) (by decide)
  intro f hf
  cases f with
  | zero => omega
  | succ f =>
    have hlen : (D ++ (linkEnd dest title ++ rest)).length < f := by rw [List.length_cons] at hf; omega
    have hlen2 : rest.length < f := by simp only [List.length_append] at hlen; omega
    rw [readSpans, if_neg (by simp), if_neg (by decide), if_neg (by decide), if_neg (by simp), if_neg h91, if_pos ⟨rfl, by simp [linkEnd]⟩, if_neg hb, hin f hlen]
    simp only [Option.bind_some]
    rw [hl]
    simp only [Option.bind_some]
    rw [hread f hlen2]
    rfl

/-- The characters of an alternative text. -/
def altToks (v : Bytes) : Toks := v.map fun b => (b == 91 || b == 93, b)

theorem escapeAlt_toks {v : Bytes} (h : 92 ∉ v) : escapeAlt v = renToks (altToks v) := by
  have key : ∀ (v : Bytes) (prev : Option UInt8), 92 ∉ v → prev ≠ some 92 → escapeAltGo prev v = renToks (altToks v) := by
    intro v
    induction v with
    | nil => intro _ _ _; rfl
    | cons b v ih =>
      intro prev h hp
      simp only [List.mem_cons, not_or] at h
      have ih := ih (some b) h.2 (by simpa using Ne.symm h.1)
      rw [escapeAltGo, altToks, List.map_cons]
      by_cases hb : b = 91 ∨ b = 93
      · rw [if_pos ⟨hb, hp⟩, ih]
        have : (b == 91 || b == 93) = true := by simpa using hb
        rw [this, renToks_cons_t]; rfl
      · rw [if_neg (fun h => hb h.1), ih]
        have : (b == 91 || b == 93) = false := by simpa using hb
        rw [this, renToks_cons_f]; rfl
  exact key v none h (by simp)

theorem alt_entity : ∀ (v : Bytes) (seen : Bool), entityLikeGo seen v = false → entityLikeGo seen (renToks (altToks v)) = false := by
  intro v
  induction v with
  | nil => intro _ h; exact h
  | cons b v ih =>
    intro seen h
    by_cases hb : (b == 91 || b == 93) = true
    · have e : renToks (altToks (b :: v)) = 92 :: b :: renToks (altToks v) := by rw [altToks, List.map_cons, hb]; rfl
      rw [e, entityLikeGo, if_neg (by decide), show ((92 : UInt8) == 59) = false by decide, Bool.and_false]
    · have hb : (b == 91 || b == 93) = false := by simpa using hb
      have e : renToks (altToks (b :: v)) = b :: renToks (altToks v) := by rw [altToks, List.map_cons, hb]; rfl
      rw [e]
      rw [entityLikeGo] at h ⊢
      split at h
      · rename_i hw; rw [if_pos hw]; exact ih true h
      · rename_i hw; rw [if_neg hw]; exact h

theorem alt_head (v : Bytes) : (renToks (altToks v)).head? ≠ some 91 := by
  cases v with
  | nil => simp [altToks, renToks]
  | cons b v =>
    by_cases hb : (b == 91 || b == 93) = true
    · rw [altToks, List.map_cons, hb]; simp
    · have hb : (b == 91 || b == 93) = false := by simpa using hb
      rw [altToks, List.map_cons, hb, renToks_cons_f]
      simp at hb
      simpa using hb.1

theorem read_alt : ∀ (v : Bytes) (prev : Option UInt8) (f : Nat), (∀ b ∈ v, b ≠ 60 ∧ b ≠ 92 ∧ b ≠ 96 ∧ b ≠ 42 ∧ b ≠ 95) → hasEntity v = false →
    (renToks (altToks v)).length < f → readSpans f [] prev (renToks (altToks v)) = some (v.foldr pushChar ([], [])) := by
  intro v
  induction v with
  | nil =>
    intro prev f _ _ hf
    cases f with
    | zero => omega
    | succ f => rfl
  | cons b v ih =>
    intro prev f h hE hf
    rw [hasEntity, Bool.or_eq_false_iff] at hE
    have h' : ∀ b ∈ v, b ≠ 60 ∧ b ≠ 92 ∧ b ≠ 96 ∧ b ≠ 42 ∧ b ≠ 95 := fun x hx => h x (by simp [hx])
    cases f with
    | zero => omega
    | succ f =>
    by_cases hb : (b == 91 || b == 93) = true
    · have e : renToks (altToks (b :: v)) = 92 :: b :: renToks (altToks v) := by rw [altToks, List.map_cons, hb]; rfl
      rw [e] at hf ⊢
      have hp : isPunct b = true := by
        simp at hb
        rcases hb with rfl | rfl <;> decide
      rw [readSpans, if_pos ⟨rfl, by simpa using hp⟩]
      simp only [List.length_cons] at hf
      simp only [List.tail_cons, List.headD_cons]
      rw [ih _ f h' hE.2 (by omega)]
      rfl
    · have hb : (b == 91 || b == 93) = false := by simpa using hb
      have e : renToks (altToks (b :: v)) = b :: renToks (altToks v) := by rw [altToks, List.map_cons, hb]; rfl
      rw [e] at hf ⊢
      simp only [List.length_cons] at hf
      obtain ⟨a1, a2, a3, a4, a5⟩ := h b (by simp)
      simp at hb
      have hent : b = 38 → entityLike (renToks (altToks v)) = false := by
        rintro rfl
        exact alt_entity v false (show entityLike v = false by simpa using hE.1)
      rw [readSpans, if_neg (fun h => a2 h.1), if_neg a1, if_neg a3, if_neg (fun h => h.1.elim a4 a5), if_neg (by simp), if_neg (fun h => hb.1 h.1),
        if_neg (fun h => alt_head v h.2.1), if_neg, if_neg, if_neg, ih _ f h' hE.2 (by omega)]
      · rfl
      · rintro ⟨h, h2⟩
        rw [hent h] at h2; cases h2
      · rintro ⟨h, h2⟩
        have := entityLike_word (w := b!"gt") h2 (by decide) (by decide)
        rw [hent h] at this; cases this
      · rintro ⟨h, h2⟩
        have := entityLike_word (w := b!"lt") h2 (by decide) (by decide)
        rw [hent h] at this; cases this

theorem onlyText_foldr (v : Bytes) : onlyText (v.foldr consChar []) = some v := by
  cases v with
  | nil => rfl
  | cons b v => rw [foldr_text (b :: v) [] (by simp) (by simp)]; rfl

/-- An image is read back. -/
theorem read_image {alt dest title : Bytes} (ha : AttrOK alt) (h42 : 42 ∉ alt) (h95 : 95 ∉ alt) (hd : AttrOK dest) (hp : PlainDestination dest) (htt : AttrOK title)
    {ctx : List Around} (hctx : CtxOK ctx) {Y : List Tok} {prev : Option UInt8} {rev : Bytes} {r : List Span} {E : Bytes → Bytes}
    (hread : ∀ rev f, (renToks (P hs rev Y [])).length < f → readSpans f ctx (some 41) (renToks (P hs rev Y [])) = some (r, E rev)) :
    ∀ f, (renToks (P hs rev (rawX (b!"![" ++ escapeAlt alt ++ linkEnd dest title) ++ Y) [])).length < f →
      readSpans f ctx prev (renToks (P hs rev (rawX (b!"![" ++ escapeAlt alt ++ linkEnd dest title) ++ Y) [])) =
        some (.image dest title alt :: r, E ((b!"![" ++ escapeAlt alt ++ linkEnd dest title).reverse ++ rev)) := by
  have h33 : 33 ∉ ctx.map Around.close := fun h => absurd (hctx.mem h) (by decide)
  have h92 : 92 ∉ alt := fun h => (ha.chars 92 h).2.2.1 rfl
  rw [P_raw, renToks_append, ren_map_raw, escapeAlt_toks h92]
  have hread' := hread ((b!"![" ++ renToks (altToks alt) ++ linkEnd dest title).reverse ++ rev)
  generalize renToks (P hs ((b!"![" ++ renToks (altToks alt) ++ linkEnd dest title).reverse ++ rev) Y []) = rest at *
  have d1 : ∀ d ∈ altToks alt, d.1 = true → isPunct d.2 = true := by
    intro d hd h
    obtain ⟨b, hb, rfl⟩ := List.mem_map.1 hd
    simp at h
    rcases h with rfl | rfl <;> decide
  have d2 : ∀ d ∈ altToks alt, d.1 = false → d.2 ≠ 91 ∧ d.2 ≠ 93 ∧ d.2 ≠ 92 := by
    intro d hd h
    obtain ⟨b, hb, rfl⟩ := List.mem_map.1 hd
    simp at h
    exact ⟨h.1, h.2, fun e => h92 (e ▸ hb)⟩
  have hl := readLink_written d1 d2 hd hp htt rest
  have hin := fun f => read_alt alt (some 91) f (fun b hb => ⟨(ha.chars b hb).2.1, (ha.chars b hb).2.2.1, (ha.chars b hb).2.2.2,
    fun e => h42 (e ▸ hb), fun e => h95 (e ▸ hb)⟩) ha.no_entity
  have e2 : 91 :: (renToks (altToks alt) ++ b!"](" ++ dest ++ titlePart title ++ b!")") ++ rest = 91 :: (renToks (altToks alt) ++ (linkEnd dest title ++ rest)) := by
    simp [linkEnd]
  rw [e2] at hl
  have e3 : b!"![" ++ renToks (altToks alt) ++ linkEnd dest title ++ rest = 33 :: 91 :: (renToks (altToks alt) ++ (linkEnd dest title ++ rest)) := by
    simp
  rw [e3]
  intro f hf
  cases f with
  | zero => omega
  | succ f =>
    have hlen : (renToks (altToks alt) ++ (linkEnd dest title ++ rest)).length = (renToks (altToks alt)).length + (linkEnd dest title).length + rest.length := by
      simp [Nat.add_assoc]
    rw [List.length_cons, List.length_cons, hlen] at hf
    rw [readSpans, if_neg (by simp), if_neg (by decide), if_neg (by decide), if_neg (by simp), if_neg h33, if_neg (by simp),
      if_pos ⟨rfl, rfl, by simp [linkEnd]⟩, hl]
    simp only [Option.bind_some]
    rw [hin f (by omega), hread' f (by omega), Option.bind_some, foldr_push, onlyText_foldr]
    rfl

end Verif.Page
