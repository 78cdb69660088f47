import Verif.Proofs.PagePieces
import Verif.Props.Fenced
/-!
# Pieces of a page that are not lists
-/
namespace Verif.Page
open Verif Verif.Escape Verif.Spec Verif.Commonmark Verif.TextUtils

variable {dig : Nat → Bool} {hs : List Handler} {bullet : Bytes}

theorem out_mem {p : Piece} {b : UInt8} (h : b ∈ p.out hs) : b = 92 ∨ b ∈ p.toks.map Prod.snd := by
  rw [Piece.out, renToks_by] at h
  have := encBy_mem h
  rwa [W_snd] at this

theorem out_mark {p : Piece} (h : WF p.toks) : MARK ∉ p.out hs := by
  intro hm
  rcases out_mem hm with hm | hm
  · exact absurd hm (by decide)
  · rw [List.mem_map] at hm
    obtain ⟨t, ht, e⟩ := hm
    exact (h t ht).1 e

theorem fin_line {p : Piece} {l : Bytes} (e : p.out hs = l) (h10 : 10 ∉ l) (hc : ¬ codeNewline <:+: l) : p.fin hs = [l] := by
  rw [Piece.fin, e, restoreCodeNewlines, replaceAll_id hc, lines, splitOn_of_no_sep h10]

/-! ## Text -/

/-- A paragraph. -/
def paraPiece (v : Bytes) : Piece := ⟨textToks (entityReplace v), [.paragraph [.text v]], false⟩

theorem para_ok (hst : IsStock dig hs) (hdig : Props.DigitsOK dig) {v : Bytes} (hbul : bullet ∈ [b!"-", b!"+", b!"*"]) (h : Text bullet v) :
    (paraPiece v).OK hs bullet := by
  have hl := para_line hst hdig hbul h
  have ef : (paraPiece v).fin hs = [renToks (W hs [] 0 (textToks (entityReplace v)))] := fin_line rfl hl.bytes.1 hl.code
  refine ⟨h.wf, ?_, ?_, ?_, ?_, hl.bytes.2, out_mark h.wf⟩
  · exact solid_line h.enc_ne h.enc_leading h.enc_trailing (h.enc_not (by decide) h.u_nl) h.enc_code
  · exact solid_line hl.nonempty hl.leading hl.trailing hl.bytes.1 hl.code
  · rw [ef]; exact reads_para hl
  · rw [ef]; exact ⟨_, _, rfl, hl.visible, hl.first, fun _ => .inl hl.marker⟩

/-! ## Headings -/

theorem noLeading_of_head {b : UInt8} (hb : ∀ w ∈ whitespace, b ∉ w) (s : Bytes) : NoLeadingWhitespace (b :: s) := by
  intro w hw hp
  cases w with
  | nil => revert hw; decide
  | cons c w =>
    rw [List.cons_prefix_cons] at hp
    exact hb _ hw (by rw [hp.1]; simp)

theorem noTrailing_of_last {b : UInt8} (hb : ∀ w ∈ whitespace, b ∉ w) (s : Bytes) : NoTrailingWhitespace (s ++ [b]) := by
  intro w hw hp
  rcases List.eq_nil_or_concat w with rfl | ⟨w', c, rfl⟩
  · revert hw; decide
  · rw [List.concat_eq_append] at hp hw
    obtain ⟨z, e⟩ := hp
    rw [← List.append_assoc] at e
    have := (List.append_inj' e rfl).2
    simp at this
    exact hb _ hw (by rw [this]; simp)

theorem first_of {l : Bytes} {x : UInt8} (hbul : bullet ∈ [b!"-", b!"+", b!"*"]) (h : x ∈ l) (hx : x ∉ [45, 43, 42, 32, 9]) : First bullet l := by
  right
  simp at hx
  refine ⟨x, h, ?_, hx.2.2.2⟩
  simp at hbul
  rcases hbul with rfl | rfl | rfl <;> simp [hx]

theorem atx_ok {n : Nat} (h1 : 1 ≤ n) {spans : List Span} {T : Toks} (hbul : bullet ∈ [b!"-", b!"+", b!"*"]) (h : AtxLine hs n spans T) :
    (Piece.mk T [.heading n spans] false).OK hs bullet := by
  obtain ⟨text, e, ha, hp, h10, h13, h0, hc⟩ := h.read
  obtain ⟨m, rfl⟩ : ∃ m, n = m + 1 := ⟨n - 1, by omega⟩
  have hcons : List.replicate (m + 1) 35 ++ 32 :: text = 35 :: (List.replicate m 35 ++ 32 :: text) := by rw [List.replicate_succ]; rfl
  have h35 : ∀ w ∈ whitespace, (35 : UInt8) ∉ w := by decide
  have hmem : ∀ b, b ∉ text → b ≠ 35 → b ≠ 32 → b ∉ List.replicate (m + 1) 35 ++ 32 :: text := by
    intro b hb hb1 hb2 hm
    rw [List.mem_append, List.mem_replicate, List.mem_cons] at hm
    rcases hm with hm | hm | hm
    · exact hb1 hm.2
    · exact hb2 hm
    · exact hb hm
  have hcode : ¬ codeNewline <:+: List.replicate (m + 1) 35 ++ 32 :: text := by
    intro hi
    rw [← e, renToks_by] at hi
    have := encBy_infix (by decide) (by decide) _ hi
    rw [W_snd] at this
    exact h.code this
  have hout : (Piece.mk T [.heading (m + 1) spans] false).out hs = List.replicate (m + 1) 35 ++ 32 :: text := e
  have ef := fin_line hout (hmem 10 h10 (by decide) (by decide)) hcode
  have hv : Visible (List.replicate (m + 1) 35 ++ 32 :: text) := by rw [hcons]; exact ⟨by simp, by simp, by simp⟩
  have ht : isThematicBreak (List.replicate (m + 1) 35 ++ 32 :: text) = false := by rw [hcons, isThematicBreak]; simp
  have hm : readMarker (List.replicate (m + 1) 35 ++ 32 :: text) = none := by rw [hcons, readMarker.eq_def]; simp [isDigit]
  refine ⟨h.wf, ?_, ?_, ?_, ?_, ?_, out_mark h.wf⟩
  · obtain ⟨x, ex⟩ := h.enc
    refine solid_line (by rw [Piece.raw, ex]; simp) (by rw [Piece.raw, ex]; exact noLeading_of_head h35 x) ?_ h.no_nl ?_
    · rw [Piece.raw, encToks_by]; exact encBy_noTrailing ws_mark h.trailing
    · intro hi
      rw [Piece.raw, encToks_by] at hi
      exact h.code (encBy_infix (by decide) (by decide) _ hi)
  · rw [hout]
    refine solid_line (by simp) (by rw [hcons]; exact noLeading_of_head h35 _) ?_ (hmem 10 h10 (by decide) (by decide)) hcode
    rw [← e, renToks_by]; exact encBy_noTrailing ws_bs (by rw [W_snd]; exact h.trailing)
  · rw [ef]; exact reads_atx hv ht ha hp
  · rw [ef]; exact ⟨_, _, rfl, hv, first_of (x := 35) hbul (by rw [hcons]; simp) (by decide), fun _ => .inl hm⟩
  · rw [hout]; exact ⟨hmem 13 h13 (by decide) (by decide), hmem 0 h0 (by decide) (by decide)⟩

/-- Two lines. -/
theorem solid_two {x u : Bytes} (hx : x ≠ []) (hl : NoLeadingWhitespace x) (ht : NoTrailingWhitespace x) (hx10 : 10 ∉ x)
    (hxc : ¬ codeNewline <:+: x) (hu : u ≠ []) (hut : NoTrailingWhitespace u) (hu10 : 10 ∉ u) (huc : ¬ codeNewline <:+: u) :
    Solid (x ++ 10 :: u) := by
  refine ⟨by simp, leading_append hx hl u, trailing_append hu hut x, fun d hd => ?_, fun h => huc (suffix_cut (by decide) h).isInfix⟩
  rw [soft_cut (by decide), soft_id hxc, soft_id huc, danger_append]
  obtain ⟨x', c, rfl, h1, h2⟩ := last_split hx ht
  obtain ⟨u', c', rfl, h3, h4⟩ := last_split hu hut
  rw [danger_last (fun h => hx10 (by simp [h])) hd h1 h2, Option.bind_some, danger, if_pos rfl, if_pos (by omega)]
  exact danger_last (fun h => hu10 (by simp [h])) (by omega) h3 h4

theorem underline_facts {u : Bytes} (hu : u ≠ []) (h : ∀ b ∈ u, b = 61 ∨ b = 45) :
    NoTrailingWhitespace u ∧ 10 ∉ u ∧ 13 ∉ u ∧ 0 ∉ u ∧ ¬ codeNewline <:+: u := by
  have hn : ∀ b, b ≠ 61 → b ≠ 45 → b ∉ u := fun b h1 h2 hb => by
    rcases h b hb with h | h
    · exact h1 h
    · exact h2 h
  refine ⟨?_, hn _ (by decide) (by decide), hn _ (by decide) (by decide), hn _ (by decide) (by decide), ?_⟩
  · rw [← List.dropLast_concat_getLast hu]
    have : u.getLast hu = 61 ∨ u.getLast hu = 45 := h _ (List.getLast_mem hu)
    rcases this with e | e <;> (rw [e]; exact noTrailing_of_last (by decide) _)
  · intro hi
    exact hn 239 (by decide) (by decide) (hi.subset (by decide))

theorem setext_ok {n : Nat} (hn : n = 1 ∨ n = 2) {spans : List Span} {ts T : Toks} (h : SetextLines hs bullet n spans ts T) :
    (Piece.mk T [.heading n spans] false).OK hs bullet := by
  obtain ⟨l, u, e, hl, hu, hh, hb⟩ := h.read
  have hune : u ≠ [] := by rintro rfl; simp at hh
  obtain ⟨u1, u2, u3, u4, u5⟩ := underline_facts hune hb
  have hout : (Piece.mk T [.heading n spans] false).out hs = l ++ 10 :: u := e
  have ef : (Piece.mk T [.heading n spans] false).fin hs = [l, u] := by
    rw [Piece.fin, hout, restore_cut (by decide), restoreCodeNewlines, restoreCodeNewlines, replaceAll_id hl.code, replaceAll_id u5, lines,
      splitOn_append, splitOn_of_no_sep hl.bytes.1, splitOn_of_no_sep u2]
    rfl
  refine ⟨h.wf, ?_, ?_, ?_, ?_, ?_, out_mark h.wf⟩
  · obtain ⟨x, y, c, ex, x1, x2, x3, x4, x5, x6, x7⟩ := h.enc
    obtain ⟨y1, y2, y3, y4, y5⟩ := underline_facts (u := y ++ [c]) (by simp) x7
    rw [Piece.raw, ex, List.append_assoc, List.cons_append]
    exact solid_two x5 x3 x4 x1 x6 (by simp) y1 y2 y5
  · rw [hout]; exact solid_two hl.nonempty hl.leading hl.trailing hl.bytes.1 hl.code hune u1 u2 u5
  · rw [ef]; exact reads_setext hl hu hn hh
  · rw [ef]; exact ⟨_, _, rfl, hl.visible, hl.first, fun _ => .inl hl.marker⟩
  · rw [hout]; simp [hl.bytes, u3, u4]

/-! ## Text without escapes -/

/-- A piece without escapes. -/
def rawPiece (s : Bytes) (md : List Md) (isList : Bool) : Piece := ⟨s.map (false, ·), md, isList⟩

theorem raw_first (s : Bytes) : ∀ t ∈ s.map (fun b => (false, b)), t.1 = false := by
  intro t ht
  rw [List.mem_map] at ht
  obtain ⟨b, -, rfl⟩ := ht
  rfl

theorem rawPiece_raw (s : Bytes) (md : List Md) (isList : Bool) : (rawPiece s md isList).raw = s := by
  rw [Piece.raw, rawPiece, enc_raw _ (raw_first s), List.map_map]
  exact List.map_id _

theorem rawPiece_out (s : Bytes) (md : List Md) (isList : Bool) : (rawPiece s md isList).out hs = s := by
  have := W_raw (hs := hs) (s.map (false, ·)) [] [] (raw_first s)
  rw [List.append_nil] at this
  rw [Piece.out, rawPiece]
  simp only []
  rw [this, W, List.append_nil, renToks_raw _ (raw_first s), List.map_map]
  exact List.map_id _

theorem rawPiece_wf {s : Bytes} (h : MARK ∉ s) (md : List Md) (isList : Bool) : WF (rawPiece s md isList).toks := by
  intro t ht
  rw [rawPiece, List.mem_map] at ht
  obtain ⟨b, hb, rfl⟩ := ht
  exact ⟨fun e => h (by rw [← e]; exact hb), by simp⟩

/-- What is needed of a horizontal rule. -/
structure RuleOK (bullet r : Bytes) : Prop where
  thematic : isThematicBreak r = true
  leading : NoLeadingWhitespace r
  trailing : NoTrailingWhitespace r
  bytes : ∀ b ∈ r, b = 45 ∨ b = 95 ∨ b = 42 ∨ b = 32 ∨ b = 9
  other : bullet = b!"+" ∨ ∀ b ∈ bullet, b ∉ r

theorem rule_ok {r : Bytes} (hbul : bullet ∈ [b!"-", b!"+", b!"*"]) (h : RuleOK bullet r) : (rawPiece r [.rule] false).OK hs bullet := by
  have hn : ∀ b, b ∉ ([45, 95, 42, 32, 9] : Bytes) → b ∉ r := by
    intro b hb hm
    have := h.bytes b hm
    simp at hb
    simp [hb] at this
  have hne : r ≠ [] := by
    rintro rfl; have := h.thematic; simp [isThematicBreak] at this
  have hc : ¬ codeNewline <:+: r := fun hi => hn 239 (by decide) (hi.subset (by decide))
  have hso := solid_line hne h.leading h.trailing (hn 10 (by decide)) hc
  have hhd := noLeading_head h.leading
  have hv : Visible r := ⟨hne, hhd.1, hhd.2⟩
  have ef : (rawPiece r [.rule] false).fin hs = [r] := fin_line (rawPiece_out _ _ _) (hn 10 (by decide)) hc
  have hwf := rawPiece_wf (hn MARK (by decide)) [.rule] false
  refine ⟨hwf, by rwa [rawPiece_raw], by rwa [rawPiece_out], ?_, ?_, ?_, out_mark hwf⟩
  · rw [ef]; exact reads_rule hv h.thematic
  · rw [ef]
    refine ⟨_, _, rfl, hv, ?_, fun _ => .inr h.thematic⟩
    rcases h.other with ho | ho
    · exact .inl ho
    · cases r with
      | nil => exact absurd rfl hne
      | cons x r =>
        refine .inr ⟨x, by simp, ?_, by simpa using hhd.1, by simpa using hhd.2⟩
        rintro rfl
        exact ho x (by simp) (by simp)
  · rw [rawPiece_out]; exact ⟨hn 13 (by decide), hn 0 (by decide)⟩

theorem comment_ok (hbul : bullet ∈ [b!"-", b!"+", b!"*"]) : (rawPiece b!"<!--THE END-->" [] false).OK hs bullet := by
  have hwf := rawPiece_wf (s := b!"<!--THE END-->") (by decide) [] false
  have hc : ¬ codeNewline <:+: b!"<!--THE END-->" := fun hi => absurd (hi.subset (show 239 ∈ codeNewline by decide)) (by decide)
  have hso := solid_line (s := b!"<!--THE END-->") (by decide) (noLeading_of_head (by decide) _)
    (noTrailing_of_last (b := 62) (by decide) b!"<!--THE END--") (by decide) hc
  have ef : (rawPiece b!"<!--THE END-->" [] false).fin hs = [b!"<!--THE END-->"] := fin_line (rawPiece_out _ _ _) (by decide) hc
  refine ⟨hwf, by rwa [rawPiece_raw], by rwa [rawPiece_out], ?_, ?_, ?_, out_mark hwf⟩
  · rw [ef]; exact reads_comment
  · rw [ef]
    exact ⟨_, _, rfl, ⟨by simp, by simp, by simp⟩, first_of (x := 60) hbul (by simp) (by decide), fun _ => .inl (by decide)⟩
  · rw [rawPiece_out]; decide

/-! ## Code -/

theorem soft_mem {b : UInt8} : ∀ s : Bytes, b ∈ soft s → b = 32 ∨ b ∈ s := by
  refine replaceAll_induct (old := codeNewline) (by decide) ?_ ?_ ?_
  · intro h; rw [soft_nil] at h; exact .inr h
  · intro s ih h
    rw [soft_code, List.mem_cons] at h
    rcases h with h | h
    · exact .inl h
    · rcases ih h with h | h
      · exact .inl h
      · exact .inr (by simp [h])
  · intro c s hc ih h
    rw [soft_other hc, List.mem_cons] at h
    rcases h with h | h
    · exact .inr (by simp [h])
    · rcases ih h with h | h
      · exact .inl h
      · exact .inr (by simp [h])

theorem encode_mem {b : UInt8} {code : Bytes} (h : b ∈ replaceAll [10] codeNewline code) : b ∈ codeNewline ∨ (b ∈ code ∧ b ≠ 10) := by
  rw [replaceAll_one, List.mem_flatMap] at h
  obtain ⟨c, hc, hb⟩ := h
  split at hb
  · exact .inl hb
  · rename_i h10
    rw [List.mem_singleton] at hb
    exact .inr ⟨hb ▸ hc, hb ▸ h10⟩

theorem code_ok (hbul : bullet ∈ [b!"-", b!"+", b!"*"]) {c : UInt8} (hc : c = 96 ∨ c = 126) {n : Nat} (hn : 3 ≤ n) {lang code : Bytes}
    (hl : ∀ b ∈ lang, isLetter b ∨ isDigit b ∨ b = 35 ∨ b = 43 ∨ b = 46 ∨ b = 95) (hr : LongerThanRuns c n code)
    (h0 : 0 ∉ code) (h7 : 7 ∉ code) (h13 : 13 ∉ code) (hm : ¬ codeNewline <:+: code) :
    (rawPiece (Props.fencedBlock c n lang (replaceAll [10] codeNewline code)) [.code lang (lines code)] false).OK hs bullet := by
  obtain ⟨m, rfl⟩ : ∃ m, n = m + 1 := ⟨n - 1, by omega⟩
  have hlang : ∀ b, b ∈ ([c, 32, 9, 92, 38, 10, 13, 0, 7, 239] : Bytes) → b ∉ lang := by
    intro b hb hb'
    have hb2 := hl b hb'
    simp only [List.mem_cons, List.not_mem_nil, or_false] at hb
    rcases hc with rfl | rfl <;>
      (rcases hb with rfl | rfl | rfl | rfl | rfl | rfl | rfl | rfl | rfl | rfl <;> revert hb2 <;> decide)
  have hcn : c ≠ 10 ∧ c ≠ 13 ∧ c ≠ 0 ∧ c ≠ 7 ∧ c ≠ 239 ∧ c ≠ 32 ∧ c ≠ 9 := by rcases hc with rfl | rfl <;> decide
  have hcw : ∀ w ∈ whitespace, c ∉ w := by rcases hc with rfl | rfl <;> decide
  -- the lines
  let F := List.replicate (m + 1) c ++ lang
  let G := List.replicate (m + 1) c
  let E := replaceAll [10] codeNewline code
  have hF : F = c :: (List.replicate m c ++ lang) := by simp only [F, List.replicate_succ]; rfl
  have hs' : Props.fencedBlock c (m + 1) lang E = F ++ 10 :: (E ++ 10 :: G) := by
    simp [Props.fencedBlock, F, G]
  have hFn : ∀ b, b ≠ c → b ∉ lang → b ∉ F := by
    intro b h1 h2 h3
    simp only [F, List.mem_append, List.mem_replicate] at h3
    rcases h3 with h3 | h3
    · exact h1 h3.2
    · exact h2 h3
  have hGn : ∀ b, b ≠ c → b ∉ G := fun b h1 h2 => h1 (List.mem_replicate.1 h2).2
  have hF10 : 10 ∉ F := hFn 10 (Ne.symm hcn.1) (hlang 10 (by simp))
  have hG10 : 10 ∉ G := hGn 10 (Ne.symm hcn.1)
  have hE10 : 10 ∉ E := by
    intro h
    rcases encode_mem h with h | h
    · exact absurd h (by decide)
    · exact h.2 rfl
  have hFc : ¬ codeNewline <:+: F := fun hi =>
    hFn 239 (Ne.symm hcn.2.2.2.2.1) (hlang 239 (by simp)) (hi.subset (by decide))
  have hGc : ¬ codeNewline <:+: G := fun hi => hGn 239 (Ne.symm hcn.2.2.2.2.1) (hi.subset (by decide))
  have hFlast : ∃ F' x, F = F' ++ [x] ∧ x ≠ 10 ∧ x ≠ 32 := by
    have hne : F ≠ [] := by rw [hF]; simp
    have hx := List.getLast_mem hne
    refine ⟨F.dropLast, F.getLast hne, (List.dropLast_concat_getLast hne).symm, ?_, ?_⟩
    · intro e; rw [e] at hx; exact hF10 hx
    · intro e; rw [e] at hx; exact hFn 32 (Ne.symm hcn.2.2.2.2.2.1) (hlang 32 (by simp)) hx
  have hGl : G = List.replicate m c ++ [c] := List.replicate_succ'
  have hGt : NoTrailingWhitespace G := by rw [hGl]; exact noTrailing_of_last hcw _
  have hsolid : Solid (F ++ 10 :: (E ++ 10 :: G)) := by
    refine ⟨by simp, by rw [hF]; exact noLeading_of_head hcw _, ?_, fun d hd => ?_,
      fun h => hGc (suffix_cut (v := 10) (t := F ++ 10 :: E) (by decide) (by simpa using h)).isInfix⟩
    · have := trailing_append (p := G) (by rw [hGl]; simp) hGt (F ++ 10 :: E)
      simpa using this
    · rw [soft_cut (by decide), soft_cut (by decide), soft_id hFc, soft_id hGc, danger_append]
      obtain ⟨F', x, e, h1, h2⟩ := hFlast
      rw [e, danger_last (fun h => hF10 (by rw [e]; simp [h])) hd h1 h2, Option.bind_some, danger, if_pos rfl, if_pos (by omega), danger_append]
      obtain ⟨g, hg, e2⟩ := danger_line (B := 1) (Nat.le_refl _) (soft E) (0 + 1) (by
        intro h
        rcases soft_mem E h with h | h
        · exact absurd h (by decide)
        · exact hE10 h) (by omega)
      rw [e2, Option.bind_some, danger, if_pos rfl, if_pos (by omega), hGl]
      exact danger_last (fun h => hG10 (by rw [hGl]; simp [h])) (by omega) hcn.1 hcn.2.2.2.2.2.1
  have ef : (rawPiece (F ++ 10 :: (E ++ 10 :: G)) [.code lang (lines code)] false).fin hs = F :: (lines code ++ [G]) := by
    rw [Piece.fin, rawPiece_out, restore_cut (by decide), restore_cut (by decide), restore_encode hm]
    have e1 : restoreCodeNewlines F = F := replaceAll_id hFc
    have e2 : restoreCodeNewlines G = G := replaceAll_id hGc
    rw [e1, e2, lines, splitOn_cat _ _ _ hF10, splitOn_append, splitOn_of_no_sep hG10]
    rfl
  have hbytes : ∀ b, b ≠ 10 → b ∉ code → b ∉ lang → b ≠ c → b ∉ codeNewline → b ∉ F ++ 10 :: (E ++ 10 :: G) := by
    intro b b10 b1 b2 b3 b4 hb
    have hb : b ∈ F ∨ b = 10 ∨ b ∈ E ∨ b = 10 ∨ b ∈ G := by
      rcases List.mem_append.1 hb with hb | hb
      · exact .inl hb
      · rcases List.mem_cons.1 hb with hb | hb
        · exact .inr (.inl hb)
        · rcases List.mem_append.1 hb with hb | hb
          · exact .inr (.inr (.inl hb))
          · exact .inr (.inr (.inr (List.mem_cons.1 hb)))
    rcases hb with hb | hb | hb | hb | hb
    · exact hFn b b3 b2 hb
    · exact b10 hb
    · rcases encode_mem hb with hb | hb
      · exact b4 hb
      · exact b1 hb.1
    · exact b10 hb
    · exact hGn b b3 hb
  have hv : Visible F := by rw [hF]; exact ⟨by simp, by simpa using hcn.2.2.2.2.2.1, by simpa using hcn.2.2.2.2.2.2⟩
  show (rawPiece (Props.fencedBlock c (m + 1) lang E) [.code lang (lines code)] false).OK hs bullet
  rw [hs']
  have hwf := rawPiece_wf (hbytes MARK (by decide) h7 (hlang 7 (by simp)) (Ne.symm hcn.2.2.2.1) (by decide)) [.code lang (lines code)] false
  refine ⟨hwf, by rwa [rawPiece_raw], by rwa [rawPiece_out], ?_, ?_, ?_, out_mark hwf⟩
  · rw [ef]
    exact reads_code hc hn ⟨hlang c (by simp), hlang 32 (by simp), hlang 9 (by simp)⟩ ⟨hlang 92 (by simp), hlang 38 (by simp)⟩ hr
  · rw [ef]
    refine ⟨_, _, rfl, hv, first_of (x := c) hbul (by rw [hF]; simp) (by rcases hc with rfl | rfl <;> decide), fun _ => .inl ?_⟩
    rw [hF, readMarker.eq_def]
    rcases hc with rfl | rfl <;> simp [isDigit]
  · rw [rawPiece_out]
    exact ⟨hbytes 13 (by decide) h13 (hlang 13 (by simp)) (Ne.symm hcn.2.1) (by decide),
      hbytes 0 (by decide) h0 (hlang 0 (by simp)) (Ne.symm hcn.2.2.1) (by decide)⟩

end Verif.Page
