import Verif.Proofs.PageRead
import Verif.Proofs.Local
/-!
# Pieces of a page: what is rendered, and how its lines are read
-/
namespace Verif.Page
open Verif Verif.Escape Verif.Spec Verif.Commonmark Verif.TextUtils

/-- A piece: the tokens that are rendered, and what should be read. -/
structure Piece where
  toks : Toks
  md : List Md
  isList : Bool

/-- What is rendered. -/
def Piece.raw (p : Piece) : Bytes := encToks p.toks

/-- What is rendered, with the escapes. -/
def Piece.out (hs : List Handler) (p : Piece) : Bytes := renToks (W hs [] 0 p.toks)

/-- The lines of the output. -/
def Piece.fin (hs : List Handler) (p : Piece) : List Bytes := lines (restoreCodeNewlines (p.out hs))

/-- What is needed of a piece. -/
structure Piece.OK (hs : List Handler) (bullet : Bytes) (p : Piece) : Prop where
  wf : WF p.toks
  raw : Solid p.raw
  out : Solid (p.out hs)
  reads : Reads p.isList (p.fin hs) p.md
  begins : Begins bullet p.isList (p.fin hs)
  bytes : 13 ∉ p.out hs ∧ 0 ∉ p.out hs
  mark : MARK ∉ p.out hs

/-- No two lists follow each other. -/
def ListsApart : List Piece → Prop
  | [] => True
  | [_] => True
  | p :: q :: ps => ¬ (p.isList = true ∧ q.isList = true) ∧ ListsApart (q :: ps)

/-- The tokens of pieces with empty lines between. -/
def joinToks : List Piece → Toks
  | [] => []
  | [p] => p.toks
  | p :: q :: ps => p.toks ++ (false, NL) :: (false, NL) :: joinToks (q :: ps)

/-- The lines of pieces with empty lines between. -/
def seqLines (hs : List Handler) : List Piece → List Bytes
  | [] => []
  | [p] => p.fin hs
  | p :: q :: ps => p.fin hs ++ [] :: seqLines hs (q :: ps)

variable {dig : Nat → Bool} {hs : List Handler} {bullet : Bytes}

theorem enc_append (a b : Toks) : encToks (a ++ b) = encToks a ++ encToks b := by
  rw [encToks_by, encToks_by, encToks_by, encBy_append]

theorem ren_append (a b : Toks) : renToks (a ++ b) = renToks a ++ renToks b := by
  rw [renToks_by, renToks_by, renToks_by, encBy_append]

theorem enc_join : ∀ ps : List Piece, encToks (joinToks ps) = glue (ps.map Piece.raw)
  | [] => rfl
  | [p] => rfl
  | p :: q :: ps => by
    rw [joinToks, enc_append, List.map_cons, List.map_cons, glue, ← List.map_cons, ← enc_join (q :: ps)]
    rfl

theorem wf_join : ∀ ps : List Piece, (∀ p ∈ ps, p.OK hs bullet) → WF (joinToks ps)
  | [], _ => fun t ht => by simp [joinToks] at ht
  | [p], h => (h p (by simp)).wf
  | p :: q :: ps, h => by
    have ih := wf_join (q :: ps) fun x hx => h x (List.mem_cons_of_mem _ hx)
    rw [joinToks, WF.append]
    refine ⟨(h p (by simp)).wf, ?_⟩
    intro t ht
    rw [List.mem_cons, List.mem_cons] at ht
    rcases ht with rfl | rfl | ht
    · simp
    · simp
    · exact ih t ht

theorem out_join (hst : IsStock dig hs) (h0 : dig 0 = false) (h10 : dig 10 = false) : ∀ ps : List Piece, (∀ p ∈ ps, p.OK hs bullet) →
    renToks (W hs [] 0 (joinToks ps)) = glue (ps.map (Piece.out hs))
  | [], _ => rfl
  | [p], _ => rfl
  | p :: q :: ps, h => by
    have ih := out_join hst h0 h10 (q :: ps) fun x hx => h x (List.mem_cons_of_mem _ hx)
    rw [joinToks, W_split hst h0 h10 _ _ (h p (by simp)).wf, ren_append, List.map_cons, List.map_cons, glue, ← List.map_cons, ← ih]
    rfl

theorem fin_join : ∀ ps : List Piece, ps ≠ [] → lines (restoreCodeNewlines (glue (ps.map (Piece.out hs)))) = seqLines hs ps
  | [], h => absurd rfl h
  | [p], _ => rfl
  | p :: q :: ps, _ => by
    have ih := fin_join (q :: ps) (by simp)
    rw [List.map_cons, List.map_cons, glue, restore_cut (by decide), restore_nl, seqLines, ← ih, lines, splitOn_append, splitOn_sep]
    rfl

theorem seq_begins : ∀ ps : List Piece, ps ≠ [] → (∀ p ∈ ps, p.OK hs bullet) → ∃ p l ls, ps.head? = some p ∧ seqLines hs ps = l :: ls ∧
    Visible l ∧ First bullet l ∧ (p.isList = false → readMarker l = none ∨ isThematicBreak l = true)
  | [], h, _ => absurd rfl h
  | [p], _, h => by
    obtain ⟨l, ls, e, h1, h2, h3⟩ := (h p (by simp)).begins
    exact ⟨p, l, ls, rfl, e, h1, h2, h3⟩
  | p :: q :: ps, _, h => by
    obtain ⟨l, ls, e, h1, h2, h3⟩ := (h p (by simp)).begins
    exact ⟨p, l, ls ++ [] :: seqLines hs (q :: ps), rfl, by rw [seqLines, e]; rfl, h1, h2, h3⟩

/-- Pieces are read one after the other. -/
theorem reads_seq : ∀ ps : List Piece, ps ≠ [] → (∀ p ∈ ps, p.OK hs bullet) → ListsApart ps → ∀ tail, tail = [] ∨ tail = [[]] →
    ∀ f, 2 * size (seqLines hs ps ++ tail) < f → readBlocks f (seqLines hs ps ++ tail) = some (ps.flatMap Piece.md)
  | [], h, _, _ => absurd rfl h
  | [p], _, h, _ => by
    intro tail ht f hf
    have := (h p (by simp)).reads tail [] (ht.elim .inl fun h => .inr (.inl h)) ?_ f hf
    · simpa [seqLines] using this
    · intro f hf
      rcases ht with rfl | rfl
      · cases f with
        | zero => omega
        | succ f => rfl
      · simp only [size] at hf
        obtain ⟨f, rfl⟩ : ∃ g, f = g + 2 := ⟨f - 2, by omega⟩
        rw [readBlocks_cons]; rfl
  | p :: q :: ps, _, h, ha => by
    intro tail ht f hf
    have hq : ∀ x ∈ q :: ps, x.OK hs bullet := fun x hx => h x (List.mem_cons_of_mem _ hx)
    rw [ListsApart] at ha
    have ih := reads_seq (q :: ps) (by simp) hq ha.2 tail ht
    obtain ⟨p', l, ls, e1, e2, h1, -, h3⟩ := seq_begins (q :: ps) (by simp) hq
    rw [seqLines, List.append_assoc, List.cons_append] at hf ⊢
    have := (h p (by simp)).reads ([] :: (seqLines hs (q :: ps) ++ tail)) ((q :: ps).flatMap Piece.md) ?_ ?_ f hf
    · simpa using this
    · refine .inr (.inr ⟨l, ls ++ tail, by rw [e2]; rfl, h1, fun hp => h3 ?_⟩)
      rw [List.head?_cons, Option.some.injEq] at e1
      rw [← e1]
      cases hq' : q.isList with
      | false => rfl
      | true => exact absurd ⟨hp, hq'⟩ ha.1
    · intro f hf
      cases f with
      | zero => omega
      | succ f =>
        rw [size] at hf
        rw [readBlocks_cons, if_pos (by rfl)]
        exact ih f (by omega)

/-- Trimming, cleaning up and un-escaping what is rendered. -/
theorem laid_out (hst : IsStock dig hs) (h0 : dig 0 = false) (h10 : dig 10 = false) {a b : Nat} {ps : List Piece} {s : Bytes}
    (h : Laid a b (ps.map Piece.raw) s) (hne : ps ≠ []) (hok : ∀ p ∈ ps, p.OK hs bullet) :
    trimSpace s ≠ [] ∧ unEscapeContent .smart hs (trimUnnecessaryHardLineBreaks (trimConsecutiveNewlines (trimSpace s))) =
      glue (ps.map (Piece.out hs)) := by
  have hc := h.clean (by simpa using hne) (by
    intro p hp
    rw [List.mem_map] at hp
    obtain ⟨q, hq, rfl⟩ := hp
    exact (hok q hq).raw)
  refine ⟨hc.1, ?_⟩
  rw [hc.2, ← enc_join, unEscape_enc _ fun t ht => (wf_join ps hok t ht).1, out_join hst h0 h10 ps hok]

theorem glue_mem {b : UInt8} : ∀ {ps : List Bytes}, b ∈ glue ps → b = 10 ∨ ∃ p ∈ ps, b ∈ p
  | [], h => by simp [glue] at h
  | [p], h => .inr ⟨p, by simp, h⟩
  | p :: q :: ps, h => by
    rw [glue, List.mem_append, List.mem_cons, List.mem_cons] at h
    rcases h with h | h | h | h
    · exact .inr ⟨p, by simp, h⟩
    · exact .inl h
    · exact .inl h
    · rcases glue_mem h with h | ⟨r, hr, h⟩
      · exact .inl h
      · exact .inr ⟨r, List.mem_cons_of_mem _ hr, h⟩

end Verif.Page
