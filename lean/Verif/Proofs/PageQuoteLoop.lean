import Verif.Proofs.PageLeaf
import Verif.Proofs.PageLoop
/-!
# The loop that escapes, in a quote

Behind the marker of a quote nothing is at the start of a line, so that the decision about a character depends on its own line only.
-/
namespace Verif.Page
open Verif Verif.Escape Verif.Spec Verif.Commonmark Verif.TextUtils

variable {dig : Nat → Bool} {hs : List Handler} {bullet : Bytes}

theorem inside_cons {rev : Bytes} {c : UInt8} (h : digitsToLineStart rev = false) (hc : c ≠ NL) : digitsToLineStart (c :: rev) = false := by
  rw [digitsToLineStart, if_neg hc]
  split
  · exact h
  · split
    · exact h
    · split
      · exact h
      · rfl

theorem inside_start {rev : Bytes} (h : digitsToLineStart rev = false) : atLineStart rev = false := by
  induction rev with
  | nil => cases h
  | cons b rev ih =>
    rw [digitsToLineStart] at h
    rw [atLineStart]
    split
    · rename_i hb; rw [if_pos hb] at h; cases h
    · rename_i hb
      rw [if_neg hb] at h
      split
      · rename_i h7
        rw [h7] at h
        exact ih h
      · split
        · rename_i h32
          rw [if_pos h32] at h
          exact ih h
        · rfl

theorem inside_setext {rev : Bytes} (h : digitsToLineStart rev = false) : setextLoop 0 rev = none := by
  induction rev with
  | nil => cases h
  | cons b rev ih =>
    rw [digitsToLineStart] at h
    rw [setextLoop]
    split
    · rename_i hb
      rcases hb with rfl | rfl
      · exact ih h
      · exact ih h
    · rename_i hb
      split
      · rename_i hn; rw [if_pos hn] at h; cases h
      · rfl

/-- Within a line with more than digits in front nothing else in front matters. -/
theorem stock_inside (h : IsStock dig hs) {rev rev' : Bytes} (h1 : digitsToLineStart rev = false) (h2 : digitsToLineStart rev' = false)
    (c : UInt8) (rest : Bytes) : checkElements hs rev c rest = checkElements hs rev' c rest := by
  have key : ∀ g ∈ hs, g rev c rest = g rev' c rest := by
    intro g hg
    rcases h.mem g hg with hg | rfl
    · simp only [commonmarkHandlers, List.mem_cons, List.not_mem_nil, or_false] at hg
      rcases hg with rfl|rfl|rfl|rfl|rfl|rfl|rfl|rfl|rfl|rfl|rfl
      · rfl
      · simp only [Escape.isBlockQuote, inside_start h1, inside_start h2]
      · simp only [isAtxHeader, inside_start h1, inside_start h2]
      · simp only [isSetextHeader, inside_setext h1, inside_setext h2]
      · simp only [isDivider, inside_start h1, inside_start h2]
      · simp only [isOrderedList, h1, h2]
        simp
      · simp only [isUnorderedList, inside_start h1, inside_start h2]
      · rfl
      · simp only [isFencedCode, inside_start h1, inside_start h2]
      · rfl
      · rfl
    · rfl
  clear h
  induction hs with
  | nil => rfl
  | cons g gs ih =>
    simp only [checkElements]
    rw [key g (by simp), ih (fun g' hg' => key g' (by simp [hg']))]

theorem P_inside (h : IsStock dig hs) (post : Bytes) : ∀ (X : List Tok) (rev rev' : Bytes), digitsToLineStart rev = false → digitsToLineStart rev' = false →
    NL ∉ X.map Tok.byte → P hs rev X post = P hs rev' X post := by
  intro X
  induction X with
  | nil => intros; rfl
  | cons x X ih =>
    intro rev rev' h1 h2 hn
    rw [List.map_cons, List.mem_cons, not_or] at hn
    have hm : MARK ≠ NL := by decide
    have hb : BS ≠ NL := by decide
    cases x with
    | raw c =>
      have hc : c ≠ NL := Ne.symm hn.1
      rw [P, P, ih _ _ (inside_cons h1 hc) (inside_cons h2 hc) hn.2]
    | mark c =>
      have hc : c ≠ NL := Ne.symm hn.1
      rw [P, P, ih _ _ (inside_cons (inside_cons h1 hm) hc) (inside_cons (inside_cons h2 hm) hc) hn.2,
        stock_inside h (inside_cons h1 hm) (inside_cons h2 hm)]
    | esc c =>
      have hc : c ≠ NL := Ne.symm hn.1
      rw [P, P, ih _ _ (inside_cons (inside_cons h1 hb) hc) (inside_cons (inside_cons h2 hb) hc) hn.2]

theorem embed_bytes (ts : Toks) : (embed ts).map Tok.byte = ts.map Prod.snd := by
  induction ts with
  | nil => rfl
  | cons t ts ih =>
    obtain ⟨m, c⟩ := t
    rw [embed, List.map_cons, List.map_cons, ← embed, ih]
    cases m <;> rfl

theorem W_inside (h : IsStock dig hs) {ts : Toks} {rev rev' : Bytes} (h1 : digitsToLineStart rev = false) (h2 : digitsToLineStart rev' = false)
    (hn : NL ∉ ts.map Prod.snd) : W hs rev 0 ts = W hs rev' 0 ts := by
  rw [W_within h _ _ (inside_start h1) hn, W_within h _ _ (inside_start h2) hn]
  exact P_inside h _ _ _ _ h1 h2 (by rwa [embed_bytes])

/-! ## Lines of tokens -/

/-- The lines of tokens. -/
def tokLines : Toks → List Toks
  | [] => [[]]
  | t :: ts => if t.2 = NL then [] :: tokLines ts else match tokLines ts with
    | [] => [[t]]
    | l :: ls => (t :: l) :: ls

theorem tokLines_ne (ts : Toks) : tokLines ts ≠ [] := by
  cases ts with
  | nil => simp [tokLines]
  | cons t ts =>
    rw [tokLines]
    split
    · simp
    · split <;> simp

theorem tokLines_one {ts : Toks} (h : NL ∉ ts.map Prod.snd) : tokLines ts = [ts] := by
  induction ts with
  | nil => rfl
  | cons t ts ih =>
    rw [List.map_cons, List.mem_cons, not_or] at h
    rw [tokLines, if_neg (Ne.symm h.1), ih h.2]

theorem tokLines_nl (ts : Toks) : tokLines ((false, NL) :: ts) = [] :: tokLines ts := rfl

theorem tokLines_append (a b : Toks) : tokLines (a ++ (false, NL) :: b) = tokLines a ++ tokLines b := by
  induction a with
  | nil => rfl
  | cons t a ih =>
    rw [List.cons_append, tokLines, tokLines, ih]
    split
    · rfl
    · have := tokLines_ne a
      cases h : tokLines a with
      | nil => exact absurd h this
      | cons l ls => rfl

theorem tokLines_mem {ts : Toks} {L : Toks} (h : L ∈ tokLines ts) : NL ∉ L.map Prod.snd ∧ ∀ t ∈ L, t ∈ ts := by
  induction ts generalizing L with
  | nil => simp [tokLines] at h; subst h; simp
  | cons t ts ih =>
    rw [tokLines] at h
    split at h
    · rcases List.mem_cons.1 h with rfl | h
      · simp
      · have := ih h
        exact ⟨this.1, fun x hx => List.mem_cons_of_mem _ (this.2 x hx)⟩
    · rename_i ht
      cases e : tokLines ts with
      | nil => exact absurd e (tokLines_ne ts)
      | cons l ls =>
        rw [e] at h ih
        rcases List.mem_cons.1 h with rfl | h
        · have := ih (L := l) (by simp)
          refine ⟨?_, ?_⟩
          · rw [List.map_cons, List.mem_cons, not_or]; exact ⟨Ne.symm ht, this.1⟩
          · intro x hx
            rcases List.mem_cons.1 hx with rfl | hx
            · simp
            · exact List.mem_cons_of_mem _ (this.2 x hx)
        · have := ih (L := L) (by simp [h])
          exact ⟨this.1, fun x hx => List.mem_cons_of_mem _ (this.2 x hx)⟩

theorem WF.newline {ts : Toks} (h : WF ts) {t : Bool × UInt8} (ht : t ∈ ts) (e : t.2 = NL) : t.1 = false := by
  cases hm : t.1 with
  | false => rfl
  | true =>
    have := (h t ht).2 hm
    rw [e] at this
    revert this; unfold wordByte; decide

/-- Every text is a line, or a line and more. -/
theorem tok_cases (ts : Toks) (hw : WF ts) : NL ∉ ts.map Prod.snd ∨ ∃ a b, ts = a ++ (false, NL) :: b ∧ NL ∉ a.map Prod.snd := by
  induction ts with
  | nil => left; simp
  | cons t ts ih =>
    by_cases ht : t.2 = NL
    · right
      refine ⟨[], ts, ?_, by simp⟩
      have := WF.newline hw (by simp) ht
      obtain ⟨m, c⟩ := t
      simp at ht this
      subst ht this
      rfl
    · rcases ih hw.tail with h | ⟨a, b, rfl, h⟩
      · left
        rw [List.map_cons, List.mem_cons, not_or]; exact ⟨Ne.symm ht, h⟩
      · right
        refine ⟨t :: a, b, rfl, ?_⟩
        rw [List.map_cons, List.mem_cons, not_or]; exact ⟨Ne.symm ht, h⟩

/-- Lines with newlines between. -/
def unl : List Bytes → Bytes
  | [] => []
  | [l] => l
  | l :: l2 :: ls => l ++ 10 :: unl (l2 :: ls)

theorem unl_cons (l : Bytes) {ls : List Bytes} (h : ls ≠ []) : unl (l :: ls) = l ++ 10 :: unl ls := by
  cases ls with
  | nil => exact absurd rfl h
  | cons _ _ => rfl

theorem lines_unl : ∀ {ls : List Bytes}, ls ≠ [] → (∀ l ∈ ls, 10 ∉ l) → lines (unl ls) = ls
  | [], h, _ => absurd rfl h
  | [l], _, h => by rw [unl, lines, splitOn_of_no_sep (h l (by simp))]
  | l :: l2 :: ls, _, h => by
    have ih := lines_unl (ls := l2 :: ls) (by simp) fun x hx => h x (by simp [hx])
    rw [unl, lines, splitOn_append, splitOn_of_no_sep (h l (by simp)), ← lines, ih]
    rfl

end Verif.Page
