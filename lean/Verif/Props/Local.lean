import Verif.Props.Escape
import Verif.Proofs.LocalRaw
/-!
# Property C81: escaping is local to a block

Rendered blocks are separated by blank lines.  The un-escaping runs over the whole Markdown at once and looks
backwards and forwards from every marked character; the theorem says that it never looks past a blank line.
-/

namespace Verif.Props
open Verif Verif.Escape

theorem textToks_append : ∀ a b : Bytes, textToks (a ++ b) = textToks a ++ textToks b := by
  intro a b
  induction a with
  | nil => rfl
  | cons c a ih =>
    simp only [List.cons_append, textToks]
    split <;> simp [ih]

/-- The texts with a blank line between each two. -/
def withBlankLines : List Bytes → Bytes
  | [] => []
  | [t] => t
  | t :: u :: ts => t ++ b!"\n\n" ++ withBlankLines (u :: ts)

/-- **C81.** What a text is escaped to does not depend on the other blocks of the document: escaping texts with
blank lines between them is escaping each of them alone. -/
theorem c81_local {dig : Nat → Bool} {hs : List Handler} (h : IsStock dig hs) (h0 : dig 0 = false)
    (h10 : dig 10 = false) (ts : List Bytes) : out hs (withBlankLines ts) = withBlankLines (ts.map (out hs)) := by
  induction ts with
  | nil => rfl
  | cons t ts ih =>
    cases ts with
    | nil => rfl
    | cons u ts =>
      have key : ∀ x y : Bytes, out hs (x ++ b!"\n\n" ++ y) = out hs x ++ b!"\n\n" ++ out hs y := by
        intro x y
        have e : encToks (textToks b!"\n\n") = [NL, NL] := by decide
        simp only [out, escapeContent, escapeLoop_eq, textToks_append, encToks_append, e]
        rw [List.append_assoc]
        exact (unEscape_split h h0 h10 .smart _ _).trans (by simp)
      simp only [withBlankLines, List.map_cons] at ih ⊢
      rw [key, ih]

example : out stock b!"# a\n\n1. b\n\n*c" = b!"\\# a\n\n1\\. b\n\n\\*c" := by decide
/-- The bell character, which the converter uses as a marker, is no exception. -/
example : out stock b!"# a\x07\n\n1. b" = out stock b!"# a\x07" ++ b!"\n\n" ++ out stock b!"1. b" := c81_local (dig := fun r => decide (48 ≤ r ∧ r ≤ 57)) (.inl rfl) (by decide) (by decide) [b!"# a\x07", b!"1. b"]

/-- One line feed is not enough: whether `=` is escaped depends on the line before it. -/
theorem c81_needs_blank_line : out stock b!"a\n=" = b!"a\n\\=" ∧ out stock b!"=" = b!"=" := by decide

end Verif.Props
