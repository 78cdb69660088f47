import Verif.Proofs.Fenced
import Verif.Spec.Pointwise
/-!
# Properties C22-C23: surrounding spaces and delimiters
-/

namespace Verif.Props
open Verif Verif.Commonmark Verif.TextUtils

/-! ## C23 -/

/-- **C23.** Splitting off the surrounding white space is lossless: the parts put together are the content, the outer
parts are white space, and the inner part neither begins nor ends with white space.  For every byte
string, valid UTF-8 or not. -/
theorem c23_surrounding_spaces (content : Bytes) :
    let p := surroundingSpaces content
    p.1 ++ p.2.1 ++ p.2.2 = content ∧ Spec.AllWhitespace p.1 ∧ Spec.AllWhitespace p.2.2 ∧
    Spec.NoLeadingWhitespace p.2.1 ∧ Spec.NoTrailingWhitespace p.2.1 := by
  obtain ⟨r, hr, h1, h2⟩ := trimRight_spec content
  obtain ⟨l, hl, h3, h4⟩ := trimLeft_spec (trimRight content)
  simp only [surroundingSpaces]
  have hlen : (trimRight content).length - (trimLeft (trimRight content)).length = l.length := by
    have := congrArg List.length h3
    rw [List.length_append] at this; omega
  have htake : content.take ((trimRight content).length - (trimLeft (trimRight content)).length) = l := by
    rw [hlen]
    conv => lhs; arg 2; rw [h1, h3, List.append_assoc]
    simp
  have hdrop : content.drop (trimRight content).length = r := by
    conv => lhs; arg 2; rw [h1]
    simp
  rw [htake, hdrop, ← h3, ← h1]
  refine ⟨rfl, hl, hr, h4, ?_⟩
  refine NoTrailing_suffix h2 ?_
  conv => rhs; rw [h3]
  exact List.suffix_append _ _

example : surroundingSpaces b!" \t a b \n" = (b!" \t ", b!"a b", b!" \n") := by decide

/-! ## C22 -/

/-- `out` is `line` with a pair of delimiters around its visible part, if it has one. -/
def Wrapped (d line out : Bytes) : Prop :=
  (Spec.AllWhitespace line ∧ out = line) ∨
  ∃ l mid r, line = l ++ mid ++ r ∧ Spec.AllWhitespace l ∧ Spec.AllWhitespace r ∧ mid ≠ [] ∧
    Spec.NoLeadingWhitespace mid ∧ Spec.NoTrailingWhitespace mid ∧ out = l ++ (d ++ mid ++ d) ++ r

theorem delimiterForLine_wrapped (d line : Bytes) : Wrapped d line (delimiterForLine d line) := by
  obtain ⟨h1, h2, h3, h4, h5⟩ := c23_surrounding_spaces line
  simp only [delimiterForLine]
  generalize hp : surroundingSpaces line = p at *
  obtain ⟨l, m, r⟩ := p
  simp only at h1 h2 h3 h4 h5 ⊢
  split
  · rename_i h
    subst h
    rw [List.append_nil] at h1
    left; exact ⟨h1 ▸ h2.append h3, h1⟩
  · rename_i h
    right
    exact ⟨l, m, r, h1.symm, h2, h3, h, h4, h5, by simp⟩

/-- **C22.** The lines of emphasised content are the lines of the content, each one with exactly one pair of delimiters directly
around its visible part, and without delimiters if it is blank.  For every delimiter without a line
feed (the delimiters the CommonMark and strikethrough plugins use are runs of `*`, `_` or `~`). -/
theorem c22_delimiters (d content : Bytes) (hd : 10 ∉ d) :
    Spec.Pointwise (Wrapped d) (Spec.lines content) (Spec.lines (delimited d content)) := by
  have hno : ∀ l ∈ (splitOn 10 content).map (delimiterForLine d), 10 ∉ l := by
    intro l hl
    rw [List.mem_map] at hl
    obtain ⟨x, hx, rfl⟩ := hl
    have hx10 := splitOn_no_sep 10 content x hx
    rcases delimiterForLine_wrapped d x with ⟨-, h⟩ | ⟨l, m, r, h, -, -, -, -, -, h'⟩
    · rw [h]; exact hx10
    · rw [h']; rw [h] at hx10; simp at hx10; simp [hx10, hd]
  have hl : Spec.lines (delimited d content) = (Spec.lines content).map (delimiterForLine d) := by
    simp only [delimited, delimiterForEveryLine, Spec.lines]
    exact split_join (by simpa using splitOn_nonempty 10 content) hno
  rw [hl]
  induction Spec.lines content with
  | nil => exact .nil
  | cons a as ih => exact .cons (delimiterForLine_wrapped d a) ih

example : delimited b!"**" b!" a\n \nb  " = b!" **a**\n \n**b**  " := by decide

end Verif.Props
