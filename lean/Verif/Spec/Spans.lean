import Verif.Spec.Inline
import Verif.Spec.Links
import Verif.Spec.Blocks
import Verif.Spec.Whitespace
/-!
# Specification: reading the inline Markdown of a line

A reader of a line after the CommonMark specification: text, code spans, emphasis, links and images, where emphasis and links may contain
all of these, to every depth, and the description of an image is text.  The reader is careful: for everything that it does not treat (such
as delimiters that open or close depending on the Unicode category of a character, delimiters that may be matched in more than one way,
raw HTML, autolinks, reference links, entities other than `&lt;` and `&gt;`) the result is `none`, so that a result tells what every
CommonMark parser reads.
-/

namespace Verif.Spec
open Verif

/-- A part of a line. -/
inductive Span
  | text (t : Bytes)
  | em (ss : List Span)
  | strong (ss : List Span)
  | code (c : Bytes)
  | link (dest title : Bytes) (ss : List Span)
  | image (dest title alt : Bytes)

mutual
/-- Whether two parts are the same. -/
def decSpan : (s t : Span) → Decidable (s = t)
  | .text x0, s => match s with
    | .text y0 => decidable_of_iff (x0 = y0) (by simp)
    | .em _ => isFalse (by simp)
    | .strong _ => isFalse (by simp)
    | .code _ => isFalse (by simp)
    | .link _ _ _ => isFalse (by simp)
    | .image _ _ _ => isFalse (by simp)
  | .em x0, s => match s with
    | .text _ => isFalse (by simp)
    | .em y0 => match decSpans x0 y0 with
      | isTrue h => isTrue (by rw [h])
      | isFalse h => isFalse fun e => h (Span.em.inj e)
    | .strong _ => isFalse (by simp)
    | .code _ => isFalse (by simp)
    | .link _ _ _ => isFalse (by simp)
    | .image _ _ _ => isFalse (by simp)
  | .strong x0, s => match s with
    | .text _ => isFalse (by simp)
    | .em _ => isFalse (by simp)
    | .strong y0 => match decSpans x0 y0 with
      | isTrue h => isTrue (by rw [h])
      | isFalse h => isFalse fun e => h (Span.strong.inj e)
    | .code _ => isFalse (by simp)
    | .link _ _ _ => isFalse (by simp)
    | .image _ _ _ => isFalse (by simp)
  | .code x0, s => match s with
    | .text _ => isFalse (by simp)
    | .em _ => isFalse (by simp)
    | .strong _ => isFalse (by simp)
    | .code y0 => decidable_of_iff (x0 = y0) (by simp)
    | .link _ _ _ => isFalse (by simp)
    | .image _ _ _ => isFalse (by simp)
  | .link x0 x1 x2, s => match s with
    | .text _ => isFalse (by simp)
    | .em _ => isFalse (by simp)
    | .strong _ => isFalse (by simp)
    | .code _ => isFalse (by simp)
    | .link y0 y1 y2 => match decSpans x2 y2 with
      | isTrue h => decidable_of_iff (x0 = y0 ∧ x1 = y1) (by simp [h])
      | isFalse h => isFalse fun e => h (Span.link.inj e).2.2
    | .image _ _ _ => isFalse (by simp)
  | .image x0 x1 x2, s => match s with
    | .text _ => isFalse (by simp)
    | .em _ => isFalse (by simp)
    | .strong _ => isFalse (by simp)
    | .code _ => isFalse (by simp)
    | .link _ _ _ => isFalse (by simp)
    | .image y0 y1 y2 => decidable_of_iff (x0 = y0 ∧ x1 = y1 ∧ x2 = y2) (by simp)
/-- Whether two lists of parts are the same. -/
def decSpans : (s t : List Span) → Decidable (s = t)
  | [], [] => isTrue rfl
  | [], _ :: _ => isFalse (by simp)
  | _ :: _, [] => isFalse (by simp)
  | x :: xs, y :: ys => match decSpan x y, decSpans xs ys with
    | isTrue h1, isTrue h2 => isTrue (by rw [h1, h2])
    | isFalse h, _ => isFalse fun e => h (List.cons.inj e).1
    | _, isFalse h => isFalse fun e => h (List.cons.inj e).2
end

instance : DecidableEq Span := decSpan

/-- A character in front of the parts of a line. -/
def consChar (c : UInt8) : List Span → List Span
  | .text t :: ss => .text (c :: t) :: ss
  | ss => .text [c] :: ss

/-- An ASCII letter. -/
def isLetter (b : UInt8) : Bool := (65 ≤ b && b ≤ 90) || (97 ≤ b && b ≤ 122)

/-- An ASCII letter or digit. -/
def isWordByte (b : UInt8) : Bool := isLetter b || isDigit b

/-- Letters, digits and `#`, and then a semicolon; `seen` says that there was one before. -/
def entityLikeGo : Bool → Bytes → Bool
  | _, [] => false
  | seen, b :: s => if isWordByte b || b == 35 then entityLikeGo true s else seen && b == 59

/-- What may make an entity with an `&` in front of it: letters, digits and `#`, and then a semicolon. -/
def entityLike (s : Bytes) : Bool := entityLikeGo false s

/-- Is there something that may be an entity? -/
def hasEntity : Bytes → Bool
  | [] => false
  | b :: s => (b == 38 && entityLike s) || hasEntity s

/-- CommonMark 6.2: a run of the delimiter `c` can open emphasis only if it is not followed by Unicode white space or the end of the line.
`rest` is what follows the first delimiter of the run. -/
def opens (c : UInt8) (rest : Bytes) : Bool :=
  let after := rest.dropWhile (· == c)
  !after.isEmpty && !cmWhitespace (decodeRune after).1

/-- The end of the line, a space or ASCII punctuation. -/
def edge : Option UInt8 → Bool
  | none => true
  | some b => b == 32 || isPunct b

/-- What a part of a line is inside of: emphasis with `n` delimiters `c`, or the text of a link. -/
inductive Around
  | delim (c : UInt8) (n : Nat)
  | bracket
deriving DecidableEq

/-- The character that ends it. -/
def Around.close : Around → UInt8
  | .delim c _ => c
  | .bracket => 93

/-- Can the run of delimiters at the start of `s` only open emphasis, if at all?  That is so if there is no emphasis with this delimiter
around it that it could close; or if there is a space in front of it, so that it cannot close anything, and if it has another length than
the delimiters of the emphasis around it, so that the closing run of this emphasis is not mistaken for one of that emphasis. -/
def onlyOpens (around : List Around) (prev : Option UInt8) (s : Bytes) : Bool :=
  around.all fun a => match a with
    | .delim c m => s.head? != some c || (prev == some 32 && (s.takeWhile (· == c)).length != m)
    | .bracket => true

/-- CommonMark 6.2: the first run of `n` delimiters `c`, between `prev` and `after`, surely is left-flanking: a space or punctuation is in
front of it, or (for `*`) a letter or digit behind it. -/
def surelyOpens (c : UInt8) (n : Nat) (prev : Option UInt8) (after : Bytes) : Bool :=
  (n == 1 || n == 2) && (edge prev || c == 42 && after.head?.any isWordByte)

/-- CommonMark 6.2: the run at the start of `s2`, behind `content`, has `n` delimiters `c`, and surely is right-flanking. -/
def surelyCloses (c : UInt8) (n : Nat) (content s2 : Bytes) : Bool :=
  (s2.takeWhile (· == c)).length == n && whitespace.all (fun w => !w.isSuffixOf content) &&
    (edge (s2.dropWhile (· == c)).head? || c == 42 && content.getLast?.any isWordByte)

/-- CommonMark 6.3: a link at the start of `s`; no brackets in its text, and nothing in its destination and title that may be read in
another way.  The result is the text as it is written, the destination, the title and what follows. -/
def readLink (s : Bytes) : Option (Bytes × Bytes × Bytes × Bytes) :=
  (readInlineLink s).bind fun r =>
    if (false, 91) ∉ readEscapes r.1 ∧ (∀ b ∈ r.2.1, b ≠ 60 ∧ b ≠ 92 ∧ b ≠ 96) ∧ hasEntity r.2.1 = false ∧
        (∀ b ∈ r.2.2.1, b ≠ 60 ∧ b ≠ 96) ∧ hasEntity r.2.2.1 = false
    then some r else none

/-- Only text? -/
def onlyText : List Span → Option Bytes
  | [] => some []
  | [.text t] => some t
  | _ => none

/-- A character in front of what is read. -/
def pushChar (c : UInt8) (r : List Span × Bytes) : List Span × Bytes := (consChar c r.1, r.2)

/-- A part in front of what is read. -/
def pushSpan (x : Span) (r : List Span × Bytes) : List Span × Bytes := (x :: r.1, r.2)

/-- Read a line from a position on, up to the end of what is `around` it (the innermost is the first), where `prev` is the character
before. The result is what is read, and what follows from the closing delimiter on. The first argument bounds the number of steps. -/
def readSpans : Nat → List Around → Option UInt8 → Bytes → Option (List Span × Bytes)
  | 0, _, _, _ => none
  | _ + 1, around, _, [] => if around = [] then some ([], []) else none
  | f + 1, around, prev, b :: s =>
    if b = 92 ∧ s.head?.any isPunct = true then
      (readSpans f around s.head? s.tail).map (pushChar (s.headD 0))
    else if b = 60 then none
    else if b = 96 then
      (readCodeSpan (b :: s)).bind fun r => (readSpans f around (some b) r.2).map (pushSpan (.code r.1))
    else if (b = 42 ∨ b = 95) ∧ opens b s = true ∧ onlyOpens around prev (b :: s) = true then
      let n := ((b :: s).takeWhile (· == b)).length
      let after := s.dropWhile (· == b)
      if surelyOpens b n prev after = true then
        (readSpans f (.delim b n :: around) (some b) after).bind fun r =>
          if surelyCloses b n (after.take (after.length - r.2.length)) r.2 = true then
            (readSpans f around (some b) (r.2.dropWhile (· == b))).map (pushSpan (if n = 1 then .em r.1 else .strong r.1))
          else none
      else none
    else if b ∈ around.map Around.close then
      if (around.map Around.close).head? = some b then some ([], b :: s) else none
    else if b = 91 ∧ 93 ∈ s then
      if .bracket ∈ around then none
      else
        (readSpans f (.bracket :: around) (some b) s).bind fun r =>
          (readLink (b :: r.2)).bind fun l => (readSpans f around (some 41) l.2.2.2).map (pushSpan (.link l.2.1 l.2.2.1 r.1))
    else if b = 33 ∧ s.head? = some 91 ∧ 93 ∈ s then
      (readLink s).bind fun r =>
        ((readSpans f [] (some 91) r.1).bind fun d => onlyText d.1).bind fun t =>
          (readSpans f around (some 41) r.2.2.2).map (pushSpan (.image r.2.1 r.2.2.1 t))
    else if b = 38 ∧ b!"lt;" <+: s then (readSpans f around (some 60) (s.drop 3)).map (pushChar 60)
    else if b = 38 ∧ b!"gt;" <+: s then (readSpans f around (some 62) (s.drop 3)).map (pushChar 62)
    else if b = 38 ∧ entityLike s = true then none
    else (readSpans f around (some b) s).map (pushChar b)

/-- Read a line. -/
def readInline (line : Bytes) : Option (List Span) := (readSpans (line.length + 1) [] none (trimBlank line)).map (·.1)

example : readInline b!"a *b* __c__ `d` [e](/f \"g\") \\*h* ![i](j) AT&T" = some
    [.text b!"a ", .em [.text b!"b"], .text b!" ", .strong [.text b!"c"], .text b!" ", .code b!"d", .text b!" ",
     .link b!"/f" b!"g" [.text b!"e"], .text b!" *h* ", .image b!"j" [] b!"i", .text b!" AT&T"] := by decide +kernel
example : readInline b!"**a *b* [c `d` _e_](f)**" = some
    [.strong [.text b!"a ", .em [.text b!"b"], .text b!" ", .link b!"f" [] [.text b!"c ", .code b!"d", .text b!" ", .em [.text b!"e"]]]] := by
  decide +kernel
example : readInline b!"*a [b* c](d)" = none := by decide +kernel
example : readInline b!"*a*b*" = some [.em [.text b!"a"], .text b!"b*"] := by decide +kernel
example : readInline b!"*a *b* c*" = none := by decide +kernel
example : readInline b!"[a [b](c) d](e)" = none := by decide +kernel
example : readInline b!"a_b_ &amp;" = none := by decide +kernel

end Verif.Spec
