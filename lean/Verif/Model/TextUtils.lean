import Verif.Basic.Bytes
/-!
# Model of `/repo/internal/textutils`
-/

namespace Verif.TextUtils
open Verif

/-! ## codefence.go -/

/-- `/repo/internal/textutils/codefence.go:8-23`: the loop that collects the lengths of the runs of
the fence character.  `together` is `charsTogether`, the result is `occurrences`.
The Go loop ranges over runes; the fence character is ASCII, and in UTF-8 an ASCII byte is never
part of a longer encoding, so the model ranges over bytes. -/
def fenceRuns (c : UInt8) : Nat → Bytes → List Nat
  | together, [] => if together ≠ 0 then [together] else []
  | together, b :: bs =>
    if b = c then fenceRuns c (together + 1) bs
    else if together ≠ 0 then together :: fenceRuns c 0 bs
    else fenceRuns c 0 bs

/-- `/repo/internal/textutils/codefence.go:50-61` `findMax` (the `i == 0` initialisation is covered
by starting from the first value). -/
def findMax : List Nat → Nat
  | [] => 0
  | v :: vs => vs.foldl (fun m x => if x > m then x else m) v

/-- `/repo/internal/textutils/codefence.go:5-26` `CalculateCodeFenceOccurrences`. -/
def calculateCodeFenceOccurrences (c : UInt8) (content : Bytes) : Nat :=
  findMax (fenceRuns c 0 content)

/-- `/repo/internal/textutils/codefence.go:34-48` `CalculateCodeFence`. -/
def calculateCodeFence (c : UInt8) (content : Bytes) : Bytes :=
  let rep := calculateCodeFenceOccurrences c content + 1
  let rep := if rep < 3 then 3 else rep
  List.replicate rep c

/-! ## collapse_code.go -/

/-- `/repo/internal/textutils/collapse_code.go:14-28`: drop every space that directly follows a
space (`count` is the counter of the Go loop). -/
def dropDoubleSpaces : Nat → Bytes → Bytes
  | _, [] => []
  | count, b :: bs =>
    let count := if b = SP then count + 1 else 0
    if count > 1 then dropDoubleSpaces count bs else b :: dropDoubleSpaces count bs

/-- `/repo/internal/textutils/collapse_code.go:7-31` `CollapseInlineCodeContent`. -/
def collapseInlineCodeContent (content : Bytes) : Bytes :=
  let content := replaceAll [NL] [SP] content
  let content := replaceAll [9] [SP] content
  let content := trimSpace content
  dropDoubleSpaces 0 content

/-! ## consecutive_newlines.go -/

/-- `/repo/internal/textutils/consecutive_newlines.go:8-15` `TrimUnnecessaryHardLineBreaks`. -/
def trimUnnecessaryHardLineBreaks (content : Bytes) : Bytes :=
  let content := replaceAll b!"  \n\n" b!"\n\n" content
  let content := replaceAll b!"  \n  \n" b!"\n\n" content
  replaceAll b!"  \n \n" b!"\n\n" content

/-- `/repo/internal/textutils/consecutive_newlines.go:17-54`, the loop: `count` is `newlineCount`,
`buf` is `spaceBuffer`; the result is what is appended to `result` from here on.
The Go loop decodes runes but treats a multi-byte rune like its bytes one after the other. -/
def trimNewlinesGo : Nat → Bytes → Bytes → Bytes
  | _, buf, [] => buf
  | count, buf, b :: bs =>
    if b = NL then
      if count + 1 ≤ 2 then buf ++ NL :: trimNewlinesGo (count + 1) [] bs
      else trimNewlinesGo (count + 1) [] bs
    else if b = SP then trimNewlinesGo count (buf ++ [SP]) bs
    else buf ++ b :: trimNewlinesGo 0 [] bs

/-- `/repo/internal/textutils/consecutive_newlines.go:17-54` `TrimConsecutiveNewlines`. -/
def trimConsecutiveNewlines (input : Bytes) : Bytes := trimNewlinesGo 0 [] input

/-! ## surrounding_spaces.go, delimiter.go -/

/-- `/repo/internal/textutils/surrounding_spaces.go:46-58` `SurroundingSpaces`: leading white space,
trimmed content, trailing white space. -/
def surroundingSpaces (content : Bytes) : Bytes × Bytes × Bytes :=
  let rightTrimmed := trimRight content
  let rightExtra := content.drop rightTrimmed.length
  let trimmed := trimLeft rightTrimmed
  let leftExtra := content.take (rightTrimmed.length - trimmed.length)
  (leftExtra, trimmed, rightExtra)

/-- `/repo/internal/textutils/delimiter.go:16-28`: one line.  `trimmed == nil` holds exactly for a
line of white space (`bytes.TrimLeftFunc` returns `nil` iff everything was trimmed). -/
def delimiterForLine (delimiter line : Bytes) : Bytes :=
  let (left, trimmed, right) := surroundingSpaces line
  if trimmed = [] then left ++ right
  else left ++ delimiter ++ trimmed ++ delimiter ++ right

/-- `/repo/internal/textutils/delimiter.go:11-37` `DelimiterForEveryLine`. -/
def delimiterForEveryLine (text delimiter : Bytes) : Bytes :=
  joinWith NL ((splitOn NL text).map (delimiterForLine delimiter))

/-! ## escape_multiline.go -/

/-- `/repo/internal/textutils/escape_multiline.go:24-53`, the loop over the parts. -/
def escapeMultiLineGo : List Bytes → Bytes
  | [] => []
  | part :: rest =>
    let trimmedLeft := trimLeft part
    (if trimmedLeft.length = 0 then b!"\\\n"
     else if rest = [] then trimmedLeft
     else if b!"  ".isSuffixOf trimmedLeft then trimmedLeft ++ b!"\n"
     else trimmedLeft ++ b!"  \n") ++ escapeMultiLineGo rest

/-- `/repo/internal/textutils/escape_multiline.go:17-56` `EscapeMultiLine`. -/
def escapeMultiLine (content : Bytes) : Bytes :=
  let parts := splitOn NL content
  if parts.length = 1 then content else escapeMultiLineGo parts

/-! ## prefix_lines.go -/

/-- `/repo/internal/textutils/prefix_lines.go:7-13`. -/
def prefixLinesGo (repl : Bytes) : Bytes → Bytes
  | [] => []
  | b :: bs => if b = NL then b :: (repl ++ prefixLinesGo repl bs) else b :: prefixLinesGo repl bs

/-- `/repo/internal/textutils/prefix_lines.go:3-16` `PrefixLines`. -/
def prefixLines (source repl : Bytes) : Bytes := repl ++ prefixLinesGo repl source

/-! ## quote.go -/

/-- `/repo/internal/textutils/quote.go:10-14` `SurroundBy`. -/
def surroundBy (content chars : Bytes) : Bytes := chars ++ content ++ chars

/-- `/repo/internal/textutils/quote.go:15-39` `SurroundByQuotes`. -/
def surroundByQuotes (content : Bytes) : Bytes :=
  if content.length = 0 then []
  else
    let containsDouble := content.contains 34
    let containsSingle := content.contains 39
    if containsDouble && containsSingle then
      surroundBy (replaceAll b!"\"" b!"\\\"" content) b!"\""
    else if containsDouble then surroundBy content b!"'"
    else surroundBy content b!"\""

end Verif.TextUtils
