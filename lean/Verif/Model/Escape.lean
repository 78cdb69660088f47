import Verif.Basic.Bytes
/-!
# Model of `/repo/internal/escape` and `/repo/converter/escape.go`

The Go handlers get the whole content and an index.  The model hands them a zipper: the bytes before
the index in *reversed* order, the byte at the index, and the bytes after it.  The Go results
`-1` and `n` are `none` and `some n`.
-/

namespace Verif.Escape
open Verif

/-- `/repo/converter/register.go:164` `HandleUnEscapeFunc`: bytes before the index (reversed), the
byte at the index, the bytes after it; `none` is `-1`, `some n` the number of bytes to skip. -/
abbrev Handler := Bytes → UInt8 → Bytes → Option Nat

/-! ## util.go -/

/-- `/repo/internal/escape/util.go:7-13` `IsSpace`. -/
def isSpaceByte (b : UInt8) : Bool :=
  b == 9 || b == 10 || b == 11 || b == 12 || b == 13 || b == 32 || b == 0x85 || b == 0xA0

/-- `/repo/internal/escape/util.go:15-21` `IsDigit`. -/
def isDigitByte (b : UInt8) : Bool := 48 ≤ b && b ≤ 57

/-- `/repo/internal/escape/util.go:33-41` `getNext`. -/
def getNext : Bytes → UInt8
  | [] => 0
  | b :: bs => if b = MARK then getNext bs else b

/-- `/repo/internal/escape/util.go:43-54` `getPrevAsRune` (on the reversed bytes). -/
def getPrevAsRune : Bytes → Nat
  | [] => 0
  | b :: rev => if b = MARK then getPrevAsRune rev else (decodeLastRune (b :: rev)).1

/-- `/repo/internal/escape/util.go:55-65` `getNextAsRune`. -/
def getNextAsRune : Bytes → Nat
  | [] => 0
  | b :: bs => if b = MARK then getNextAsRune bs else (decodeRune (b :: bs)).1

/-- The look-behind that most handlers share: walk back over spaces and markers; succeed at a newline
or at the start of the content (`elem_header.go:8-19`, `elem_quote.go:8-20`, `elem_list.go:12-23`,
`elem_divider.go:8-20`, `elem_code.go:8-17`). For example `/repo/internal/escape/elem_header.go:8-19`. -/
def atLineStart : Bytes → Bool
  | [] => true
  | b :: rev =>
    if b = NL then true
    else if b = MARK then atLineStart rev
    else if b = SP then atLineStart rev
    else false

/-! ## The elements -/

/-- `/repo/internal/escape/elem_backslash.go:3-9` `IsBackslash`. -/
def isBackslash : Handler := fun _ c _ => if c ≠ BS then none else some 1

/-- `/repo/internal/escape/elem_code.go:19-31`: the forward loop of `IsFencedCode`.
`n` is `i - index`; the result is the final `count` and `i - index`. -/
def fencedCodeLoop : Nat → Nat → Bytes → Nat × Nat
  | count, n, [] => (count, n)
  | count, n, b :: bs =>
    if b = MARK then fencedCodeLoop count (n + 1) bs
    else if b = 96 ∨ b = 126 then fencedCodeLoop (count + 1) (n + 1) bs
    else (count, n)

/-- `/repo/internal/escape/elem_code.go:3-37` `IsFencedCode`. -/
def isFencedCode : Handler := fun rev c rest =>
  if c ≠ 96 ∧ c ≠ 126 then none
  else if !atLineStart rev then none
  else
    let r := fencedCodeLoop 1 1 rest
    if r.1 < 3 then none else some r.2

/-- `/repo/internal/escape/elem_code.go:39-45` `IsInlineCode`. -/
def isInlineCode : Handler := fun _ c _ => if c ≠ 96 then none else some 1

/-- `/repo/internal/escape/elem_divider.go:22-41`: the forward loop of `IsDivider`.
`n` is `i - index`; `none` is `return -1`, otherwise `count` and `lastChar - index`. -/
def dividerLoop (c : UInt8) : Nat → Nat → Bytes → Option (Nat × Nat)
  | count, n, [] => some (count, n)
  | count, n, b :: bs =>
    if b = MARK then dividerLoop c count (n + 1) bs
    else if b = SP then dividerLoop c count (n + 1) bs
    else if b = c then dividerLoop c (count + 1) (n + 1) bs
    else if b = NL then some (count, n)
    else none

/-- `/repo/internal/escape/elem_divider.go:3-47` `IsDivider`. -/
def isDivider : Handler := fun rev c rest =>
  if c ≠ 45 ∧ c ≠ 95 ∧ c ≠ 42 then none
  else if !atLineStart rev then none
  else match dividerLoop c 1 1 rest with
    | none => none
    | some (count, n) => if count ≥ 3 then some n else none

/-- `/repo/internal/escape/elem_header.go:21-43`: the forward loop of `IsAtxHeader`.
`n` is `i - index`. -/
def atxLoop : Nat → Nat → Bytes → Option Nat
  | _, _, [] => some 1
  | count, n, b :: bs =>
    if b = 35 then
      if count + 1 > 6 then none else atxLoop (count + 1) (n + 1) bs
    else if b = MARK then atxLoop count (n + 1) bs
    else if b = SP ∨ b = 9 ∨ b = NL ∨ b = 13 then some n
    else none

/-- `/repo/internal/escape/elem_header.go:3-44` `IsAtxHeader`. -/
def isAtxHeader : Handler := fun rev c rest =>
  if c ≠ 35 then none
  else if !atLineStart rev then none
  else atxLoop 1 1 rest

/-- `/repo/internal/escape/elem_header.go:51-76`: the loop of `IsSetextHeader` (reversed bytes). -/
def setextLoop : Nat → Bytes → Option Nat
  | _, [] => none
  | newlineCount, b :: rev =>
    if b = MARK ∨ b = SP then setextLoop newlineCount rev
    else if b = NL then setextLoop (newlineCount + 1) rev
    else if newlineCount = 0 then none
    else if newlineCount = 1 then some 1
    else none

/-- `/repo/internal/escape/elem_header.go:46-77` `IsSetextHeader`. -/
def isSetextHeader : Handler := fun rev c _ =>
  if c ≠ 61 ∧ c ≠ 45 then none else setextLoop 0 rev

/-- `/repo/internal/escape/elem_image.go:24-36`. -/
def bracketLoop : Bytes → Option Nat
  | [] => none
  | b :: bs => if b = NL then none else if b = 93 then some 1 else bracketLoop bs

/-- `/repo/internal/escape/elem_image.go:3-36` `IsImageOrLink`. -/
def isImageOrLink : Handler := fun _ c rest =>
  if c = 33 then
    match rest with
    | b :: _ => if b = 91 then some 1 else none
    | [] => none
  else if c = 91 then bracketLoop rest
  else none

/-- `/repo/internal/escape/elem_italic_bold.go:7-21` `IsItalicOrBold`. -/
def isItalicOrBold : Handler := fun _ c rest =>
  if c ≠ 42 ∧ c ≠ 95 then none
  else
    let next := getNextAsRune rest
    if isSpaceRune next || next == 0 then none else some 1

/-- `/repo/internal/escape/elem_list.go:7-31` `IsUnorderedList`. -/
def isUnorderedList : Handler := fun rev c rest =>
  if c ≠ 45 ∧ c ≠ 42 ∧ c ≠ 43 then none
  else if !atLineStart rev then none
  else
    let next := getNext rest
    if isSpaceByte next || next == 0 then some 1 else none

/-- `/repo/internal/escape/elem_list.go:44-59`: the look-behind of `IsOrderedList`. -/
def digitsToLineStart : Bytes → Bool
  | [] => true
  | b :: rev =>
    if b = NL then true
    else if b = SP then digitsToLineStart rev
    else if b = MARK then digitsToLineStart rev
    else if isDigitByte b then digitsToLineStart rev
    else false

/-- `/repo/internal/escape/elem_list.go:33-67` `IsOrderedList`.  `unicode.IsDigit` is a parameter:
the model only relies on what the theorems assume about it (ASCII digits are digits). -/
def isOrderedList (unicodeIsDigit : Nat → Bool) : Handler := fun rev c rest =>
  if c ≠ 46 ∧ c ≠ 41 then none
  else if !unicodeIsDigit (getPrevAsRune rev) then none
  else if !digitsToLineStart rev then none
  else
    let next := getNext rest
    if isSpaceByte next || next == 0 then some 1 else none

/-- `/repo/internal/escape/elem_quote.go:3-23` `IsBlockQuote`. -/
def isBlockQuote : Handler := fun rev c _ =>
  if c ≠ 62 then none
  else if !atLineStart rev then none
  else some 1

/-- `/repo/plugin/strikethrough/strikethrough.go:60-74` `handleUnEscapers`. -/
def isStrikethrough : Handler := fun _ c rest =>
  if c ≠ 126 then none
  else
    let next := getNextAsRune rest
    if isSpaceRune next || next == 0 then none else some 1

/-! ## converter/escape.go -/

/-- `/repo/converter/converter.go:48-53` `escapeMode`.  Everything but `"disabled"` (also the zero
value) behaves like `"smart"`. -/
inductive Mode | smart | disabled
  deriving DecidableEq, Repr

/-- `/repo/converter/escape.go:22-40`: the loop of `escapeContent`.  `isMd` is
`checkIsEscapedChar`. -/
def escapeLoop (isMd : Nat → Bool) : Bytes → Bytes
  | [] => []
  | b :: bs =>
    if b = 0 then b!"\uFFFD" ++ escapeLoop isMd bs
    else if isMd (decodeRune (b :: bs)).1 then MARK :: b :: escapeLoop isMd bs
    else b :: escapeLoop isMd bs

/-- `/repo/converter/escape.go:17-41` `escapeContent`. -/
def escapeContent (mode : Mode) (isMd : Nat → Bool) (chars : Bytes) : Bytes :=
  match mode with
  | .disabled => chars
  | .smart => escapeLoop isMd chars

/-- `/repo/converter/escape.go:48-56` `checkElements`: the first handler that does not answer -1. -/
def checkElements : List Handler → Handler
  | [], _, _, _ => none
  | h :: hs, rev, c, rest => (h rev c rest).or (checkElements hs rev c rest)

/-- `/repo/converter/escape.go:58-74`: the first loop of `unEscapeContent`.  `skip` is how many
indices the assignment `index += skip - 1` still jumps over; the result is `changes`
(`true` is `actionEscape`).  A handler result of 0 would make the Go loop spin; the stock handlers
never return it (`skipOK_commonmark`, `skipOK_strikethrough`). -/
def changesLoop (hs : List Handler) : Bytes → Nat → Bytes → List Bool
  | _, _, [] => []
  | rev, skip + 1, b :: bs => false :: changesLoop hs (b :: rev) skip bs
  | rev, 0, b :: bs =>
    if b ≠ MARK then false :: changesLoop hs (b :: rev) 0 bs
    else match bs with
      | [] => [false]
      | c :: rest =>
        match checkElements hs (b :: rev) c rest with
        | none => false :: changesLoop hs (b :: rev) 0 (c :: rest)
        | some n => true :: changesLoop hs (b :: rev) (n - 1) (c :: rest)

/-- `/repo/converter/escape.go:76-88`: the second loop of `unEscapeContent`. -/
def applyChanges : List Bool → Bytes → Bytes
  | _, [] => []
  | [], b :: bs => b :: bs
  | ch :: chs, b :: bs =>
    if b ≠ MARK then b :: applyChanges chs bs
    else if ch then BS :: applyChanges chs bs
    else applyChanges chs bs

/-- `/repo/converter/escape.go:43-89` `unEscapeContent`. -/
def unEscapeContent (mode : Mode) (hs : List Handler) (chars : Bytes) : Bytes :=
  match mode with
  | .disabled => chars
  | .smart => applyChanges (changesLoop hs [] 0 chars) chars

/-! ## Registration by the stock plugins -/

/-- `/repo/plugin/commonmark/commonmark.go:155-164`: the characters that are marked. -/
def commonmarkChars : Bytes := b!"\\*_-+.>|$#=[]()!~`\"'"

/-- `checkIsEscapedChar` with the CommonMark plugin (`/repo/converter/register.go:156-162`). -/
def isCommonmarkChar (r : Nat) : Bool := commonmarkChars.any fun b => b.toNat == r

/-- `/repo/plugin/commonmark/commonmark.go:165-175`: the un-escape handlers in registration order,
which is the order in which they run (equal priority; insertion sort up to 12 handlers). -/
def commonmarkHandlers (unicodeIsDigit : Nat → Bool) : List Handler :=
  [isItalicOrBold, isBlockQuote, isAtxHeader, isSetextHeader, isDivider,
   isOrderedList unicodeIsDigit, isUnorderedList, isImageOrLink, isFencedCode, isInlineCode,
   isBackslash]

end Verif.Escape
