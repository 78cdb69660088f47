/-!
# Byte strings and the Go standard library functions the code calls

A Go `[]byte` or `string` is a `List UInt8`.  `nil` and the empty slice are the same value.
-/

namespace Verif

/-- A Go `[]byte` / `string`. -/
abbrev Bytes := List UInt8

open Lean in
/-- `b!"abc"` is the UTF-8 encoding of a string literal, as an explicit list of bytes. -/
macro:max "b!" s:str : term => do
  let bs := s.getString.toUTF8.toList
  let elems ← bs.mapM fun b => `(($(quote b.toNat) : UInt8))
  `(([$(elems.toArray),*] : List UInt8))

/-- The byte `\n`. -/
scoped notation "NL" => (10 : UInt8)
/-- The byte ` `. -/
scoped notation "SP" => (32 : UInt8)
/-- The byte `\`. -/
scoped notation "BS" => (92 : UInt8)
/-- `/repo/marker/marker.go:10` and `:20`: the marker of the escape mechanism, the bell byte. -/
scoped notation "MARK" => (7 : UInt8)

/-! ## package unicode/utf8 -/

/-- The rune Go uses for an invalid encoding (`utf8.RuneError`, U+FFFD). -/
def runeError : Nat := 0xFFFD

/-- Is the byte a UTF-8 continuation byte (`0x80..0xBF`)? -/
def isCont (b : UInt8) : Bool := 0x80 ≤ b && b ≤ 0xBF

/-- `utf8.DecodeRune`: the first rune of a byte string and the number of bytes it takes.
The table driven implementation of Go is written out as the case distinction it encodes
(first byte class and the accepted range of the second byte). -/
def decodeRune : Bytes → Nat × Nat
  | [] => (runeError, 0)
  | b0 :: rest =>
    if b0 < 0x80 then (b0.toNat, 1)
    else if b0 < 0xC2 then (runeError, 1)
    else if b0 < 0xE0 then
      match rest with
      | b1 :: _ => if isCont b1 then ((b0.toNat - 0xC0) * 64 + (b1.toNat - 0x80), 2) else (runeError, 1)
      | _ => (runeError, 1)
    else if b0 < 0xF0 then
      match rest with
      | b1 :: b2 :: _ =>
        if (if b0 = 0xE0 then 0xA0 ≤ b1 && b1 ≤ 0xBF
            else if b0 = 0xED then 0x80 ≤ b1 && b1 ≤ 0x9F
            else isCont b1) && isCont b2 then
          ((b0.toNat - 0xE0) * 4096 + (b1.toNat - 0x80) * 64 + (b2.toNat - 0x80), 3)
        else (runeError, 1)
      | _ => (runeError, 1)
    else if b0 < 0xF5 then
      match rest with
      | b1 :: b2 :: b3 :: _ =>
        if (if b0 = 0xF0 then 0x90 ≤ b1 && b1 ≤ 0xBF
            else if b0 = 0xF4 then 0x80 ≤ b1 && b1 ≤ 0x8F
            else isCont b1) && isCont b2 && isCont b3 then
          ((b0.toNat - 0xF0) * 262144 + (b1.toNat - 0x80) * 4096 + (b2.toNat - 0x80) * 64
            + (b3.toNat - 0x80), 4)
        else (runeError, 1)
      | _ => (runeError, 1)
    else (runeError, 1)

/-- The search for the start of the last rune in `utf8.DecodeLastRune`: walk back over at most
`n` bytes (Go: `utf8.UTFMax = 4`) until a byte that is not a continuation byte; `acc` are the bytes
already passed.  The input is the *reversed* byte string. -/
def lastRuneBytes : Nat → Bytes → Bytes → Option Bytes
  | 0, _, _ => none
  | _ + 1, [], _ => none
  | n + 1, b :: rev, acc => if isCont b then lastRuneBytes n rev (b :: acc) else some (b :: acc)

/-- `utf8.DecodeLastRune` on the *reversed* byte string: the last rune and its width. -/
def decodeLastRune : Bytes → Nat × Nat
  | [] => (runeError, 0)
  | b :: rev =>
    if b < 0x80 then (b.toNat, 1)
    else match lastRuneBytes 4 (b :: rev) [] with
      | none => (runeError, 1)
      | some bs =>
        let d := decodeRune bs
        if d.2 = bs.length then d else (runeError, 1)

/-- `utf8.RuneCount` (also the length of `[]rune(s)`). -/
def runeCountGo : Nat → Bytes → Nat
  | _, [] => 0
  | skip + 1, _ :: bs => runeCountGo skip bs
  | 0, b :: bs => 1 + runeCountGo ((decodeRune (b :: bs)).2 - 1) bs

/-- `utf8.RuneCount`. -/
def runeCount (s : Bytes) : Nat := runeCountGo 0 s

/-! ## package unicode -/

/-- `unicode.IsSpace`: Latin-1 white space and the Unicode property White_Space. -/
def isSpaceRune (r : Nat) : Bool :=
  (9 ≤ r && r ≤ 13) || r == 0x20 || r == 0x85 || r == 0xA0 || r == 0x1680
    || (0x2000 ≤ r && r ≤ 0x200A) || r == 0x2028 || r == 0x2029 || r == 0x202F
    || r == 0x205F || r == 0x3000

/-! ## package bytes / strings -/

/-- Number of bytes of the white space rune a byte string starts with (0 if it does not). -/
def spaceLen (s : Bytes) : Nat :=
  let d := decodeRune s
  if isSpaceRune d.1 then d.2 else 0

/-- Number of bytes of the white space rune a *reversed* byte string ends with. -/
def spaceLenRev (rev : Bytes) : Nat :=
  let d := decodeLastRune rev
  if isSpaceRune d.1 then d.2 else 0

/-- Drop items from the front as long as `len` recognises something (`skip` counts the bytes of the
current rune still to be dropped). -/
def trimGo (len : Bytes → Nat) : Nat → Bytes → Bytes
  | _, [] => []
  | skip + 1, _ :: bs => trimGo len skip bs
  | 0, b :: bs =>
    match len (b :: bs) with
    | 0 => b :: bs
    | n + 1 => trimGo len n bs

/-- `bytes.TrimLeftFunc(s, unicode.IsSpace)`. -/
def trimLeft (s : Bytes) : Bytes := trimGo spaceLen 0 s

/-- `bytes.TrimRightFunc(s, unicode.IsSpace)`. -/
def trimRight (s : Bytes) : Bytes := (trimGo spaceLenRev 0 s.reverse).reverse

/-- `bytes.TrimSpace` / `strings.TrimSpace`.  Go trims the left side first. -/
def trimSpace (s : Bytes) : Bytes := trimRight (trimLeft s)

/-- `bytes.ReplaceAll` / `strings.ReplaceAll` for a non-empty `old`: leftmost, non overlapping. -/
def replaceGo (old new : Bytes) : Nat → Bytes → Bytes
  | _, [] => []
  | skip + 1, _ :: bs => replaceGo old new skip bs
  | 0, b :: bs =>
    if old.isPrefixOf (b :: bs) then new ++ replaceGo old new (old.length - 1) bs
    else b :: replaceGo old new 0 bs

/-- `bytes.ReplaceAll(s, old, new)`. -/
def replaceAll (old new s : Bytes) : Bytes := replaceGo old new 0 s

/-- `bytes.Split(s, []byte{sep})`. -/
def splitOn (sep : UInt8) : Bytes → List Bytes
  | [] => [[]]
  | b :: bs =>
    if b = sep then [] :: splitOn sep bs
    else match splitOn sep bs with
      | [] => [[b]]
      | l :: ls => (b :: l) :: ls

/-- `bytes.Join` with a one byte separator. -/
def joinWith (sep : UInt8) : List Bytes → Bytes
  | [] => []
  | [l] => l
  | l :: ls => l ++ sep :: joinWith sep ls

/-- `bytes.Contains`. -/
def containsSub (sub : Bytes) : Bytes → Bool
  | [] => sub.isEmpty
  | b :: bs => sub.isPrefixOf (b :: bs) || containsSub sub bs

/-- `strings.NewReplacer` with one byte keys: every byte is replaced according to the table. -/
def replaceBytes (f : UInt8 → Option Bytes) (s : Bytes) : Bytes :=
  s.flatMap fun b => (f b).getD [b]

end Verif
