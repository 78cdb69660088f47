import Verif.Spec.Lines
/-!
# Specification: inline constructs of CommonMark
-/

namespace Verif.Spec
open Verif

/-- CommonMark 2.1, Unicode whitespace character: general category Zs, tab, line feed, form feed,
carriage return. -/
def cmWhitespace (r : Nat) : Bool :=
  r == 9 || r == 10 || r == 12 || r == 13 || r == 0x20 || r == 0xA0 || r == 0x1680
    || (0x2000 ≤ r && r ≤ 0x200A) || r == 0x202F || r == 0x205F || r == 0x3000

/-- What follows a delimiter run of `c`, given what follows its first character (as read by
`readEscapes`). -/
def afterRun (c : UInt8) (rest : List (Bool × UInt8)) : Bytes :=
  (rest.dropWhile (· == (false, c))).map Prod.snd

/-- CommonMark 6.2: the necessary condition for a delimiter run to be left-flanking, and so to be able
to open emphasis: it is not followed by Unicode whitespace or the end of the text. -/
def canOpen (c : UInt8) (rest : List (Bool × UInt8)) : Bool :=
  !(afterRun c rest).isEmpty && !cmWhitespace (decodeRune (afterRun c rest)).1

/-- The text with NUL replaced by U+FFFD (CommonMark 2.3). -/
def replaceNul (t : Bytes) : Bytes := t.flatMap fun b => if b = 0 then [239, 191, 189] else [b]

/-- `Inserts reg t out`: `out` is `t` with backslashes inserted, each one in front of a position of
`t` at which `reg` holds of the remaining text. -/
inductive Inserts (reg : Bytes → Prop) : Bytes → Bytes → Prop
  | nil : Inserts reg [] []
  | keep {b t out} : Inserts reg t out → Inserts reg (b :: t) (b :: out)
  | escape {b t out} : reg (b :: t) → Inserts reg t out → Inserts reg (b :: t) (92 :: b :: out)

/-- Three or more backticks and tildes, in any mixture, at the start of a line. -/
def startsWithFenceChars (line : Bytes) : Bool :=
  3 ≤ ((dropSpaces line).takeWhile fun b => b == 96 || b == 126).length

/-- CommonMark 6.1: look for a run of exactly `n` backticks.  `k` is the length of the run that is being
read, `acc` are the bytes passed so far (reversed).  The result is the content and what follows. -/
def findClose (n : Nat) : Nat → Bytes → Bytes → Option (Bytes × Bytes)
  | k, acc, [] => if k = n then some ((acc.drop n).reverse, []) else none
  | k, acc, b :: bs =>
    if b = 96 then findClose n (k + 1) (b :: acc) bs
    else if k = n then some ((acc.drop n).reverse, b :: bs)
    else findClose n 0 (b :: acc) bs

/-- CommonMark 6.1: what becomes of the content of a code span.  Line endings become spaces (a CR and LF pair would
become one, here two); one space is
stripped from both ends if both are spaces and the content is not only spaces. -/
def stripCode (s : Bytes) : Bytes :=
  let s := s.map fun b => if b = 10 ∨ b = 13 then 32 else b
  if s.head? = some 32 ∧ s.getLast? = some 32 ∧ s.all (· == 32) = false then (s.drop 1).dropLast else s

/-- CommonMark 6.1: read a code span at the start of a string: its content and what follows it. -/
def readCodeSpan (s : Bytes) : Option (Bytes × Bytes) :=
  let n := (s.takeWhile (· == 96)).length
  if n = 0 then none
  else (findClose n 0 [] (s.dropWhile (· == 96))).map fun r => (stripCode r.1, r.2)

/-- Decode the two entities `&lt;` and `&gt;`. -/
def decodeAngleGo : Nat → Bytes → Bytes
  | _, [] => []
  | skip + 1, _ :: bs => decodeAngleGo skip bs
  | 0, b :: bs =>
    if b!"&lt;" <+: b :: bs then 60 :: decodeAngleGo 3 bs
    else if b!"&gt;" <+: b :: bs then 62 :: decodeAngleGo 3 bs
    else b :: decodeAngleGo 0 bs

/-- Decode the two entities `&lt;` and `&gt;`. -/
def decodeAngle (s : Bytes) : Bytes := decodeAngleGo 0 s

/-- `n` is larger than the length of every run of `c`. -/
def LongerThanRuns (c : UInt8) (n : Nat) (s : Bytes) : Prop :=
  ∀ k a b, s = a ++ List.replicate k c ++ b → k < n

/-- Line feeds and tabs are shown as spaces. -/
def asSpaces (content : Bytes) : Bytes := content.map fun b => if b = 10 ∨ b = 9 then 32 else b

/-- Of every run of spaces only the first one is kept. -/
def squeeze : Bytes → Bytes
  | [] => []
  | b :: bs => b :: squeezeAfter (b == 32) bs
where
  /-- `prev`: the byte before was a space. -/
  squeezeAfter : Bool → Bytes → Bytes
    | _, [] => []
    | prev, b :: bs => if prev && b == 32 then squeezeAfter true bs else b :: squeezeAfter (b == 32) bs

/-- CommonMark 6.3: read the inside of a link title up to the closing quote `q`; a backslash in front of ASCII
punctuation escapes it.  The result is the text (entities are not decoded) and what follows the closing
quote. -/
def readQuoted (q : UInt8) : Bytes → Option (Bytes × Bytes)
  | [] => none
  | [b] => if b = q then some ([], []) else none
  | b :: c :: rest =>
    if b = q then some ([], c :: rest)
    else if b == 92 && isPunct c then (readQuoted q rest).map fun r => (c :: r.1, r.2)
    else (readQuoted q (c :: rest)).map fun r => (b :: r.1, r.2)

/-- CommonMark 6.3: read a link title in double or single quotes. -/
def readTitle : Bytes → Option (Bytes × Bytes)
  | [] => none
  | b :: rest => if b = 34 ∨ b = 39 then readQuoted b rest else none

end Verif.Spec
