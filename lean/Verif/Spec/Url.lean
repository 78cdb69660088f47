import Verif.Basic.Bytes
/-!
# Specification: query strings and link destinations
-/

namespace Verif.Spec
open Verif

/-- Value of a hexadecimal digit. -/
def hexValue (c : UInt8) : Option Nat :=
  if 48 ≤ c ∧ c ≤ 57 then some (c.toNat - 48)
  else if 65 ≤ c ∧ c ≤ 70 then some (c.toNat - 55)
  else if 97 ≤ c ∧ c ≤ 102 then some (c.toNat - 87)
  else none

/-- What a server reads (WHATWG URL standard, `application/x-www-form-urlencoded`): `+` is a space,
`%` with two hexadecimal digits is the byte with that number, everything else is itself. -/
def formDecode : Bytes → Bytes
  | [] => []
  | 37 :: a :: b :: rest =>
    match hexValue a, hexValue b with
    | some x, some y => UInt8.ofNat (x * 16 + y) :: formDecode rest
    | _, _ => 37 :: formDecode (a :: b :: rest)
  | c :: rest => (if c = 43 then 32 else c) :: formDecode rest

/-- Key and value of one part of a query; the value is missing if there is no equal sign. -/
def keyValue (part : Bytes) : Bytes × Option Bytes :=
  (formDecode (part.takeWhile (· ≠ 61)),
    if 61 ∈ part then some (formDecode ((part.dropWhile (· ≠ 61)).drop 1)) else none)

/-- The keys and values of a query, in order. -/
def query (q : Bytes) : List (Bytes × Option Bytes) := (splitOn 38 q).map keyValue

/-- RFC 3986, 2.3: the characters that need no percent encoding anywhere. -/
def unreserved : Bytes := b!"ABCDEFGHIJKLMNOPQRSTUVWXYZabcdefghijklmnopqrstuvwxyz0123456789-._~"

/-- RFC 3986, 2.1: a percent sign and the number of the byte in two upper case hexadecimal digits. -/
def percentEscape (b : UInt8) : Bytes :=
  [37, b!"0123456789ABCDEF".getD (b.toNat / 16) 0, b!"0123456789ABCDEF".getD (b.toNat % 16) 0]

/-- A string in percent encoding: nothing is escaped but what has to be. -/
def percentEncoded (s : Bytes) : Bytes := s.flatMap fun b => if b ∈ unreserved then [b] else percentEscape b

/-- ASCII punctuation (CommonMark 2.4: these can be escaped with a backslash). -/
def isPunctuation (c : UInt8) : Bool :=
  (33 ≤ c && c ≤ 47) || (58 ≤ c && c ≤ 64) || (91 ≤ c && c ≤ 96) || (123 ≤ c && c ≤ 126)

/-- CommonMark 6.3: a link destination without angle brackets, with the number of open parentheses.
It ends at a space, an ASCII control character or a closing parenthesis that was not opened.
`esc` says that the character before was a backslash that can escape something. Returns the
destination and the rest. -/
def readDestination : Nat → Bool → Bytes → Bytes × Bytes
  | _, _, [] => ([], [])
  | depth, esc, c :: rest =>
    let next (depth : Nat) (esc : Bool) := let r := readDestination depth esc rest; (c :: r.1, r.2)
    if esc && isPunctuation c then next depth false
    else if c ≤ 32 || c = 127 then ([], c :: rest)
    else if c = 40 then next (depth + 1) false
    else if c = 41 then if depth = 0 then ([], c :: rest) else next (depth - 1) false
    else next depth (c = 92)

end Verif.Spec
