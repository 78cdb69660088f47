import Verif.Basic.Bytes
/-!
# Model of `/repo/converter/url.go`

The package `net/url` is a parameter (`UrlLib`), except for `QueryEscape` and `QueryUnescape`, which are
modelled from their documentation and source in the Go standard library.
-/

namespace Verif.Url
open Verif

/-! ## Package net/url: QueryEscape, QueryUnescape -/

/-- Value of a hexadecimal digit (`net/url.unhex`, with `ishex` as the domain). Part of `/repo/converter/url.go:82`. -/
def unhex (c : UInt8) : Option UInt8 :=
  if 48 ≤ c ∧ c ≤ 57 then some (c - 48)
  else if 97 ≤ c ∧ c ≤ 102 then some (c - 97 + 10)
  else if 65 ≤ c ∧ c ≤ 70 then some (c - 65 + 10)
  else none

/-- The digit of a value below 16 (`"0123456789ABCDEF"[n]` in `net/url.escape`). Part of `/repo/converter/url.go:87`. -/
def hexDigit (n : UInt8) : UInt8 := if n < 10 then 48 + n else 65 + (n - 10)

/-- `net/url.QueryUnescape`; `none` is the error. Called at `/repo/converter/url.go:82`. -/
def queryUnescape : Bytes → Option Bytes
  | [] => some []
  | 37 :: a :: b :: rest =>
    match unhex a, unhex b with
    | some x, some y => (queryUnescape rest).map ((x * 16 + y) :: ·)
    | _, _ => none
  | c :: rest =>
    if c = 37 then none
    else if c = 43 then (queryUnescape rest).map (32 :: ·)
    else (queryUnescape rest).map (c :: ·)

/-- `net/url.shouldEscape` in the mode `encodeQueryComponent`, negated: letters, digits, `-`, `_`,
`.` and `~` are kept. Part of `/repo/converter/url.go:87`. -/
def keptInQuery (c : UInt8) : Bool :=
  (97 ≤ c && c ≤ 122) || (65 ≤ c && c ≤ 90) || (48 ≤ c && c ≤ 57) || c == 45 || c == 95 || c == 46 || c == 126

/-- One byte in `net/url.QueryEscape`. Part of `/repo/converter/url.go:87`. -/
def escapeByte (c : UInt8) : Bytes :=
  if c = 32 then [43] else if keptInQuery c then [c] else [37, hexDigit (c / 16), hexDigit (c % 16)]

/-- `net/url.QueryEscape`. Called at `/repo/converter/url.go:87`. -/
def queryEscape (s : Bytes) : Bytes := s.flatMap escapeByte

/-! ## url.go -/

/-- `/repo/converter/url.go:8-16` `percentEncodingReplacer`. -/
def percentEncode (s : Bytes) : Bytes :=
  replaceBytes (fun b =>
    if b = 32 then some b!"%20" else if b = 91 then some b!"%5B" else if b = 93 then some b!"%5D"
    else if b = 40 then some b!"%28" else if b = 41 then some b!"%29"
    else if b = 60 then some b!"%3C" else if b = 62 then some b!"%3E" else none) s

/-- `/repo/converter/url.go:81-88` `decodeAndEncode`. -/
def decodeAndEncode (original : Bytes) : Bytes :=
  match queryUnescape original with
  | none => original
  | some s => queryEscape s

/-- `strings.SplitN(part, "=", 2)`: the key and the rest, if there is an equal sign. Called at `/repo/converter/url.go:99`. -/
def splitKey : Bytes → Bytes × Option Bytes
  | [] => ([], none)
  | c :: cs =>
    if c = 61 then ([], some cs)
    else let r := splitKey cs; (c :: r.1, r.2)

/-- `/repo/converter/url.go:97-110`: one part of the query. -/
def encodePart (part : Bytes) : Bytes :=
  match splitKey part with
  | (key, none) => decodeAndEncode key
  | (key, some []) => decodeAndEncode key ++ [61]
  | (key, some value) => decodeAndEncode key ++ [61] ++ decodeAndEncode value

/-- `/repo/converter/url.go:90-114` `ParseAndEncodeQuery`. -/
def parseAndEncodeQuery (rawQuery : Bytes) : Bytes :=
  if rawQuery = [] then []
  else joinWith 38 ((splitOn 38 rawQuery).map encodePart)

/-- `/repo/converter/url.go:63-68`: the query of a link. -/
def encodeQuery (rawQuery : Bytes) : Bytes := replaceAll [43] b!"%20" (parseAndEncodeQuery rawQuery)

/-- The part of `net/url` that is outside of the model. Called at `/repo/converter/url.go:18-76`. -/
structure UrlLib where
  /-- `url.URL` -/
  U : Type
  /-- `url.Parse`; `none` is the error. -/
  parse : Bytes → Option U
  /-- `(*URL).String` -/
  toString : U → Bytes
  /-- `URL.Scheme` -/
  scheme : U → Bytes
  /-- `URL.Host` -/
  host : U → Bytes
  /-- `URL.RawQuery` -/
  rawQuery : U → Bytes
  /-- Assignment to `URL.RawQuery`. -/
  withRawQuery : U → Bytes → U
  /-- `base.ResolveReference(u)` -/
  resolve : U → U → U

/-- `/repo/converter/url.go:18-36` `parseBaseDomain`. -/
def parseBaseDomain (lib : UrlLib) (rawDomain : Bytes) : Option lib.U :=
  if rawDomain = [] then none
  else
    match (lib.parse rawDomain).filter (fun u => lib.host u ≠ []) with
    | some u => some u
    | none => (lib.parse (b!"http://" ++ rawDomain)).filter fun u => lib.host u ≠ []

/-- `/repo/converter/url.go:37-77` `defaultAssembleAbsoluteURL` (the tag name is not used). -/
def assembleAbsoluteURL (lib : UrlLib) (rawURL domain : Bytes) : Bytes :=
  let rawURL := trimSpace rawURL
  if rawURL = b!"#" then rawURL
  else
    let rawURL := replaceAll [NL] b!"%0A" rawURL
    let rawURL := replaceAll [9] b!"%09" rawURL
    match lib.parse rawURL with
    | none => percentEncode rawURL
    | some u =>
      if lib.scheme u = b!"data" then percentEncode rawURL
      else
        let u := lib.withRawQuery u (encodeQuery (lib.rawQuery u))
        let u := match parseBaseDomain lib domain with
          | some base => lib.resolve base u
          | none => u
        percentEncode (lib.toString u)

end Verif.Url
