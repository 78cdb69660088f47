import Verif.Model.Stock
/-!
# Model of the functions around `ConvertNode`

`/repo/converter/convert.go`, `/repo/convert.go`: the options of a conversion, `ConvertReader` and `ConvertString`.  `html.Parse` is a
parameter: a function of what there is to read that gives a tree or an error (of the reader or its own).
-/

namespace Verif.Convert
open Verif Verif.Engine

/-- `/repo/converter/convert.go:14-18` `ConvertOptionFunc`: the options there are. `WithContext(nil)` is `context none`. -/
inductive Opt (V : Type)
  /-- `/repo/converter/convert.go:20-24` -/
  | withContext (ctx : Option (Ctx V))
  /-- `/repo/converter/convert.go:31-35` -/
  | withDomain (domain : Bytes)

/-- `/repo/converter/convert.go:14-17` `convertOption`. -/
structure Settings (V : Type) where
  domain : Bytes := []
  context : Option (Ctx V) := none

/-- `/repo/converter/convert.go:20-35`: what an option does. -/
def Opt.apply {V} (o : Settings V) : Opt V → Settings V
  | .withContext ctx => { o with context := ctx }
  | .withDomain d => { o with domain := d }

/-- `/repo/converter/convert.go:68-71`: the loop over the options. -/
def settings {V} (opts : List (Opt V)) : Settings V := opts.foldl Opt.apply {}

/-- `/repo/converter/convert.go:88-95`: the context of a conversion.  The domain is set in any case, also when the context
comes from another conversion. -/
def context {V} (o : Settings V) : Ctx V := { o.context.getD {} with domain := o.domain }

/-- The errors: of `html.Parse` and of this package. `/repo/converter/convert.go:122-142`. -/
inductive Error
  | parse (msg : Bytes)
  | convert (e : Err)
deriving DecidableEq

/-- The two results of the functions, `([]byte, error)`. `/repo/converter/convert.go:58`. -/
abbrev Result := Bytes × Option Error

/-- `/repo/converter/convert.go:58-117` `ConvertNode`: the results, and the converter afterwards. -/
def convertNode {V} (S : GoSort) (T : NameTables) (c : Conv V) (fuel : Nat) (doc : Node) (opts : List (Opt V)) : Option (Result × Conv V) :=
  (Engine.convertNode S T c fuel (context (settings opts)) doc).map fun r =>
    match r.1 with
    | .ok out => ((out, none), r.2)
    | .error e => (([], some (.convert e)), r.2)

/-- A reader: what can be read from it, and the error after that, if it is not the end. See `/repo/converter/convert.go:122`. -/
structure Reader where
  bytes : Bytes
  err : Option Bytes := none

/-- `/repo/converter/convert.go:122-129` `ConvertReader`. -/
def convertReader {V} (S : GoSort) (T : NameTables) (parse : Reader → Except Bytes Node) (c : Conv V) (fuel : Nat) (r : Reader)
    (opts : List (Opt V)) : Option (Result × Conv V) :=
  match parse r with
  | .error e => some (([], some (.parse e)), c)
  | .ok doc => convertNode S T c fuel doc opts

/-- `/repo/converter/convert.go:134-142` `ConvertString`; `strings.NewReader` has no errors. -/
def convertString {V} (S : GoSort) (T : NameTables) (parse : Reader → Except Bytes Node) (c : Conv V) (fuel : Nat) (input : Bytes)
    (opts : List (Opt V)) : Option (Result × Conv V) :=
  (convertReader S T parse c fuel { bytes := input } opts).map fun r =>
    match r.1.2 with
    | some e => (([], some e), r.2)
    | none => ((r.1.1, none), r.2)

/-! ## The package -/

/-- `/repo/convert.go:15-24` `ConvertString`. -/
def packageString (S : GoSort) (L : Stock.Lib) (parse : Reader → Except Bytes Node) (fuel : Nat) (input : Bytes) (opts : List (Opt Bool)) : Option Result :=
  (convertString S L.tables parse (Stock.defaultConverter L) fuel input opts).map (·.1)

/-- `/repo/convert.go:29-38` `ConvertReader`. -/
def packageReader (S : GoSort) (L : Stock.Lib) (parse : Reader → Except Bytes Node) (fuel : Nat) (r : Reader) (opts : List (Opt Bool)) : Option Result :=
  (convertReader S L.tables parse (Stock.defaultConverter L) fuel r opts).map (·.1)

/-- `/repo/convert.go:45-54` `ConvertNode`. -/
def packageNode (S : GoSort) (L : Stock.Lib) (fuel : Nat) (doc : Node) (opts : List (Opt Bool)) : Option Result :=
  (convertNode S L.tables (Stock.defaultConverter L) fuel doc opts).map (·.1)

end Verif.Convert
