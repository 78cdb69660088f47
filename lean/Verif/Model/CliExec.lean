import Verif.Model.Cli
/-!
# Model of what a run of the command line tool shows to the outside

`/repo/cli/html2markdown/cmd`: `cli_run.go`, `Execute` of `exec.go`, `flags_categorize.go`, `errors.go`, `cmd_help.go`
-/

namespace Verif.Cli
open Verif

/-- `/repo/cli/html2markdown/cmd/flags_categorize.go:14-19` `formatFlag`. -/
def formatFlag (name : Bytes) : Bytes := if name.length = 1 then b!"-" ++ name else b!"--" ++ name

/-- The names of the flags, in the order in which `flag.VisitAll` goes through them: sorted. `/repo/cli/html2markdown/cmd/flags.go:45-98`. -/
def sortedFlags : List Bytes :=
  [b!"domain", b!"exclude-selector", b!"include-selector", b!"input", b!"opt-strong-delimiter", b!"opt-table-cell-padding-behavior",
   b!"opt-table-header-promotion", b!"opt-table-newline-behavior", b!"opt-table-presentation-tables", b!"opt-table-skip-empty-rows",
   b!"opt-table-span-cell-behavior", b!"output", b!"output-overwrite", b!"plugin-strikethrough", b!"plugin-table", b!"v", b!"version"]

/-- `/repo/cli/html2markdown/cmd/flags_categorize.go:24-33`: the loop of `getAlternativeFlag`. `distance` is `levenshtein.ComputeDistance`. -/
def closest (distance : Bytes → Bytes → Nat) (unknown : Bytes) : List Bytes → Nat × Bytes → Nat × Bytes
  | [], best => best
  | f :: fs, best => closest distance unknown fs (if distance f unknown < best.1 then (distance f unknown, f) else best)

/-- `/repo/cli/html2markdown/cmd/flags_categorize.go:20-41` `getAlternativeFlag`; the empty string is none. -/
def alternativeFlag (distance : Bytes → Bytes → Nat) (unknown : Bytes) : Bytes :=
  let best := closest distance unknown sortedFlags (10000, [])
  if best.1 ≥ runeCount unknown then [] else if best.1 > 4 then [] else best.2

/-- What is shown depends on these. `/repo/cli/html2markdown/cmd/errors.go:34-45`, `cmd_help.go:126-128`. -/
structure Screen where
  /-- `levenshtein.ComputeDistance` -/
  distance : Bytes → Bytes → Nat
  /-- the text of `/repo/cli/html2markdown/cmd/cmd_help.go:12-85` with the version and the flags filled in -/
  usage : Bytes
  /-- `/repo/cli/html2markdown/cmd/print.go:17-36` `ColoredBox`, with the message of the error -/
  box : Err → Bytes
  /-- the paragraphs and examples below the message -/
  details : Err → List Bytes

/-- `/repo/cli/html2markdown/cmd/flags_categorize.go:42-66` `categorizeFlagError`: what is printed below the message. -/
def printers (scr : Screen) : Err → List Bytes
  | .notDefined name =>
    let alt := alternativeFlag scr.distance name
    if alt = [] then [] else [b!"Did you mean " ++ formatFlag alt ++ b!" instead?" ++ [NL]]
  | e => scr.details e

/-- `/repo/cli/html2markdown/cmd/errors.go:34-45` `PrintDetails`. -/
def printDetails (scr : Screen) (e : Err) : Bytes := ((scr.box e :: printers scr e).flatMap fun p => [NL] ++ p) ++ [NL]

/-- What a process does: the states of the file system, its output, its exit code. The effects of `/repo/cli/html2markdown/cmd/exec.go:106-128`. -/
structure Process where
  states : List FS
  stdout : Bytes := []
  stderr : Bytes := []
  code : Nat

/-- `/repo/cli/html2markdown/cmd/exec.go:106-128` `Execute`; `run` returns no warnings. -/
def execute (scr : Screen) (env : Env) (args : List Bytes) (fs : FS) : Process :=
  let o := run env args fs
  match o.err with
  | none => { states := o.states, stdout := o.stdout, code := 0 }
  | some .help => { states := o.states, stdout := o.stdout ++ scr.usage, code := 0 }
  | some e => { states := o.states, stdout := o.stdout, stderr := printDetails scr e, code := 1 }

end Verif.Cli
