import Verif.Model.Config
/-!
# Model of the command line tool

`/repo/cli/html2markdown/cmd`: `flags.go`, `exec.go`, `io_input.go`, `io_output.go`, and the checks of `cmd_convert.go`.

The file system is a map from paths to entries; links, permissions and other processes are not modelled.  Calls into
libraries that are not part of `/repo` (globbing, hashing, relative paths) are parameters.  Because a crash can happen at
any time, a run is the list of all states that the file system goes through, down to single bytes of a write.
-/

namespace Verif.Cli
open Verif

/-! ## Configuration and flags -/

/-- `/repo/cli/html2markdown/cmd/exec.go:22-50` `Config`; the selectors are kept as text. -/
structure Config where
  args : List Bytes := []
  input : Bytes := []
  output : Bytes := []
  overwrite : Bool := false
  version : Bool := false
  domain : Bytes := []
  includeSel : List Bytes := []
  excludeSel : List Bytes := []
  strongDelimiter : Bytes := b!"**"
  strikethrough : Bool := false
  table : Bool := false
  skipEmptyRows : Bool := false
  headerPromotion : Bool := false
  spanCellBehavior : Bytes := []
  presentationTables : Bool := false
  newlineBehavior : Bytes := []
  cellPaddingBehavior : Bytes := []
deriving DecidableEq

/-- The errors of the command line tool. `/repo/cli/html2markdown/cmd/errors.go:1-66`, `exec.go`, `io_input.go`, `io_output.go`. -/
inductive Err where
  /-- `flag.ErrHelp` -/
  | help
  | badSyntax
  /-- a flag that there is not -/
  | notDefined (name : Bytes)
  | needsArgument | badValue
  | requiresTable | unknownArguments
  | noInput | noFiles | glob
  | outputNeedsDirectory | outputIsDirectory | mkdir | relPath
  | read | validation | pluginOption | convert | exists | write
deriving DecidableEq

/-- The boolean flags (`/repo/cli/html2markdown/cmd/flags.go:45-98`), with what setting them does. -/
def boolFlag? (name : Bytes) : Option (Config → Bool → Config) :=
  if name = b!"version" ∨ name = b!"v" then some fun c b => { c with version := b }
  else if name = b!"output-overwrite" then some fun c b => { c with overwrite := b }
  else if name = b!"plugin-strikethrough" then some fun c b => { c with strikethrough := b }
  else if name = b!"plugin-table" then some fun c b => { c with table := b }
  else if name = b!"opt-table-skip-empty-rows" then some fun c b => { c with skipEmptyRows := b }
  else if name = b!"opt-table-header-promotion" then some fun c b => { c with headerPromotion := b }
  else if name = b!"opt-table-presentation-tables" then some fun c b => { c with presentationTables := b }
  else none

/-- `/repo/cli/html2markdown/cmd/flags.go:31-43` `singleStringFlag`. -/
def single (old v : Bytes) : Option Bytes :=
  if trimSpace v = [] then none else if old ≠ [] then none else some (trimSpace v)

/-- `/repo/cli/html2markdown/cmd/flags.go:14-29` `selectorFlag`; `parseSelector` is `cascadia.ParseGroup`. -/
def selector (parseSelector : Bytes → Option (List Bytes)) (old : List Bytes) (v : Bytes) : Option (List Bytes) :=
  if trimSpace v = [] then none else (parseSelector v).map (old ++ ·)

/-- The flags with a value (`/repo/cli/html2markdown/cmd/flags.go:45-98`), with what setting them does; an inner `none` is an error. -/
def valueFlag? (parseSelector : Bytes → Option (List Bytes)) (name : Bytes) :
    Option (Config → Bytes → Option Config) :=
  if name = b!"input" then some fun c v => (single c.input v).map fun x => { c with input := x }
  else if name = b!"output" then some fun c v => (single c.output v).map fun x => { c with output := x }
  else if name = b!"domain" then some fun c v => some { c with domain := v }
  else if name = b!"include-selector" then some fun c v => (selector parseSelector c.includeSel v).map fun x => { c with includeSel := x }
  else if name = b!"exclude-selector" then some fun c v => (selector parseSelector c.excludeSel v).map fun x => { c with excludeSel := x }
  else if name = b!"opt-strong-delimiter" then some fun c v => some { c with strongDelimiter := v }
  else if name = b!"opt-table-span-cell-behavior" then some fun c v => some { c with spanCellBehavior := v }
  else if name = b!"opt-table-newline-behavior" then some fun c v => some { c with newlineBehavior := v }
  else if name = b!"opt-table-cell-padding-behavior" then some fun c v => some { c with cellPaddingBehavior := v }
  else none

/-- `strconv.ParseBool`.  Used by package flag for the flags of `/repo/cli/html2markdown/cmd/flags.go:48-97`. -/
def parseBool (v : Bytes) : Option Bool :=
  if v ∈ [b!"1", b!"t", b!"T", b!"TRUE", b!"true", b!"True"] then some true
  else if v ∈ [b!"0", b!"f", b!"F", b!"FALSE", b!"false", b!"False"] then some false
  else none

/-- The name and the value of a flag: split at the first `=` that is not the first byte. `FlagSet.parseOne` of package flag, called at `/repo/cli/html2markdown/cmd/flags.go:101`. -/
def splitFlag (s : Bytes) : Bytes × Option Bytes :=
  match s with
  | [] => ([], none)
  | c :: rest =>
    match rest.dropWhile (· != 61) with
    | [] => (c :: rest, none)
    | _ :: v => (c :: rest.takeWhile (· != 61), some v)

/-- The loop of `FlagSet.Parse` of package flag (`parseOne`), called at `/repo/cli/html2markdown/cmd/flags.go:101`. -/
def parseArgs (parseSelector : Bytes → Option (List Bytes)) (c : Config) : List Bytes → Except Err Config
  | [] => .ok c
  | s :: args =>
    match s with
    | 45 :: x :: r =>
      if x = 45 ∧ r = [] then .ok { c with args := args }
      else
        let body := if x = 45 then r else x :: r
        if body = [] ∨ body.head? = some 45 ∨ body.head? = some 61 then .error .badSyntax
        else
          let (name, value) := splitFlag body
          match boolFlag? name with
          | some set =>
            match parseBool (value.getD b!"true") with
            | none => .error .badValue
            | some b => parseArgs parseSelector (set c b) args
          | none =>
            match valueFlag? parseSelector name with
            | none => .error (if name = b!"help" ∨ name = b!"h" then .help else .notDefined name)
            | some set =>
              match value, args with
              | some v, args =>
                match set c v with
                | none => .error .badValue
                | some c => parseArgs parseSelector c args
              | none, [] => .error .needsArgument
              | none, v :: args =>
                match set c v with
                | none => .error .badValue
                | some c => parseArgs parseSelector c args
    | _ => .ok { c with args := s :: args }

/-- `/repo/cli/html2markdown/cmd/flags.go:109-126`: options of the table plugin without the plugin. -/
def checkTable (c : Config) : Bool :=
  c.table || !(c.skipEmptyRows || c.headerPromotion || c.spanCellBehavior ≠ [] || c.presentationTables ||
    c.newlineBehavior ≠ [] || c.cellPaddingBehavior ≠ [])

/-- `/repo/cli/html2markdown/cmd/flags.go:100-132` `parseFlags`. -/
def parseFlags (parseSelector : Bytes → Option (List Bytes)) (args : List Bytes) : Except Err Config :=
  match parseArgs parseSelector {} args with
  | .error e => .error e
  | .ok c => if checkTable c then .ok c else .error .requiresTable

/-! ## The file system -/

/-- An entry of the file system. What `os.Stat` says at `/repo/cli/html2markdown/cmd/io_output.go:29-81`. -/
inductive Entry where
  | file (data : Bytes)
  | dir
deriving DecidableEq

/-- The file system. Not in `/repo`; see `/repo/cli/html2markdown/cmd/io_output.go:183-208`. -/
abbrev FS := Bytes → Option Entry

/-- The file system with the content of one file replaced. `os.OpenFile` and `Write` at `/repo/cli/html2markdown/cmd/io_output.go:183-208`. -/
def FS.write (fs : FS) (path data : Bytes) : FS := fun p => if p = path then some (.file data) else fs p

/-- `/repo/cli/html2markdown/cmd/io_output.go:183-208` `WriteFile`: the states of the file system, one after the other, and the error.
`openFails` says that `os.OpenFile` fails for another reason (permissions, missing directory); `fault` says that the write
fails after that many bytes. -/
def writeFile (fs : FS) (path data : Bytes) (override openFails : Bool) (fault : Option Nat) : List FS × Option Err :=
  if openFails then ([], some .write)
  else match fs path, override with
    | some _, false => ([], some .exists)
    | some .dir, true => ([], some .write)
    | _, _ =>
      let n := match fault with
        | none => data.length
        | some k => min k data.length
      ((List.range (n + 1)).map fun k => fs.write path (data.take k), fault.map fun _ => .write)

/-! ## Paths -/

/-- `filepath.Base` (Unix). Called at `/repo/cli/html2markdown/cmd/io_input.go:20-22`. -/
def base (path : Bytes) : Bytes :=
  if path = [] then b!"."
  else
    let p := (path.reverse.dropWhile (· == 47)).reverse
    if p = [] then b!"/" else (p.reverse.takeWhile (· != 47)).reverse

/-- `/repo/cli/html2markdown/cmd/io_input.go:20-22` `fileNameWithoutExtension`, for a name without `/`:
`filepath.Ext` is the part from the last `.`. -/
def withoutExt (name : Bytes) : Bytes :=
  if name.contains 46 then ((name.reverse.dropWhile (· != 46)).drop 1).reverse else name

/-- `/repo/cli/html2markdown/cmd/io_input.go:13-17` `input`. -/
structure Input where
  path : Bytes
  data : Option Bytes := none
deriving DecidableEq

/-- `/repo/cli/html2markdown/cmd/exec.go:53-62` `Release`. -/
structure Release where
  version : Bytes := b!"unknown"
  commit : Bytes := b!"unknown"
  date : Bytes := b!"unknown"

/-- `/repo/cli/html2markdown/cmd/cmd_version.go:5-11` `printVersion`. -/
def versionText (r : Release) : Bytes :=
  b!"html2markdown\n\n" ++ (b!"GitVersion:  " ++ r.version ++ [NL]) ++ (b!"GitCommit:   " ++ r.commit ++ [NL]) ++
    (b!"BuildDate:   " ++ r.date ++ [NL])

/-- Everything the tool takes from its surroundings. The libraries called by `/repo/cli/html2markdown/cmd/exec.go:130-190`. -/
structure Env where
  /-- `cascadia.ParseGroup` -/
  parseSelector : Bytes → Option (List Bytes)
  /-- `doublestar.FilepathGlob`: the matching files -/
  glob : Bytes → Option (List Bytes)
  /-- `doublestar.SplitPattern(filepath.ToSlash(filepath.Clean(p)))`: the directory part -/
  globBase : Bytes → Bytes
  /-- `filepath.Rel` -/
  rel : Bytes → Bytes → Option Bytes
  /-- the first ten digits of the hash of a path (`/repo/cli/html2markdown/cmd/io_output.go:118-129` `hashFilepath`) -/
  hash10 : Bytes → Bytes
  /-- `filepath.Join` -/
  join : Bytes → Bytes → Bytes
  /-- `filepath.Dir` -/
  dirOf : Bytes → Bytes
  /-- `os.MkdirAll`: the new file system, or an error -/
  mkdirAll : FS → Bytes → FS × Bool
  /-- it only adds directories -/
  mkdirAll_adds : ∀ fs d p, (mkdirAll fs d).1 p = fs p ∨ (fs p = none ∧ (mkdirAll fs d).1 p = some .dir)
  /-- the content of stdin, if it is a pipe -/
  stdin : Option Bytes
  /-- does `os.OpenFile` fail for another reason than an existing file? -/
  openFails : FS → Bytes → Bool
  /-- does a write fail, and after how many bytes? -/
  fault : Bytes → Option Nat
  /-- parsing, selecting and converting one document with a valid configuration; `none` is an error -/
  markdown : Config → Bytes → Option Bytes
  release : Release := {}

/-- `/repo/cli/html2markdown/cmd/io_input.go:27-85` `listInputs`. -/
def listInputs (env : Env) (cfg : Config) : Except Err (List Input) :=
  if cfg.input ≠ [] then
    match env.glob cfg.input with
    | none => .error .glob
    | some [] => .error .noFiles
    | some ms => .ok (ms.map fun m => { path := m })
  else match env.stdin with
    | some data => .ok [{ path := b!"output", data := some data }]
    | none => .error .noInput

/-- `/repo/cli/html2markdown/cmd/io_output.go:14-20` `outputType`. -/
inductive OutputType | stdout | directory | file
deriving DecidableEq

/-- `/repo/cli/html2markdown/cmd/io_output.go:23-27` `hasFolderSuffix` (Unix). -/
def hasFolderSuffix (path : Bytes) : Bool := path.getLast? == some 47

/-- `/repo/cli/html2markdown/cmd/io_output.go:29-81` `determineOutputType`. -/
def determineOutputType (fs : FS) (countInputs : Nat) (output : Bytes) : Except Err OutputType :=
  if output = [] then if countInputs > 1 then .error .outputNeedsDirectory else .ok .stdout
  else if hasFolderSuffix output then .ok .directory
  else if countInputs > 1 then .error .outputNeedsDirectory
  else match fs output with
    | some .dir => .error .outputIsDirectory
    | _ => .ok .file

/-- `/repo/cli/html2markdown/cmd/io_output.go:83-116` `calculateOutputPaths`: the loop; `seen` are the names without extension
of the inputs before (the map counts how often each occurs). -/
def outputNamesGo (env : Env) (globBase : Bytes) (seen : List Bytes) : List Bytes → Option (List Bytes)
  | [] => some []
  | p :: ps =>
    let basename := withoutExt (base p)
    if seen.count basename = 0 then (outputNamesGo env globBase (basename :: seen) ps).map ((basename ++ b!".md") :: ·)
    else (env.rel globBase p).bind fun r =>
      (outputNamesGo env globBase (basename :: seen) ps).map ((basename ++ b!"." ++ env.hash10 r ++ b!".md") :: ·)

/-- `/repo/cli/html2markdown/cmd/io_output.go:83-116` `calculateOutputPaths`. -/
def outputNames (env : Env) (pattern : Bytes) (paths : List Bytes) : Option (List Bytes) :=
  outputNamesGo env (env.globBase pattern) [] paths

/-- `/repo/cli/html2markdown/cmd/cmd_convert.go:94-137` `convert`: the checks of the plugins
(`/repo/plugin/table/table.go:27-104`, `/repo/plugin/commonmark/validation.go`), then the conversion.  The table plugin is registered last, and
its error replaces one of the CommonMark plugin. -/
def convert (env : Env) (cfg : Config) (data : Bytes) : Except Err Bytes :=
  if cfg.table ∧ (cfg.spanCellBehavior ∉ [b!"", b!"empty", b!"mirror"] ∨ cfg.newlineBehavior ∉ [b!"", b!"skip", b!"preserve"] ∨
      cfg.cellPaddingBehavior ∉ [b!"", b!"aligned", b!"minimal", b!"none"]) then .error .pluginOption
  else if (Verif.Config.validate (Verif.Config.newPlugin [fun c => { c with strongDelimiter := cfg.strongDelimiter }])).isSome then .error .validation
  else match env.markdown cfg data with
    | none => .error .convert
    | some md => .ok md

/-- What a run does: the states of the file system (the first one is the state at the start), what it prints, the error. The result of `/repo/cli/html2markdown/cmd/exec.go:130-190`. -/
structure Outcome where
  states : List FS
  stdout : Bytes := []
  err : Option Err := none

/-- The last state. After `/repo/cli/html2markdown/cmd/exec.go:130-190`. -/
def Outcome.final (o : Outcome) (fs : FS) : FS := o.states.getLast?.getD fs

/-- `/repo/cli/html2markdown/cmd/io_input.go:87-98` `readInput`. -/
def readInput (fs : FS) (i : Input) : Option Bytes :=
  match i.data with
  | some d => some d
  | none => match fs i.path with
    | some (.file d) => some d
    | _ => none

/-- `/repo/cli/html2markdown/cmd/exec.go:172-187`: the loop over the inputs, with `writeOutput`
(`/repo/cli/html2markdown/cmd/io_output.go:143-178`).  The states do not contain `fs` itself. -/
def processGo (env : Env) (cfg : Config) (ot : OutputType) (fs : FS) : List (Input × Bytes) → Outcome
  | [] => { states := [] }
  | (i, name) :: rest =>
    match readInput fs i with
    | none => { states := [], err := some .read }
    | some data =>
      match convert env cfg data with
      | .error e => { states := [], err := some e }
      | .ok md =>
        if ot = .stdout then
          let r := processGo env cfg ot fs rest
          { r with stdout := md ++ [NL] ++ r.stdout }
        else
          let path := if ot = .directory then env.join cfg.output name else cfg.output
          let w := writeFile fs path md cfg.overwrite (env.openFails fs path) (env.fault path)
          match w.2 with
          | some e => { states := w.1, err := some e }
          | none =>
            let r := processGo env cfg ot (w.1.getLast?.getD fs) rest
            { r with states := w.1 ++ r.states }

/-- `/repo/cli/html2markdown/cmd/exec.go:130-190` `run`, after the flags, with `ensureOutputDirectories` (`io_output.go:131-141`). -/
def runConfig (env : Env) (cfg : Config) (fs : FS) : Outcome :=
  if cfg.args ≠ [] then { states := [fs], err := some .unknownArguments }
  else if cfg.version then { states := [fs], stdout := versionText env.release }
  else match listInputs env cfg with
  | .error e => { states := [fs], err := some e }
  | .ok inputs =>
    match determineOutputType fs inputs.length cfg.output with
    | .error e => { states := [fs], err := some e }
    | .ok ot =>
      let (fs', ok) := match ot with
        | .stdout => (fs, true)
        | .directory => env.mkdirAll fs cfg.output
        | .file => env.mkdirAll fs (env.dirOf cfg.output)
      if !ok then { states := [fs, fs'], err := some .mkdir }
      else match outputNames env cfg.input (inputs.map (·.path)) with
      | none => { states := [fs, fs'], err := some .relPath }
      | some names =>
        let r := processGo env cfg ot fs' (inputs.zip names)
        { r with states := fs :: fs' :: r.states }

/-- `/repo/cli/html2markdown/cmd/exec.go:130-190` `run`. -/
def run (env : Env) (args : List Bytes) (fs : FS) : Outcome :=
  match parseFlags env.parseSelector args with
  | .error e => { states := [fs], err := some e }
  | .ok cfg => runConfig env cfg fs

end Verif.Cli
