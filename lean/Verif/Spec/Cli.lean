import Verif.Basic.Bytes
/-!
# Specification of the command line
-/

namespace Verif.Spec
open Verif

/-- The names of the flags that take no value, and of those that take one. -/
def boolFlags : List Bytes :=
  [b!"version", b!"v", b!"output-overwrite", b!"plugin-strikethrough", b!"plugin-table", b!"opt-table-skip-empty-rows",
   b!"opt-table-header-promotion", b!"opt-table-presentation-tables"]

/-- The names of the flags that take a value. -/
def valueFlags : List Bytes :=
  [b!"input", b!"output", b!"domain", b!"include-selector", b!"exclude-selector", b!"opt-strong-delimiter",
   b!"opt-table-span-cell-behavior", b!"opt-table-newline-behavior", b!"opt-table-cell-padding-behavior"]

/-- How a command line is read: flags `-name`, `-name=value` (also with two dashes), for the flags with a value also
`-name value`; then, after `--` or from the first argument that is no flag, the positional arguments. -/
inductive Reads : List Bytes → List (Bytes × Option Bytes) → List Bytes → Prop where
  | done : Reads [] [] []
  | dashes (rest) : Reads (b!"--" :: rest) [] rest
  | positional (a rest) (h : a.length < 2 ∨ a.head? ≠ some 45) : Reads (a :: rest) [] (a :: rest)
  | bool {dash name : Bytes} {args flags rest} (hd : dash ∈ [b!"-", b!"--"]) (hn : name ∈ boolFlags) (h : Reads args flags rest) :
      Reads ((dash ++ name) :: args) ((name, none) :: flags) rest
  | withValue {dash name v : Bytes} {args flags rest} (hd : dash ∈ [b!"-", b!"--"]) (hn : name ∈ boolFlags ++ valueFlags) (h : Reads args flags rest) :
      Reads ((dash ++ name ++ b!"=" ++ v) :: args) ((name, some v) :: flags) rest
  | nextArg {dash name v : Bytes} {args flags rest} (hd : dash ∈ [b!"-", b!"--"]) (hn : name ∈ valueFlags) (h : Reads args flags rest) :
      Reads ((dash ++ name) :: v :: args) ((name, some v) :: flags) rest

/-- What counts as yes and as no. -/
def yesWords : List Bytes := [b!"1", b!"t", b!"T", b!"TRUE", b!"true", b!"True"]
def noWords : List Bytes := [b!"0", b!"f", b!"F", b!"FALSE", b!"false", b!"False"]

/-- The last value given to a flag (`some none`: it was given without a value). -/
def lastGiven (name : Bytes) (flags : List (Bytes × Option Bytes)) : Option (Option Bytes) :=
  ((flags.filter fun f => f.1 = name).map (·.2)).getLast?

/-- A flag without a value is on if its last mention says so. -/
def IsOn (name : Bytes) (flags : List (Bytes × Option Bytes)) : Prop :=
  ∃ v, lastGiven name flags = some v ∧ ∀ w, v = some w → w ∈ yesWords

/-- The last value of a flag is not empty. -/
def HasText (name : Bytes) (flags : List (Bytes × Option Bytes)) : Prop :=
  ∃ v, lastGiven name flags = some (some v) ∧ v ≠ []

/-- The flags are fine: every yes/no value is one of the known words, input and output are given at most once, paths and
selectors are not blank and selectors can be parsed, and the options of the table plugin come with the plugin. -/
structure Valid (parses : Bytes → Prop) (flags : List (Bytes × Option Bytes)) : Prop where
  words : ∀ n v, (n, some v) ∈ flags → n ∈ boolFlags → v ∈ yesWords ++ noWords
  once : ∀ n ∈ [b!"input", b!"output"], (flags.map (·.1)).count n ≤ 1
  notBlank : ∀ n v, (n, some v) ∈ flags → n ∈ [b!"input", b!"output", b!"include-selector", b!"exclude-selector"] → trimSpace v ≠ []
  selectors : ∀ n v, (n, some v) ∈ flags → n ∈ [b!"include-selector", b!"exclude-selector"] → parses v
  table : (∃ n ∈ [b!"opt-table-skip-empty-rows", b!"opt-table-header-promotion", b!"opt-table-presentation-tables"], IsOn n flags) ∨
    (∃ n ∈ [b!"opt-table-span-cell-behavior", b!"opt-table-newline-behavior", b!"opt-table-cell-padding-behavior"], HasText n flags) →
    IsOn b!"plugin-table" flags

end Verif.Spec
