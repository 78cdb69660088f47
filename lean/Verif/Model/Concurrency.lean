import Verif.Model.Engine
/-!
# Model of concurrent reads of the tag types

`/repo/converter/register.go:203-222` `getTagType` holds the read lock only, and sorts the slice that is stored in the
map in place.  Any number of goroutines can be inside of it at the same time, so the single reads and writes of their
sorts interleave.

The model: one shared slice (that of one tag name), and threads that run Go's `insertionSort_func` on it (slices of at
most 12 elements) and then read the first element.  One step is one read or one write of an element.  (In Go an
element takes several machine words, so even more can go wrong.)
-/

namespace Verif.Concurrency
open Verif Verif.Engine

/-- Where a goroutine is inside of `getTagType`. `/repo/converter/register.go:203-222`. -/
inductive Pc where
  /-- `for i := a + 1; i < b; i++` -/
  | outer (i : Nat)
  /-- `j > a && less(j, j-1)`: reads element `j` -/
  | less (i j : Nat)
  /-- `less(j, j-1)`: has read the priority of element `j`, reads that of element `j-1` -/
  | less' (i j : Nat) (p : Int)
  /-- `swap(j, j-1)`: `tmp = s[j]` -/
  | swap (i j : Nat)
  /-- `swap(j, j-1)`: reads `s[j-1]` -/
  | swap1 (i j : Nat) (tmp : Prio TagType)
  /-- `swap(j, j-1)`: writes it to `s[j]` -/
  | swap2 (i j : Nat) (tmp v : Prio TagType)
  /-- `swap(j, j-1)`: `s[j-1] = tmp` -/
  | swap3 (i j : Nat) (tmp : Prio TagType)
  /-- `types[0].Value` (`/repo/converter/register.go:219`) -/
  | first
  /-- has returned -/
  | done (t : TagType)
deriving DecidableEq

/-- One step of a goroutine; `none` when it has returned (or would panic). `/repo/converter/register.go:203-222`, with the swaps of `sort.Slice` at `/repo/converter/prioritized.go:25-29`. -/
def step (s : List (Prio TagType)) : Pc → Option (Pc × List (Prio TagType))
  | .outer i => some (if i < s.length then .less i i else .first, s)
  | .less i j => if j = 0 then some (.outer (i + 1), s) else s[j]?.map fun x => (.less' i j x.priority, s)
  | .less' i j p => s[j - 1]?.map fun y => (if p < y.priority then .swap i j else .outer (i + 1), s)
  | .swap i j => s[j]?.map fun x => (.swap1 i j x, s)
  | .swap1 i j tmp => s[j - 1]?.map fun y => (.swap2 i j tmp y, s)
  | .swap2 i j tmp y => some (.swap3 i j tmp, s.set j y)
  | .swap3 i j tmp => some (.less i (j - 1), s.set (j - 1) tmp)
  | .first => s[0]?.map fun x => (.done x.value, s)
  | .done _ => none

/-- The shared slice and the goroutines. `/repo/converter/register.go:203-222`, called by several goroutines. -/
structure Config where
  shared : List (Prio TagType)
  threads : List Pc
deriving DecidableEq

/-- Goroutine `k` makes a step (or nothing happens, when it can not). `/repo/converter/register.go:203-222`. -/
def Config.run (c : Config) (k : Nat) : Config :=
  match c.threads[k]? with
  | none => c
  | some pc =>
    match step c.shared pc with
    | none => c
    | some (pc', s) => ⟨s, c.threads.set k pc'⟩

/-- A schedule says which goroutine makes the next step. `/repo/converter/register.go:203-222`. -/
def Config.runAll (c : Config) (schedule : List Nat) : Config := schedule.foldl Config.run c

/-- `n` goroutines enter `getTagType`. `/repo/converter/register.go:203`. -/
def start (registered : List (Prio TagType)) (n : Nat) : Config := ⟨registered, List.replicate n (.outer 1)⟩

end Verif.Concurrency
