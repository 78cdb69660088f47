import Verif.Basic.Bytes
/-!
# Specification of Markdown lists

Independent of the model: how a reader of Markdown finds the items of a list whose markers have the
width `w`.
-/

namespace Verif.Spec
open Verif

/-- The number a string of decimal digits stands for. -/
def decimalValue (ds : Bytes) : Nat := ds.foldl (fun n d => 10 * n + (d.toNat - 48)) 0

/-- The number a string of decimal digits with an optional minus sign stands for. -/
def intValue (ds : Bytes) : Int := if ds.head? = some 45 then - (decimalValue (ds.drop 1) : Int) else decimalValue ds

/-- A non-empty string of decimal digits. -/
def Digits (ds : Bytes) : Prop := ds ≠ [] ∧ ∀ d ∈ ds, 48 ≤ d ∧ d ≤ 57

/-- The reader of a list.  A line that starts with `w` spaces continues the item before it, and
belongs to the content of that item without these spaces.  Every other line starts a new item: its
first `w` bytes are the marker, the rest of it is the first line of the content.
The first component of the result are continuation lines in front of the first item. -/
def readItems (w : Nat) : List Bytes → List Bytes × List (Bytes × List Bytes)
  | [] => ([], [])
  | l :: ls =>
    let r := readItems w ls
    if List.replicate w 32 <+: l then (l.drop w :: r.1, r.2)
    else ([], (l.take w, l.drop w :: r.1) :: r.2)

end Verif.Spec
