import Verif.Model.Dom
/-!
# Documents that look the same

For C99.  What a browser does not show in the text: comments, scripts, styles, forms; and how a text is split into pieces.
-/

namespace Verif.Spec
open Verif

/-- Elements that are left out, with all that is in them. -/
def hiddenNames : List Bytes := [b!"head", b!"script", b!"style", b!"link", b!"meta", b!"iframe", b!"noscript", b!"input", b!"textarea"]

/-- A comment or an element that is left out. -/
inductive Hidden : Node → Prop
  | comment (d) : Hidden (.comment d)
  | elem {n} (a cs) : n ∈ hiddenNames → Hidden (.elem n a cs)

/-- Siblings that look the same: the smallest equivalence relation for which hidden nodes and the places where a text is split do not count, at
any depth. -/
inductive LooksSame : List Node → List Node → Prop
  | hidden {x} (cs) : Hidden x → LooksSame (x :: cs) cs
  | split (d e cs) : LooksSame (.text d :: .text e :: cs) (.text (d ++ e) :: cs)
  | inside {n a ks ks'} (cs) : LooksSame ks ks' → LooksSame (.elem n a ks :: cs) (.elem n a ks' :: cs)
  | behind {cs cs'} (x) : LooksSame cs cs' → LooksSame (x :: cs) (x :: cs')
  | same (cs) : LooksSame cs cs
  | symm {cs cs'} : LooksSame cs cs' → LooksSame cs' cs
  | trans {a b c} : LooksSame a b → LooksSame b c → LooksSame a c

end Verif.Spec
