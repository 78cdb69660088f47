import Verif.Spec.Alike
import Verif.Spec.Invisible
/-!
# Documents that are the same for a reader

For C98 and C99: documents that differ by what has no meaning and by what is not seen.
-/

namespace Verif.Spec
open Verif

/-- The smallest equivalence relation for which documents that mean the same are the same, and hidden nodes, the places where a text is split and the doctype
at the beginning do not count. -/
inductive SameDocument (T : NameTables) : Node → Node → Prop
  | meaning {d d'} : SameMeaning T d d' → SameDocument T d d'
  | looks {cs cs'} : LooksSame cs cs' → SameDocument T (.document cs) (.document cs')
  | doctype (d cs) : SameDocument T (.document (.doctype d :: cs)) (.document cs)
  | symm {d d'} : SameDocument T d d' → SameDocument T d' d
  | trans {a b c} : SameDocument T a b → SameDocument T b c → SameDocument T a c

end Verif.Spec
