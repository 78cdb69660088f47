import Verif.Basic.Bytes
/-!
# Specification: line by line relations
-/

namespace Verif.Spec

/-- `R` relates the two lists item by item. -/
inductive Pointwise {α β : Type} (R : α → β → Prop) : List α → List β → Prop
  | nil : Pointwise R [] []
  | cons {a b as bs} : R a b → Pointwise R as bs → Pointwise R (a :: as) (b :: bs)

end Verif.Spec
