import Verif.Model.Engine
/-!
# Specification of the conversion engine

What "in priority order" means, and which registrations a history of calls makes.
-/

namespace Verif.Spec
open Verif.Engine

/-- `order` is `registered` in ascending priority, and with equal priority in order of registration. -/
structure InPriorityOrder {α} (registered order : List (Prio α)) : Prop where
  ascending : order.Pairwise fun a b => a.priority ≤ b.priority
  stable : ∀ p : Int, order.filter (fun x => x.priority == p) = registered.filter (fun x => x.priority == p)

mutual
/-- Does a call fail?  A plugin fails when it has no name, when its `Init` returns an error, or when a plugin that it
registers fails. -/
def fails {V} : Op V → Bool
  | .plugin name init err => name.isEmpty || err.isSome || anyFails init
  | _ => false
/-- Does any of the calls fail? -/
def anyFails {V} : List (Op V) → Bool
  | [] => false
  | op :: ops => fails op || anyFails ops
end

mutual
/-- The tag types that a call registers for a name. -/
def tagTypesOf {V} (name : Bytes) : Op V → List (Prio TagType)
  | .tagType n t p => if n = name then [⟨t, p⟩] else []
  | .rendererFor n t _ p => if n = name then [⟨t, p⟩] else []
  | .plugin n init _ => if n = [] then [] else tagTypesOfAll name init
  | _ => []
/-- The tag types that the calls register for a name, in order. -/
def tagTypesOfAll {V} (name : Bytes) : List (Op V) → List (Prio TagType)
  | [] => []
  | op :: ops => tagTypesOf name op ++ tagTypesOfAll name ops
end

mutual
/-- Does a call register a renderer? -/
def hasRenderer {V} : Op V → Bool
  | .renderer _ _ => true
  | .rendererFor _ _ _ _ => true
  | .plugin n init _ => !n.isEmpty && anyRenderer init
  | _ => false
/-- Does any call register a renderer? -/
def anyRenderer {V} : List (Op V) → Bool
  | [] => false
  | op :: ops => hasRenderer op || anyRenderer ops
end

mutual
/-- The names of the plugins that a call registers. -/
def pluginsOf {V} : Op V → List Bytes
  | .plugin n init _ => if n = [] then [] else n :: pluginsOfAll init
  | _ => []
/-- The names of the plugins that the calls register. -/
def pluginsOfAll {V} : List (Op V) → List Bytes
  | [] => []
  | op :: ops => pluginsOf op ++ pluginsOfAll ops
end

mutual
/-- A call, where registering a plugin means the calls of its `Init`. -/
def callsOf {V} : Op V → List (Op V)
  | .plugin n init _ => if n = [] then [] else callsOfAll init
  | op => [op]
/-- The calls one after the other. -/
def callsOfAll {V} : List (Op V) → List (Op V)
  | [] => []
  | op :: ops => callsOf op ++ callsOfAll ops
end

end Verif.Spec
