import Verif.Model.Engine
/-!
# Specification for C92: values of the context
-/

namespace Verif.Spec
open Verif.Engine

/-- Whatever happens, a handler renders other nodes only with contexts that have the domain and, for the key, the value of `ctx`. -/
inductive Passes {V α : Type} (key : Bytes) (ctx : Ctx V) : Prog V α → Prop
  | ret (a : α) : Passes key ctx (.ret a)
  | write {b next} : Passes key ctx next → Passes key ctx (.write b next)
  | getTagType {name next} : (∀ t, Passes key ctx (next t)) → Passes key ctx (.getTagType name next)
  | getTagTypes {next} : (∀ t, Passes key ctx (next t)) → Passes key ctx (.getTagTypes next)
  | render {ctx' nodes next} : ctx'.domain = ctx.domain → ctx'.values key = ctx.values key → Passes key ctx next → Passes key ctx (.render ctx' nodes next)
  | renderTo {ctx' nodes next} : ctx'.domain = ctx.domain → ctx'.values key = ctx.values key → (∀ b, Passes key ctx (next b)) →
      Passes key ctx (.renderTo ctx' nodes next)
  | getState {k next} : (∀ v, Passes key ctx (next v)) → Passes key ctx (.getState k next)
  | setState {k v next} : Passes key ctx next → Passes key ctx (.setState k v next)
  | escape {next} : (∀ f, Passes key ctx (next f)) → Passes key ctx (.escape next)
  | unEscape {next} : (∀ f, Passes key ctx (next f)) → Passes key ctx (.unEscape next)
  | panic : Passes key ctx .panic

/-- The renderers and text transformers of a converter pass on the domain and the value of a key. -/
structure PassesOn {V} (key : Bytes) (c : Conv V) : Prop where
  renderers : ∀ r ∈ c.renderers, ∀ ctx l, Passes key ctx (r.value ctx l)
  text : ∀ t ∈ c.text, ∀ ctx content, Passes key ctx (t.value ctx content)

/-- Two lists of handlers do the same for every context with this domain and this value of the key. -/
def SameFor {V A R : Type} (domain : Bytes) (key : Bytes) (v : Option V) (hs hs' : List (Prio (Ctx V → A → R))) : Prop :=
  hs.length = hs'.length ∧ ∀ p ∈ hs.zip hs', ∀ ctx : Ctx V, ctx.domain = domain → ctx.values key = v → ∀ a, p.1.value ctx a = p.2.value ctx a

end Verif.Spec
