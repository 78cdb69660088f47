import Verif.Spec.BlockSections
/-!
# Documents with a code block
-/

namespace Verif.Spec
open Verif

mutual
/-- The texts of code that is written with texts, `span` elements (as they are used for colours) and line breaks (`br`) only. -/
def plainCode : Node → Option Bytes
  | .text d => some d
  | .elem n _ cs => if n = b!"span" then plainCodeL cs else if n = b!"br" ∧ cs.isEmpty then some [] else none
  | _ => none
/-- The same for nodes one behind the other. -/
def plainCodeL : List Node → Option Bytes
  | [] => some []
  | n :: ns => (plainCode n).bind fun x => (plainCodeL ns).map fun y => x ++ y
end

/-- The content is code (with a text that is not empty). -/
def CodeContent (content : List Node) : Prop := ∃ code, plainCodeL content = some code ∧ code ≠ []

/-- A code block: `<pre>…</pre>` or `<pre><code>…</code></pre>`, with any attributes. -/
def CodeBlock (x : Node) : Prop :=
  ∃ a content, x = .elem b!"pre" a content ∧ (CodeContent content ∨ ∃ b inner, content = [.elem b!"code" b inner] ∧ CodeContent inner)

/-- Of these names only `pre` is that of a block (as it is in HTML). -/
structure CodeNames (isBlock : Bytes → Bool) : Prop where
  pre : isBlock b!"pre" = true
  span : isBlock b!"span" = false
  text : isBlock b!"#text" = false
  br : isBlock b!"br" = false

/-- The fences of code blocks. -/
def Fence (fence : Bytes) : Prop := fence = b!"```" ∨ fence = b!"~~~"

end Verif.Spec
