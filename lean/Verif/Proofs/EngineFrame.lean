import Verif.Proofs.Engine
import Verif.Spec.Context
/-! # What was written before does not matter; values of contexts are passed on -/

namespace Verif.Engine
open Verif

/-- Put bytes before the output. -/
def St.before {V} (x : Bytes) (st : St V) : St V := { st with out := x ++ st.out }

/-- Bytes in front of the output stay there. -/
def Frame {V} (rn : Ctx V → List Loc → St V → Option (St V)) : Prop :=
  ∀ x ctx ns st, rn ctx ns (st.before x) = (rn ctx ns st).map (St.before x)

theorem runProg_frame {V α} {S T} {rn : Ctx V → List Loc → St V → Option (St V)} (h : Frame rn) (x : Bytes) :
    ∀ (p : Prog V α) (st : St V), runProg S T rn p (st.before x) = (runProg S T rn p st).map fun r => (r.1, r.2.before x)
  | .ret a, st => rfl
  | .write b next, st => by
    rw [runProg, runProg, ← runProg_frame h x next]
    congr 1
    simp [St.before]
  | .getTagType n next, st => by
    rw [runProg, runProg]
    exact runProg_frame h x (next (getTagType S T.tables st.tagTypes n).1) { st with tagTypes := (getTagType S T.tables st.tagTypes n).2 }
  | .render ctx ns next, st => by
    rw [runProg, runProg, h]
    cases rn ctx ns st with
    | none => rfl
    | some s => exact runProg_frame h x next s
  | .renderTo ctx ns next, st => by
    rw [runProg, runProg]
    show (rn ctx ns { st with out := [] }).bind _ = _
    cases rn ctx ns { st with out := [] } with
    | none => rfl
    | some s => exact runProg_frame h x _ { s with out := st.out }
  | .getState k next, st => by rw [runProg, runProg]; exact runProg_frame h x _ st
  | .setState k v next, st => by rw [runProg, runProg]; exact runProg_frame h x next { st with state := fun k' => if k' = k then some v else st.state k' }
  | .getTagTypes next, st => by rw [runProg, runProg]; exact runProg_frame h x _ st
  | .escape next, st | .unEscape next, st => by rw [runProg, runProg]; exact runProg_frame h x _ st
  | .panic, st => rfl

theorem tryHandlers_frame {V} {S T} {rn : Ctx V → List Loc → St V → Option (St V)} (h : Frame rn) (x : Bytes) (ctx node) :
    ∀ (hs : List (Prio (Render V))) (st : St V),
      tryHandlers S T rn ctx node hs (st.before x) = (tryHandlers S T rn ctx node hs st).map fun r => (r.1, r.2.before x)
  | [], st => rfl
  | r :: hs, st => by
    rw [tryHandlers, tryHandlers, runProg_frame h x]
    cases runProg S T rn (r.value ctx node) st with
    | none => rfl
    | some a =>
      simp only [Option.map_some, Option.bind_some]
      split
      · rfl
      · exact tryHandlers_frame h x ctx node hs a.2

theorem transformText_frame {V} {S T} {rn : Ctx V → List Loc → St V → Option (St V)} (h : Frame rn) (x : Bytes) (ctx) :
    ∀ (hs : List (Prio (TextTransform V))) (content : Bytes) (st : St V),
      transformText S T rn ctx hs content (st.before x) = (transformText S T rn ctx hs content st).map fun r => (r.1, r.2.before x)
  | [], content, st => rfl
  | r :: hs, content, st => by
    rw [transformText, transformText, runProg_frame h x]
    cases runProg S T rn (r.value ctx content) st with
    | none => rfl
    | some a => exact transformText_frame h x ctx hs a.1 a.2

theorem renderNode_frame {V} {S T} {c : Conv V} {rn : Ctx V → List Loc → St V → Option (St V)} (h : Frame rn) (x : Bytes) (ctx node) (st : St V) :
    renderNode S T c rn ctx node (st.before x) = (renderNode S T c rn ctx node st).map (St.before x) := by
  unfold renderNode
  split
  · rw [transformText_frame h x]
    cases transformText S ⟨T, c.escaping⟩ rn ctx (S.sort c.text) _ st with
    | none => rfl
    | some r => simp [St.before]
  · rw [tryHandlers_frame h x]
    cases tryHandlers S ⟨T, c.escaping⟩ rn ctx node (S.sort c.renderers) st with
    | none => rfl
    | some r =>
      simp only [Option.map_some, Option.bind_some]
      split
      · rfl
      · rw [runProg_frame h x]
        cases runProg S ⟨T, c.escaping⟩ rn (fallback ctx node) r.2 <;> rfl

theorem renderList_frame {V} {one : Loc → St V → Option (St V)} (x : Bytes) (h : ∀ n st, one n (st.before x) = (one n st).map (St.before x)) :
    ∀ ns st, renderList one ns (st.before x) = (renderList one ns st).map (St.before x)
  | [], st => rfl
  | n :: ns, st => by
    rw [renderList, renderList, h]
    cases one n st with
    | none => rfl
    | some s => exact renderList_frame x h ns s

theorem renderNodes_frame {V} (S T) (c : Conv V) : ∀ fuel, Frame (renderNodes S T c fuel)
  | 0 => fun _ _ _ _ => rfl
  | fuel + 1 => fun x ctx ns st => renderList_frame x (fun n st => renderNode_frame (renderNodes_frame S T c fuel) x ctx n st) ns st

/-! ## Values of contexts -/

/-- The same for contexts with this domain and value. -/
def SameOn {V} (domain key : Bytes) (v : Option V) (rn rn' : Ctx V → List Loc → St V → Option (St V)) : Prop :=
  ∀ ctx : Ctx V, ctx.domain = domain → ctx.values key = v → ∀ ns st, rn ctx ns st = rn' ctx ns st

theorem runProg_same {V α} {S T} {domain key : Bytes} {v : Option V} {rn rn' : Ctx V → List Loc → St V → Option (St V)} (h : SameOn domain key v rn rn')
    {ctx : Ctx V} (hd : ctx.domain = domain) (hv : ctx.values key = v) {p : Prog V α} (hp : Spec.Passes key ctx p) :
    ∀ st : St V, runProg S T rn p st = runProg S T rn' p st := by
  induction hp with
  | ret a => intro st; rfl
  | panic => intro st; rfl
  | write _ ih => intro st; rw [runProg, runProg, ih]
  | getTagType _ ih => intro st; simp only [runProg, ih]
  | getTagTypes _ ih => intro st; rw [runProg, runProg, ih]
  | getState _ ih => intro st; rw [runProg, runProg, ih]
  | setState _ ih => intro st; rw [runProg, runProg, ih]
  | escape _ ih => intro st; rw [runProg, runProg, ih]
  | unEscape _ ih => intro st; rw [runProg, runProg, ih]
  | render h1 h2 _ ih =>
    intro st
    rw [runProg, runProg, h _ (h1.trans hd) (h2.trans hv)]
    congr 1; funext s; exact ih s
  | renderTo h1 h2 _ ih =>
    intro st
    rw [runProg, runProg, h _ (h1.trans hd) (h2.trans hv)]
    congr 1; funext s; exact ih _ _

theorem tryHandlers_same {V} {S T} {domain key : Bytes} {v : Option V} {rn rn' : Ctx V → List Loc → St V → Option (St V)} (h : SameOn domain key v rn rn')
    {ctx : Ctx V} (hd : ctx.domain = domain) (hv : ctx.values key = v) (node) : ∀ {hs hs' : List (Prio (Render V))},
    Spec.SameFor domain key v hs hs' → (∀ r ∈ hs, ∀ ctx l, Spec.Passes key ctx (r.value ctx l)) →
    ∀ st : St V, tryHandlers S T rn ctx node hs st = tryHandlers S T rn' ctx node hs' st
  | [], [], _, _, st => rfl
  | [], _ :: _, he, _, _ | _ :: _, [], he, _, _ => by simp [Spec.SameFor] at he
  | r :: hs, r' :: hs', he, hp, st => by
    rw [tryHandlers, tryHandlers, ← he.2 (r, r') (by simp) ctx hd hv, runProg_same h hd hv (hp r (by simp) ctx node)]
    have ih := tryHandlers_same (S := S) (T := T) h hd hv node (hs := hs) (hs' := hs')
      ⟨by simpa using he.1, fun p hp => he.2 p (by simp [hp])⟩ (fun r hr => hp r (by simp [hr]))
    congr 1; funext a; rw [ih]

theorem transformText_same {V} {S T} {domain key : Bytes} {v : Option V} {rn rn' : Ctx V → List Loc → St V → Option (St V)} (h : SameOn domain key v rn rn')
    {ctx : Ctx V} (hd : ctx.domain = domain) (hv : ctx.values key = v) : ∀ {hs hs' : List (Prio (TextTransform V))},
    Spec.SameFor domain key v hs hs' → (∀ r ∈ hs, ∀ ctx l, Spec.Passes key ctx (r.value ctx l)) →
    ∀ (content : Bytes) (st : St V), transformText S T rn ctx hs content st = transformText S T rn' ctx hs' content st
  | [], [], _, _, _, st => rfl
  | [], _ :: _, he, _, _, _ | _ :: _, [], he, _, _, _ => by simp [Spec.SameFor] at he
  | r :: hs, r' :: hs', he, hp, content, st => by
    rw [transformText, transformText, ← he.2 (r, r') (by simp) ctx hd hv, runProg_same h hd hv (hp r (by simp) ctx content)]
    have ih := transformText_same (S := S) (T := T) h hd hv (hs := hs) (hs' := hs')
      ⟨by simpa using he.1, fun p hp => he.2 p (by simp [hp])⟩ (fun r hr => hp r (by simp [hr]))
    congr 1; funext a; rw [ih]

theorem fallback_passes {V} (key : Bytes) (ctx : Ctx V) (l : Loc) : Spec.Passes key ctx (fallback ctx l) := by
  refine .getTagType fun t => ?_
  split
  · exact .write (.write (.render rfl rfl (.write (.write (.ret _)))))
  · exact .render rfl rfl (.ret _)

theorem renderNodes_same {V} (S T) {domain key : Bytes} {v : Option V} {c c' : Conv V} (hc : Spec.PassesOn key c)
    (hr : Spec.SameFor domain key v (S.sort c.renderers) (S.sort c'.renderers)) (ht : Spec.SameFor domain key v (S.sort c.text) (S.sort c'.text))
    (he : c.escaping = c'.escaping) : ∀ fuel, SameOn domain key v (renderNodes S T c fuel) (renderNodes S T c' fuel)
  | 0 => fun _ _ _ _ _ => rfl
  | fuel + 1 => by
    intro ctx hd hv ns st
    have ih := renderNodes_same S T hc hr ht he fuel
    rw [renderNodes, renderNodes]
    congr 1
    funext node st
    unfold renderNode
    split
    · rw [transformText_same ih hd hv ht (fun r hr => hc.text r ((S.perm _).mem_iff.1 hr)), he]
    · rw [tryHandlers_same ih hd hv node hr (fun r hr => hc.renderers r ((S.perm _).mem_iff.1 hr)), he]
      congr 1; funext a
      split
      · rfl
      · rw [runProg_same ih hd hv (fallback_passes key ctx node)]

end Verif.Engine
