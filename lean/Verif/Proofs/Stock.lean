import Verif.Proofs.StockNames
import Verif.Proofs.Engine
/-!
# The engine with the stock plugins renders like `Verif.Model.Render`
-/

namespace Verif.Stock
open Verif Verif.Engine Verif.TextUtils Verif.Escape Verif.Commonmark Verif.DomUtils

/-! ## Depth -/

mutual
/-- How deep the nodes below a node are; a comment counts because the fallback renders its children. -/
def depth : Node → Nat
  | .elem _ _ cs => depthL cs + 1
  | .document cs => depthL cs + 1
  | .text _ => 0
  | .comment _ => 1
  | .doctype _ => 1
def depthL : List Node → Nat
  | [] => 0
  | n :: ns => max (depth n) (depthL ns)
end

theorem depth_mem : ∀ {cs : List Node} {n : Node}, n ∈ cs → depth n ≤ depthL cs
  | [], _, h => by simp at h
  | c :: cs, n, h => by
    rw [depthL]
    rcases List.mem_cons.1 h with rfl | h
    · omega
    · have := depth_mem h; omega

theorem depthL_le {cs : List Node} {k : Nat} (h : ∀ n ∈ cs, depth n ≤ k) : depthL cs ≤ k := by
  induction cs with
  | nil => simp [depthL]
  | cons c cs ih =>
    rw [depthL]
    have := h c (by simp)
    have := ih fun n hn => h n (by simp [hn])
    omega

/-! ## What a converter with the stock plugins consists of -/

/-- The configuration of a conversion with the stock plugins. -/
structure Setup where
  lib : Lib
  cfg : Config.Config
  mode : Mode
  strike : Option Bytes
  table : Option Table.Config
  domain : Bytes

def Setup.env (U : Setup) : Render.Env where
  cfg := U.cfg
  mode := U.mode
  assemble := U.lib.assemble U.domain
  tables := U.lib.tables
  isDigit := U.lib.isDigit
  strike := U.strike
  table := U.table

/-- The handlers in the order of their priorities, as far as nodes with good names are concerned. -/
structure IsStock (S : GoSort) (U : Setup) (good : Bytes → Prop) (c : Conv Bool) : Prop where
  marks : Marks good
  renderers : ∀ T rn ctx l st, good l.name → tryHandlers S T rn ctx l (S.sort c.renderers) st = tryHandlers S T rn ctx l (⟨commonmarkRender U.lib U.cfg, 500⟩ ::
    (U.strike.toList.map (fun d => ⟨strikeRender d, 500⟩) ++ U.table.toList.map fun t => ⟨tableRender t, 500⟩)) st
  text : S.sort c.text = [⟨baseText, 500⟩, ⟨commonmarkText, 1000⟩]
  tagTypes : ∀ n, good n → c.tagTypes n = if Render.isRemoved n then [⟨.remove, 500⟩] else []
  escape : c.escaping.escape = escapeContent U.mode isCommonmarkChar
  unEscape : c.escaping.unEscape S = unEscapeContent U.mode (Render.handlers U.env)

/-- The tag type of a name. -/
def tagOf (T : NameTables) (name : Bytes) : Option TagType :=
  if Render.isRemoved name then some .remove else if T.isBlock name then some .block else if T.isInline name then some .inline else none

theorem getTagType_stock {S : GoSort} {T : NameTables} {m : TagTypes} {name : Bytes}
    (hm : m name = if Render.isRemoved name then [⟨.remove, 500⟩] else []) : getTagType S T m name = (tagOf T name, m) := by
  have hs : S.sort (m name) = m name := by
    apply S.sorted
    rw [hm]
    split <;> simp [Ascending]
  unfold getTagType
  rw [hs, tagOf]
  by_cases h : Render.isRemoved name = true
  · have : m name = [⟨.remove, 500⟩] := by rw [hm, if_pos h]
    rw [this]
    simp only [if_pos h, Prod.mk.injEq, true_and]
    funext n
    split
    · rename_i e; rw [e, this]
    · rfl
  · have : m name = [] := by rw [hm, if_neg h]
    rw [this, if_neg h]

/-- Rendering these nodes writes this. -/
def Gives (m : TagTypes) (rn : Ctx Bool → List Loc → St Bool → Option (St Bool)) (ctx : Ctx Bool) (ls : List Loc) (x : Bytes) : Prop :=
  ∀ st : St Bool, st.tagTypes = m → rn ctx ls st = some { st with out := st.out ++ x }

def linkOf (ctx : Ctx Bool) : Bool := ctx.values insideLink = some true

def stuckOf (ps : List Node) : Bool := ps.any fun p => Render.isProblematicParent p.name

theorem stuckOf_cons (p ps) : stuckOf (p :: ps) = (stuckOf ps || Render.isProblematicParent p.name) := by
  rw [stuckOf, List.any_cons, Bool.or_comm]; rfl

/-- The nodes up to a depth are rendered right. -/
def Right (U : Setup) (good : Bytes → Prop) (m : TagTypes) (rn : Ctx Bool → List Loc → St Bool → Option (St Bool)) (fuel : Nat) : Prop :=
  ∀ ctx : Ctx Bool, ctx.domain = U.domain → ∀ ps cs x, depthL cs < fuel → NamesL good cs →
    Render.renderL U.env (linkOf ctx) (stuckOf ps) cs = some x → Gives m rn ctx (cs.map (Loc.mk ps)) x

mutual
theorem below_path : ∀ (p : Render.Path) (n : Node), ∀ y ∈ Render.below p n, y.1 ≠ []
  | p, .document cs, y, h => by rw [Render.below] at h; exact belowL_path p 0 cs y h
  | p, .elem _ _ cs, y, h => by rw [Render.below] at h; exact belowL_path p 0 cs y h
  | p, .text _, y, h => by simp [Render.below] at h
  | p, .comment _, y, h => by simp [Render.below] at h
  | p, .doctype _, y, h => by simp [Render.below] at h
theorem belowL_path : ∀ (p : Render.Path) (i : Nat) (ns : List Node), ∀ y ∈ Render.belowL p i ns, y.1 ≠ []
  | p, i, [], y, h => by simp [Render.belowL] at h
  | p, i, n :: ns, y, h => by
    rw [Render.belowL] at h
    rcases List.mem_append.1 h with h | h
    · rcases List.mem_cons.1 h with h | h
      · subst h; simp
      · exact below_path _ n y h
    · exact belowL_path p (i + 1) ns y h
end

/-- A table is written, or left to the next handler. -/
def outcome (st : St Bool) : Option Bytes → Status × St Bool
  | some out => (.success, { st with out := st.out ++ out })
  | none => (.tryNext, st)

/-- What a handler finds outside of the state. -/
abbrev world (U : Setup) (c : Conv Bool) : World := ⟨U.lib.tables, c.escaping⟩

section
variable {S : GoSort} {U : Setup} {good : Bytes → Prop} {c : Conv Bool} (hc : IsStock S U good c) {rn : Ctx Bool → List Loc → St Bool → Option (St Bool)} {fuel : Nat}
  (hrn : Right U good c.tagTypes rn fuel) {ctx : Ctx Bool} (hd : ctx.domain = U.domain)
include hc

omit hc in
theorem run_renderTo {ls : List Loc} {x : Bytes} (h : Gives c.tagTypes rn ctx ls x) {α} (next : Bytes → Prog Bool α) (st : St Bool) (hst : st.tagTypes = c.tagTypes) :
    runProg S (world U c) rn (.renderTo ctx ls next) st = runProg S (world U c) rn (next x) st := by
  rw [runProg, h _ (by exact hst)]
  simp

omit hc in
theorem run_render {ls : List Loc} {x : Bytes} (h : Gives c.tagTypes rn ctx ls x) {α} (next : Prog Bool α) (st : St Bool) (hst : st.tagTypes = c.tagTypes) :
    runProg S (world U c) rn (.render ctx ls next) st = runProg S (world U c) rn next { st with out := st.out ++ x } := by
  rw [runProg, h _ hst]
  simp

omit hc in
theorem run_success (b : Bytes) (st : St Bool) : runProg S (world U c) rn (success b) st = some (.success, { st with out := st.out ++ b }) := rfl

/-- The handler of the CommonMark plugin takes the node. -/
theorem cm_done {l : Loc} (hg : good l.name) (hl : ∀ d, l.node ≠ .text d) {st st' : St Bool}
    (h : runProg S (world U c) rn (commonmarkRender U.lib U.cfg ctx l) st = some (.success, st')) :
    Engine.renderNode S U.lib.tables c rn ctx l st = some st' := by
  unfold Engine.renderNode
  split
  · rename_i e; exact absurd e (hl _)
  · rw [hc.renderers _ _ _ _ _ hg, tryHandlers, h]
    rfl

theorem run_fallback {l : Loc} (hg : good l.name) {x : Bytes} (h : Gives c.tagTypes rn ctx l.children x) (st : St Bool) (hst : st.tagTypes = c.tagTypes) :
    runProg S (world U c) rn (Engine.fallback ctx l) st = some (.success, { st with out := st.out ++ Render.fallback U.env l.name x }) := by
  have hm : st.tagTypes l.name = if Render.isRemoved l.name then [⟨.remove, 500⟩] else [] := by rw [hst]; exact hc.tagTypes _ hg
  rw [Engine.fallback, runProg, getTagType_stock hm]
  rw [Render.fallback, Render.isBlock, tagOf]
  simp only
  cases hr : Render.isRemoved l.name with
  | true =>
    simp only [if_true, reduceCtorEq, Option.some.injEq, if_false, Bool.not_true, Bool.false_and]
    rw [run_render h _ _ hst]
    rfl
  | false =>
    simp only [Bool.not_false, Bool.true_and, Bool.false_eq_true, if_false]
    cases hb : U.lib.tables.isBlock l.name with
    | true =>
      rw [if_pos (by simp), if_pos (by simpa [Setup.env] using hb)]
      rw [runProg, runProg, run_render h _ _ (by exact hst)]
      simp [runProg]
    | false =>
      rw [if_neg (by simp), if_neg (by simpa [Setup.env] using hb)]
      rw [run_render h _ _ hst]
      rfl

/-- A name that only the handler of the CommonMark plugin looks at. -/
def Ours (n : Bytes) : Prop := Render.isStrike n = false ∧ n ≠ b!"table" ∧ n ≠ b!"tr"

omit hc in
theorem later_next {l : Loc} (hn : Ours l.name) (st : St Bool) :
    tryHandlers S (world U c) rn ctx l (U.strike.toList.map (fun d => ⟨strikeRender d, 500⟩) ++ U.table.toList.map fun t => ⟨tableRender t, 500⟩) st =
      some (false, st) := by
  have hs : ∀ d st, runProg S (world U c) rn (strikeRender d ctx l) st = some (.tryNext, st) := by
    intro d st; rw [strikeRender, if_neg (by simp [hn.1])]; rfl
  have ht : ∀ d st, runProg S (world U c) rn (tableRender d ctx l) st = some (.tryNext, st) := by
    intro d st; rw [tableRender, if_neg hn.2.1, if_neg hn.2.2]; rfl
  cases U.strike with
  | none =>
    cases U.table with
    | none => rfl
    | some t => simp [tryHandlers, ht]
  | some d =>
    cases U.table with
    | none => simp [tryHandlers, hs]
    | some t => simp [tryHandlers, hs, ht]

/-- The handler of the CommonMark plugin does not take the node, nor does another. -/
theorem cm_next {l : Loc} (hg : good l.name) (hl : ∀ d, l.node ≠ .text d) (hn : Ours l.name) {st : St Bool} (hst : st.tagTypes = c.tagTypes)
    (h : runProg S (world U c) rn (commonmarkRender U.lib U.cfg ctx l) st = some (.tryNext, st)) {x : Bytes} (hx : Gives c.tagTypes rn ctx l.children x) :
    Engine.renderNode S U.lib.tables c rn ctx l st = some { st with out := st.out ++ Render.fallback U.env l.name x } := by
  unfold Engine.renderNode
  split
  · rename_i e; exact absurd e (hl _)
  · rw [hc.renderers _ _ _ _ _ hg, tryHandlers, h]
    simp only [Option.bind_some, reduceCtorEq, if_false]
    rw [later_next hn]
    simp only [Option.bind_some, Bool.false_eq_true, if_false]
    rw [run_fallback hc hg hx st hst]
    rfl

/-- The handlers after the one of the CommonMark plugin. -/
def later (U : Setup) : List (Prio (Engine.Render Bool)) :=
  U.strike.toList.map (fun d => ⟨strikeRender d, 500⟩) ++ U.table.toList.map fun t => ⟨tableRender t, 500⟩

theorem cm_then {l : Loc} (hg : good l.name) (hl : ∀ d, l.node ≠ .text d) {st : St Bool}
    (h : runProg S (world U c) rn (commonmarkRender U.lib U.cfg ctx l) st = some (.tryNext, st)) :
    Engine.renderNode S U.lib.tables c rn ctx l st = (tryHandlers S (world U c) rn ctx l (later U) st).bind fun r =>
      if r.1 then some r.2 else (runProg S (world U c) rn (Engine.fallback ctx l) r.2).map (·.2) := by
  unfold Engine.renderNode
  split
  · rename_i e; exact absurd e (hl _)
  · rw [hc.renderers _ _ _ _ _ hg, tryHandlers, h]
    rfl

omit hc in
theorem later_strike {l : Loc} (hn : Render.isStrike l.name = true) {d : Bytes} (hs : U.strike = some d) {y : Bytes}
    (hy : Gives c.tagTypes rn ctx l.children y) (st : St Bool) (hst : st.tagTypes = c.tagTypes) :
    tryHandlers S (world U c) rn ctx l (later U) st = some (true, { st with out := st.out ++ delimited d y }) := by
  have : runProg S (world U c) rn (strikeRender d ctx l) st = some (.success, { st with out := st.out ++ delimited d y }) := by
    rw [strikeRender, if_pos hn, run_renderTo hy _ _ hst]; rfl
  rw [later, hs, Option.toList_some, List.map_cons, List.cons_append, tryHandlers, this]
  rfl

omit hc in
theorem later_table {l : Loc} (hn : Render.isStrike l.name = false ∨ U.strike = none) (st : St Bool) :
    tryHandlers S (world U c) rn ctx l (later U) st = tryHandlers S (world U c) rn ctx l (U.table.toList.map fun t => ⟨tableRender t, 500⟩) st := by
  rw [later]
  cases hs : U.strike with
  | none => rfl
  | some d =>
    have hn : Render.isStrike l.name = false := by rcases hn with h | h; exact h; rw [hs] at h; simp at h
    have : runProg S (world U c) rn (strikeRender d ctx l) st = some (.tryNext, st) := by rw [strikeRender, if_neg (by simp [hn])]; rfl
    rw [Option.toList_some, List.map_cons, List.cons_append, tryHandlers, this]
    rfl

/-- No handler takes the node. -/
theorem all_next {l : Loc} (hg : good l.name) (hl : ∀ d, l.node ≠ .text d) {st : St Bool} (hst : st.tagTypes = c.tagTypes)
    (h : runProg S (world U c) rn (commonmarkRender U.lib U.cfg ctx l) st = some (.tryNext, st))
    (hla : tryHandlers S (world U c) rn ctx l (later U) st = some (false, st)) {x : Bytes} (hx : Gives c.tagTypes rn ctx l.children x) :
    Engine.renderNode S U.lib.tables c rn ctx l st = some { st with out := st.out ++ Render.fallback U.env l.name x } := by
  rw [cm_then hc hg hl h, hla]
  simp only [Option.bind_some, Bool.false_eq_true, if_false]
  rw [run_fallback hc hg hx st hst]
  rfl

/-! ### Text -/

theorem text_right (ps : List Node) (d : Bytes) (st : St Bool) :
    Engine.renderNode S U.lib.tables c rn ctx ⟨ps, .text d⟩ st =
      some { st with out := st.out ++ linkTextTransform (linkOf ctx) (baseTextTransform U.mode isCommonmarkChar d) } := by
  unfold Engine.renderNode
  rw [hc.text]
  simp only [transformText, baseText, commonmarkText, runProg, hc.escape, Option.bind_some, Option.map_some]
  rfl

/-! ### Elements -/

include hrn hd

omit hc in
theorem child_gives {ps : List Node} {n : Bytes} {a : List (Bytes × Bytes)} {cs : List Node} (hdep : depthL cs < fuel) (hg : NamesL good cs) {x : Bytes}
    (h : Render.renderL U.env (linkOf ctx) (stuckOf ps || Render.isProblematicParent n) cs = some x) :
    Gives c.tagTypes rn ctx (Loc.children ⟨ps, .elem n a cs⟩) x := by
  have := hrn ctx hd (.elem n a cs :: ps) cs x hdep hg (by rw [stuckOf_cons]; exact h)
  exact this

omit hc in
theorem run_each {ps : List Node} : ∀ {cs : List Node} {xs : List Bytes}, depthL cs < fuel → NamesL good cs →
    Render.renderEach U.env (linkOf ctx) (stuckOf ps) cs = some xs → ∀ (k : List Bytes → Prog Bool Status) (st : St Bool), st.tagTypes = c.tagTypes →
    runProg S (world U c) rn (renderEachTo ctx (cs.map (Loc.mk ps)) k) st = runProg S (world U c) rn (k xs) st
  | [], xs, _, _, h, k, st, hst => by
    simp only [Render.renderEach, Option.some.injEq] at h
    subst h; rfl
  | n :: cs, xs, hdep, hgs, h, k, st, hst => by
    rw [Render.renderEach, Option.bind_eq_some_iff] at h
    obtain ⟨x, hx, h⟩ := h
    rw [Option.map_eq_some_iff] at h
    obtain ⟨ys, hys, rfl⟩ := h
    rw [depthL] at hdep
    have hg : Gives c.tagTypes rn ctx [Loc.mk ps n] x :=
      hrn ctx hd ps [n] x (by rw [depthL, depthL]; omega) ⟨hgs.1, trivial⟩ (by rw [Render.renderL, hx]; simp [Render.renderL])
    rw [List.map_cons, renderEachTo, run_renderTo hg _ _ hst]
    exact run_each (by omega) hgs.2 hys _ st hst

omit hc in
theorem nothing_gives (hf : 0 < fuel) : Gives c.tagTypes rn ctx [] [] :=
  hrn ctx hd [] [] [] (by simpa [depthL] using hf) trivial rfl

omit hc in
theorem at_gives : ∀ (p : Render.Path) (i : Nat) (ps cs : List Node) (x : Bytes), depthL cs < fuel → NamesL good cs →
    Render.renderAt U.env (linkOf ctx) (stuckOf ps) (i :: p) cs = some x →
    Gives c.tagTypes rn ctx ((cs.map (Loc.mk ps))[i]?.bind (nodeAt p)).toList x := by
  intro p
  induction p with
  | nil =>
    intro i ps cs
    induction cs generalizing i with
    | nil =>
      intro x hdep hgs h
      simp only [Render.renderAt, Option.some.injEq] at h
      subst h
      exact nothing_gives hrn hd (by omega)
    | cons n ns ih =>
      intro x hdep hgs h
      cases i with
      | succ i => exact ih i x (by simp only [depthL] at hdep; omega) hgs.2 (by rw [Render.renderAt] at h; exact h)
      | zero =>
        rw [Render.renderAt] at h
        exact hrn ctx hd ps [n] x (by simp only [depthL] at hdep ⊢; omega) ⟨hgs.1, trivial⟩ (by rw [Render.renderL, h]; simp [Render.renderL])
  | cons j p ihp =>
    intro i ps cs
    induction cs generalizing i with
    | nil =>
      intro x hdep hgs h
      simp only [Render.renderAt, Option.some.injEq] at h
      subst h
      exact nothing_gives hrn hd (by omega)
    | cons n ns ih =>
      intro x hdep hgs h
      cases i with
      | succ i => exact ih i x (by simp only [depthL] at hdep; omega) hgs.2 (by rw [Render.renderAt] at h; exact h)
      | zero =>
        rw [Render.renderAt] at h
        have hleaf : Loc.children ⟨ps, n⟩ = [] → x = [] → Gives c.tagTypes rn ctx (((n :: ns).map (Loc.mk ps))[0]?.bind (nodeAt (j :: p))).toList x := by
          intro e ex
          subst ex
          have : (((n :: ns).map (Loc.mk ps))[0]?.bind (nodeAt (j :: p))) = none := by simp [nodeAt, e]
          rw [this]
          exact nothing_gives hrn hd (by omega)
        cases n with
        | elem nm a cs =>
          rw [Render.renderBelow] at h
          exact ihp j (.elem nm a cs :: ps) cs x (by simp only [depthL, depth] at hdep; omega) hgs.1.2 (by rw [stuckOf_cons]; exact h)
        | document cs =>
          rw [Render.renderBelow] at h
          refine ihp j (.document cs :: ps) cs x (by simp only [depthL, depth] at hdep; omega) hgs.1 ?_
          rw [stuckOf_cons, show Render.isProblematicParent (Node.document cs).name = false from show Render.isProblematicParent b!"#document" = false by decide +kernel, Bool.or_false]
          exact h
        | text d => exact hleaf rfl (by simpa [Render.renderBelow] using h.symm)
        | comment d => exact hleaf rfl (by simpa [Render.renderBelow] using h.symm)
        | doctype d => exact hleaf rfl (by simpa [Render.renderBelow] using h.symm)


section
variable {ps : List Node} {n : Bytes} {a : List (Bytes × Bytes)} {cs : List Node} (hdep : depthL cs < fuel) (hgs : NamesL good cs)

omit hc in
include hdep hgs in
theorem path_gives {q : Render.Path} (hq : q ≠ []) {x : Bytes}
    (h : Render.renderAt U.env (linkOf ctx) (stuckOf ps || Render.isProblematicParent n) q cs = some x) :
    Gives c.tagTypes rn ctx (nodeAt q ⟨ps, .elem n a cs⟩).toList x := by
  cases q with
  | nil => exact absurd rfl hq
  | cons i q => exact at_gives hrn hd q i (.elem n a cs :: ps) cs x hdep hgs (by rw [stuckOf_cons]; exact h)

omit hc in
include hdep hgs in
theorem run_cells : ∀ {cells : List (Render.Path × Node)} {xs : List Table.RawCell}, (∀ y ∈ cells, y.1 ≠ []) →
    Render.rawCells (fun p => Render.renderAt U.env (linkOf ctx) (stuckOf ps || Render.isProblematicParent n) p cs) cells = some xs →
    ∀ (k : List Table.RawCell → Prog Bool Status) (st : St Bool), st.tagTypes = c.tagTypes →
    runProg S (world U c) rn (renderCells ctx ⟨ps, .elem n a cs⟩ cells k) st = runProg S (world U c) rn (k xs) st
  | [], xs, _, h, k, st, hst => by
    simp only [Render.rawCells, List.mapM_nil, Option.pure_def, Option.some.injEq] at h
    subst h; rfl
  | y :: cells, xs, hne, h, k, st, hst => by
    rw [Render.rawCells, List.mapM_cons] at h
    simp only [Option.bind_eq_bind, Option.pure_def, Option.bind_eq_some_iff, Option.map_eq_some_iff, Option.some.injEq] at h
    obtain ⟨_, ⟨x, hx, rfl⟩, ys, hys, rfl⟩ := h
    rw [renderCells, run_renderTo (path_gives hrn hd hdep hgs (hne y (by simp)) hx) _ _ hst]
    exact run_cells (fun z hz => hne z (by simp [hz])) hys _ st hst

omit hc in
include hdep hgs in
theorem run_rows : ∀ {rows : List (Render.Path × Node)} {xs : List (List Table.RawCell)},
    (rows.mapM fun r => Render.rawCells (fun p => Render.renderAt U.env (linkOf ctx) (stuckOf ps || Render.isProblematicParent n) p cs)
      (Render.cellsOf r)) = some xs →
    ∀ (k : List (List Table.RawCell) → Prog Bool Status) (st : St Bool), st.tagTypes = c.tagTypes →
    runProg S (world U c) rn (renderRows ctx ⟨ps, .elem n a cs⟩ rows k) st = runProg S (world U c) rn (k xs) st
  | [], xs, h, k, st, hst => by
    simp only [List.mapM_nil, Option.pure_def, Option.some.injEq] at h
    subst h; rfl
  | r :: rows, xs, h, k, st, hst => by
    rw [List.mapM_cons] at h
    simp only [Option.bind_eq_bind, Option.pure_def, Option.bind_eq_some_iff, Option.some.injEq] at h
    obtain ⟨x, hx, ys, hys, rfl⟩ := h
    have hne : ∀ y ∈ Render.cellsOf r, y.1 ≠ [] := fun y hy => below_path _ _ y (List.mem_filter.1 hy).1
    rw [renderRows, run_cells hrn hd hdep hgs hne hx _ st hst]
    exact run_rows hys _ st hst

include hdep hgs in
theorem run_table {cfg : Table.Config} {o : Option Bytes}
    (h : Render.renderTable cfg (unEscapeContent U.mode (Render.handlers U.env)) (stuckOf ps) (.elem n a cs)
      (fun p => Render.renderAt U.env (linkOf ctx) (stuckOf ps || Render.isProblematicParent n) p cs) = some o) (st : St Bool) (hst : st.tagTypes = c.tagTypes) :
    runProg S (world U c) rn (renderTable cfg ctx ⟨ps, .elem n a cs⟩) st = some (outcome st o) := by
  rw [Render.renderTable] at h
  have estuck : hasProblematicParent ⟨ps, .elem n a cs⟩ = stuckOf ps := rfl
  rw [renderTable]
  simp only [estuck]
  by_cases hcan : Render.cannotBeTable cfg (stuckOf ps) (.elem n a cs) = true
  · rw [if_pos hcan, Option.some.injEq] at h
    subst h
    rw [if_pos hcan]
    rfl
  rw [if_neg hcan] at h
  rw [if_neg hcan]
  simp only [Option.bind_eq_some_iff, Option.map_eq_some_iff] at h ⊢
  obtain ⟨hcells, hh, rcells, hr, cap, hcap, rfl⟩ := h
  obtain ⟨hs, hhs, ehs⟩ : ∃ hs, ((Render.selectHeader (.elem n a cs)).toList.mapM fun r => Render.rawCells (fun p => Render.renderAt U.env (linkOf ctx)
      (stuckOf ps || Render.isProblematicParent n) p cs) (Render.cellsOf r)) = some hs ∧ hs.head? = hcells := by
    cases e : Render.selectHeader (.elem n a cs) with
    | none =>
      rw [e] at hh
      simp only [Option.mapM_none, Option.pure_def, Option.some.injEq] at hh
      exact ⟨[], rfl, by simpa using hh⟩
    | some r =>
      rw [e] at hh
      simp only [Option.mapM_some, Option.map_eq_map, Option.map_eq_some_iff] at hh
      obtain ⟨x, hx, rfl⟩ := hh
      exact ⟨[x], by simp [hx], rfl⟩
  rw [run_rows hrn hd hdep hgs hhs _ st hst, run_rows hrn hd hdep hgs hr _ st hst, runProg]
  rw [hc.unEscape, ehs]
  unfold Table.table
  cases Table.tableRows cfg (unEscapeContent U.mode (Render.handlers U.env)) hcells rcells with
  | none => rfl
  | some rows =>
    simp only [Option.map_some]
    cases e : Render.findFirst b!"caption" ([], .elem n a cs) with
    | none =>
      rw [e] at hcap
      simp only [Option.mapM_none, Option.pure_def, Option.some.injEq] at hcap
      subst hcap
      exact run_success _ _
    | some r =>
      rw [e] at hcap
      simp only [Option.mapM_some, Option.map_eq_map, Option.map_eq_some_iff] at hcap
      obtain ⟨x, hx, rfl⟩ := hcap
      have hne : r.1 ≠ [] := below_path _ _ r (List.mem_of_find?_eq_some e)
      simp only
      rw [run_renderTo (path_gives hrn hd hdep hgs hne hx) _ _ hst]
      exact run_success _ _
end

theorem elem_right {ps : List Node} {n : Bytes} {a : List (Bytes × Bytes)} {cs : List Node} (hdep : depthL cs < fuel) (hg : good n) (hgs : NamesL good cs) {x : Bytes}
    (h : Render.renderNode U.env (linkOf ctx) (stuckOf ps) (.elem n a cs) = some x) (st : St Bool) (hst : st.tagTypes = c.tagTypes) :
    Engine.renderNode S U.lib.tables c rn ctx ⟨ps, .elem n a cs⟩ st = some { st with out := st.out ++ x } := by
  have hl : ∀ d, (Loc.mk ps (.elem n a cs)).node ≠ .text d := by simp
  replace hg : good (Loc.mk ps (.elem n a cs)).name := hg
  have hkid : ∀ {x}, Render.renderL U.env (linkOf ctx) (stuckOf ps || Render.isProblematicParent n) cs = some x →
    Gives c.tagTypes rn ctx (Loc.children ⟨ps, .elem n a cs⟩) x := fun h => child_gives hrn hd hdep hgs h
  rw [Render.renderNode] at h
  have hcm : commonmarkRender U.lib U.cfg ctx ⟨ps, .elem n a cs⟩ =
      (let l : Loc := ⟨ps, .elem n a cs⟩
       if isBoldOrItalic n then renderBoldItalic U.cfg ctx l
       else if n = b!"hr" then success (divider U.cfg.horizontalRule)
       else if n = b!"br" then success hardBreak
       else if n = b!"ul" ∨ n = b!"ol" then renderListContainer U.cfg ctx l
       else if n = b!"pre" then renderBlockCode U.cfg ctx l
       else if DomUtils.isInlineCode n then renderInlineCode ctx l
       else if n = b!"blockquote" then renderBlockquote ctx l
       else if isHeading n then renderHeading U.cfg ctx l
       else if n = b!"img" then renderImage U.lib ctx l
       else if n = b!"a" then renderLink U.lib U.cfg ctx l
       else if n = b!"#comment" then renderComment ctx l
       else tryNext) := rfl
  simp only at hcm
  by_cases h1 : isBoldOrItalic n = true
  · rw [if_pos h1] at h hcm
    rw [Option.map_eq_some_iff] at h
    obtain ⟨y, hy, rfl⟩ := h
    refine cm_done hc hg hl ?_
    rw [hcm, renderBoldItalic, run_renderTo (hkid hy) _ _ hst]
    rfl
  rw [if_neg h1] at h hcm
  by_cases h2 : n = b!"hr"
  · rw [if_pos h2] at h hcm
    simp only [Option.some.injEq] at h
    subst h
    exact cm_done hc hg hl (by rw [hcm]; rfl)
  rw [if_neg h2] at h hcm
  by_cases h3 : n = b!"br"
  · rw [if_pos h3] at h hcm
    simp only [Option.some.injEq] at h
    subst h
    exact cm_done hc hg hl (by rw [hcm]; rfl)
  rw [if_neg h3] at h hcm
  by_cases h4 : n = b!"ul" ∨ n = b!"ol"
  · rw [if_pos h4] at h hcm
    rw [Option.map_eq_some_iff] at h
    obtain ⟨ys, hys, rfl⟩ := h
    refine cm_done hc hg hl ?_
    rw [hcm, renderListContainer]
    refine (run_each hrn hd (ps := .elem n a cs :: ps) hdep hgs (by rw [stuckOf_cons]; exact hys) _ st hst).trans ?_
    rw [runProg, hc.unEscape]
    rfl
  rw [if_neg h4] at h hcm
  by_cases h5 : n = b!"pre"
  · rw [if_pos h5] at h hcm
    simp only [Option.some.injEq] at h
    subst h
    exact cm_done hc hg hl (by rw [hcm]; rfl)
  rw [if_neg h5] at h hcm
  by_cases h6 : DomUtils.isInlineCode n = true
  · rw [if_pos h6] at h hcm
    simp only [Option.some.injEq] at h
    subst h
    exact cm_done hc hg hl (by rw [hcm]; rfl)
  rw [if_neg h6] at h hcm
  by_cases h7 : n = b!"blockquote"
  · rw [if_pos h7] at h hcm
    rw [Option.map_eq_some_iff] at h
    obtain ⟨y, hy, rfl⟩ := h
    refine cm_done hc hg hl ?_
    rw [hcm, renderBlockquote, run_renderTo (hkid hy) _ _ hst]
    rfl
  rw [if_neg h7] at h hcm
  by_cases h8 : isHeading n = true
  · rw [if_pos h8] at h hcm
    rw [Option.bind_eq_some_iff] at h
    obtain ⟨y, hy, h⟩ := h
    refine cm_done hc hg hl ?_
    rw [hcm, renderHeading, run_renderTo (hkid hy) _ _ hst]
    rw [show heading (U.cfg.headingStyle = b!"setext") (headingLevel (Loc.name ⟨ps, .elem n a cs⟩)) y = some x from h]
    rfl
  rw [if_neg h8] at h hcm
  by_cases h9 : n = b!"img"
  · rw [if_pos h9] at h hcm
    rw [Option.map_eq_some_iff] at h
    obtain ⟨y, hy, rfl⟩ := h
    rw [Render.renderImage]
    have hrun : commonmarkRender U.lib U.cfg ctx ⟨ps, .elem n a cs⟩ = orTryNext (image U.env.assemble (Node.attrOr b!"src" [] (.elem n a cs))
        (Node.attrOr b!"title" [] (.elem n a cs)) (Node.attrOr b!"alt" [] (.elem n a cs))) := by
      rw [hcm, renderImage, hd]; rfl
    cases hi : image U.env.assemble (Node.attrOr b!"src" [] (.elem n a cs)) (Node.attrOr b!"title" [] (.elem n a cs))
        (Node.attrOr b!"alt" [] (.elem n a cs)) with
    | some out => exact cm_done hc hg hl (by rw [hrun, hi]; rfl)
    | none =>
      have := cm_next hc hg hl (by rw [show Loc.name ⟨ps, .elem n a cs⟩ = n from rfl, h9]; refine ⟨by decide, by decide, by decide⟩) hst
        (by rw [hrun, hi]; rfl) (hkid hy)
      rw [this, show Loc.name ⟨ps, .elem n a cs⟩ = n from rfl, h9]
      rfl
  rw [if_neg h9] at h hcm
  by_cases h10 : n = b!"a"
  · rw [if_pos h10] at h hcm
    rw [Option.bind_eq_some_iff] at h
    obtain ⟨inside, hin, h⟩ := h
    rw [Option.map_eq_some_iff] at h
    obtain ⟨y, hy, rfl⟩ := h
    have hours : Ours (Loc.name ⟨ps, .elem n a cs⟩) := by
      rw [show Loc.name ⟨ps, .elem n a cs⟩ = n from rfl, h10]; refine ⟨by decide, by decide, by decide⟩
    have hnext : runProg S (world U c) rn (commonmarkRender U.lib U.cfg ctx ⟨ps, .elem n a cs⟩) st = some (.tryNext, st) →
        Engine.renderNode S U.lib.tables c rn ctx ⟨ps, .elem n a cs⟩ st = some { st with out := st.out ++ Render.fallback U.env b!"a" y } := by
      intro he
      have := cm_next hc hg hl hours hst he (hkid hy)
      rw [this, show Loc.name ⟨ps, .elem n a cs⟩ = n from rfl, h10]
    have hin' : Gives c.tagTypes rn (ctx.withValue insideLink true) (Loc.children ⟨ps, .elem n a cs⟩) inside := by
      refine child_gives hrn (by exact hd) hdep hgs ?_
      rw [show linkOf (ctx.withValue insideLink true) = true by simp [linkOf, Ctx.withValue]]
      exact hin
    rw [renderLink] at hcm
    simp only [hd] at hcm
    rw [Render.renderLink]
    generalize hh : U.lib.assemble U.domain (trimSpace (Node.attrOr b!"href" [] (.elem n a cs))) = href at hcm
    rw [show U.env.assemble (trimSpace (Node.attrOr b!"href" [] (.elem n a cs))) = href from hh]
    by_cases hskip : href = [] ∧ U.cfg.linkEmptyHrefBehavior = b!"skip"
    · rw [if_pos hskip] at hcm
      rw [hnext (by rw [hcm]; rfl)]
      rw [show (if U.env.cfg.linkStyle = b!"inlined" then link (U.env.cfg.linkEmptyHrefBehavior = b!"skip") (U.env.cfg.linkEmptyContentBehavior = b!"skip")
        href (Node.attrOr b!"title" [] (.elem n a cs)) inside else none) = none by
          split
          · rw [link, if_pos ⟨hskip.1, decide_eq_true hskip.2⟩]
          · rfl]
      rfl
    · rw [if_neg hskip] at hcm
      have hrun : runProg S (world U c) rn (commonmarkRender U.lib U.cfg ctx ⟨ps, .elem n a cs⟩) st =
          runProg S (world U c) rn (orTryNext (if U.env.cfg.linkStyle = b!"inlined" then link (U.env.cfg.linkEmptyHrefBehavior = b!"skip")
            (U.env.cfg.linkEmptyContentBehavior = b!"skip") href (Node.attrOr b!"title" [] (.elem n a cs)) inside else none)) st := by
        rw [hcm, run_renderTo hin' _ _ hst]
        show runProg S (world U c) rn (if U.cfg.linkStyle = b!"inlined" then _ else _) st = runProg S (world U c) rn (orTryNext (if U.cfg.linkStyle = b!"inlined" then _ else _)) st
        split <;> rfl
      generalize (if U.env.cfg.linkStyle = b!"inlined" then link (U.env.cfg.linkEmptyHrefBehavior = b!"skip")
            (U.env.cfg.linkEmptyContentBehavior = b!"skip") href (Node.attrOr b!"title" [] (.elem n a cs)) inside else none) = o at hrun
      cases o with
      | some out => exact cm_done hc hg hl (by rw [hrun]; rfl)
      | none => exact hnext (by rw [hrun]; rfl)
  rw [if_neg h10] at h hcm
  have hcm' : commonmarkRender U.lib U.cfg ctx ⟨ps, .elem n a cs⟩ = tryNext := by
    rw [hcm]
    split
    · rfl
    · rfl
  clear hcm
  have hnext : runProg S (world U c) rn (commonmarkRender U.lib U.cfg ctx ⟨ps, .elem n a cs⟩) st = some (.tryNext, st) := by rw [hcm']; rfl
  by_cases h11 : Render.isStrike n = true
  · rw [if_pos h11] at h
    have hnt : n ≠ b!"table" ∧ n ≠ b!"tr" := by
      constructor <;> (intro e; rw [e] at h11; exact absurd h11 (by decide))
    cases hs : U.strike with
    | some d =>
      rw [show U.env.strike = some d from hs] at h
      simp only [Option.map_eq_some_iff] at h
      obtain ⟨y, hy, rfl⟩ := h
      rw [cm_then hc hg hl hnext, later_strike (l := ⟨ps, .elem n a cs⟩) h11 hs (hkid hy) st hst]
      rfl
    | none =>
      rw [show U.env.strike = none from hs] at h
      simp only [Option.map_eq_some_iff] at h
      obtain ⟨y, hy, rfl⟩ := h
      refine all_next hc hg hl hst hnext ?_ (hkid hy)
      rw [later_table (.inr hs)]
      cases U.table with
      | none => rfl
      | some t =>
        have : runProg S (world U c) rn (tableRender t ctx ⟨ps, .elem n a cs⟩) st = some (.tryNext, st) := by
          rw [tableRender, if_neg (by exact hnt.1), if_neg (by exact hnt.2)]; rfl
        rw [Option.toList_some, List.map_cons, tryHandlers, this]
        rfl
  rw [if_neg h11] at h
  have h11' : Render.isStrike n = false := by simpa using h11
  by_cases h12 : n = b!"table"
  · rw [if_pos h12] at h
    cases ht : U.table with
    | some cfg =>
      rw [show U.env.table = some cfg from ht] at h
      simp only at h
      rw [Option.bind_eq_some_iff] at h
      obtain ⟨o, ho, h⟩ := h
      have hrun := run_table hc hrn hd hdep hgs ho st hst
      cases o with
      | some out =>
        simp only [Option.some.injEq] at h
        subst h
        rw [cm_then hc hg hl hnext, later_table (l := ⟨ps, .elem n a cs⟩) (.inl h11'), ht, Option.toList_some, List.map_cons, tryHandlers]
        simp only [tableRender]
        rw [if_pos (by exact h12), hrun]
        rfl
      | none =>
        simp only [Option.map_eq_some_iff] at h
        obtain ⟨y, hy, rfl⟩ := h
        refine all_next hc hg hl hst hnext ?_ (hkid hy)
        rw [later_table (l := ⟨ps, .elem n a cs⟩) (.inl h11'), ht, Option.toList_some, List.map_cons, tryHandlers]
        simp only [tableRender]
        rw [if_pos (by exact h12), hrun]
        rfl
    | none =>
      rw [show U.env.table = none from ht] at h
      simp only [Option.map_eq_some_iff] at h
      obtain ⟨y, hy, rfl⟩ := h
      refine all_next hc hg hl hst hnext ?_ (hkid hy)
      rw [later_table (l := ⟨ps, .elem n a cs⟩) (.inl h11'), ht]
      rfl
  rw [if_neg h12] at h
  by_cases h13 : n = b!"tr" ∧ U.env.table.isSome = true
  · rw [if_pos h13] at h
    rw [Option.map_eq_some_iff] at h
    obtain ⟨y, hy, rfl⟩ := h
    obtain ⟨t, ht⟩ := Option.isSome_iff_exists.1 h13.2
    rw [cm_then hc hg hl hnext, later_table (l := ⟨ps, .elem n a cs⟩) (.inl h11'), show U.table = some t from ht, Option.toList_some, List.map_cons, tryHandlers]
    simp only [tableRender]
    rw [if_neg (by exact h12), if_pos (by exact h13.1), runProg, run_render (hkid hy) _ _ (by exact hst), run_success]
    simp
  rw [if_neg h13] at h
  rw [Option.map_eq_some_iff] at h
  obtain ⟨y, hy, rfl⟩ := h
  refine all_next hc hg hl hst hnext ?_ (hkid hy)
  rw [later_table (l := ⟨ps, .elem n a cs⟩) (.inl h11')]
  cases ht : U.table with
  | none => rfl
  | some t =>
    have h14 : n ≠ b!"tr" := fun e => h13 ⟨e, by rw [show U.env.table = some t from ht]; rfl⟩
    have : runProg S (world U c) rn (tableRender t ctx ⟨ps, .elem n a cs⟩) st = some (.tryNext, st) := by
      rw [tableRender, if_neg (by exact h12), if_neg (by exact h14)]; rfl
    rw [Option.toList_some, List.map_cons, tryHandlers, this]
    rfl

theorem node_right {ps : List Node} {n : Node} (hdep : depth n ≤ fuel) (hgs : Names good n) {x : Bytes}
    (h : Render.renderNode U.env (linkOf ctx) (stuckOf ps) n = some x) (st : St Bool) (hst : st.tagTypes = c.tagTypes) :
    Engine.renderNode S U.lib.tables c rn ctx ⟨ps, n⟩ st = some { st with out := st.out ++ x } := by
  cases n with
  | text d =>
    rw [Render.renderNode, Option.some.injEq] at h
    subst h
    exact text_right hc ps d st
  | elem n a cs => exact elem_right hc hrn hd (by rw [depth] at hdep; omega) hgs.1 hgs.2 h st hst
  | comment d =>
    rw [Render.renderNode, Option.some.injEq, Render.renderComment] at h
    have hcm : commonmarkRender U.lib U.cfg ctx ⟨ps, .comment d⟩ = renderComment ctx ⟨ps, .comment d⟩ := rfl
    by_cases hd' : d = listEndComment
    · rw [if_pos hd'] at h
      subst h
      refine cm_done hc (l := ⟨ps, .comment d⟩) hc.marks.comment (by simp) ?_
      rw [hcm, renderComment]
      simp only
      rw [if_pos hd']
      rfl
    · rw [if_neg hd'] at h
      subst h
      refine cm_next hc (l := ⟨ps, .comment d⟩) hc.marks.comment (by simp) (show Ours b!"#comment" from ⟨by decide, by decide, by decide⟩) hst ?_ (nothing_gives hrn hd (by rw [depth] at hdep; omega))
      rw [hcm, renderComment]
      simp only
      rw [if_neg hd']
      rfl
  | doctype d =>
    rw [Render.renderNode, Option.some.injEq] at h
    subst h
    exact cm_next hc (l := ⟨ps, .doctype d⟩) hc.marks.doctype (by simp) (show Ours b!"#doctype" from ⟨by decide, by decide, by decide⟩) hst rfl (nothing_gives hrn hd (by rw [depth] at hdep; omega))
  | document cs =>
    rw [Render.renderNode, Option.map_eq_some_iff] at h
    obtain ⟨y, hy, rfl⟩ := h
    refine cm_next hc (l := ⟨ps, .document cs⟩) hc.marks.document (by simp) (show Ours b!"#document" from ⟨by decide, by decide, by decide⟩) hst rfl ?_
    refine hrn ctx hd (.document cs :: ps) cs y (by rw [depth] at hdep; omega) hgs ?_
    rw [stuckOf_cons, show Render.isProblematicParent (Node.document cs).name = false from show Render.isProblematicParent b!"#document" = false by decide +kernel, Bool.or_false]
    exact hy

theorem list_right {ps : List Node} : ∀ {cs : List Node}, depthL cs ≤ fuel → NamesL good cs → ∀ {x : Bytes},
    Render.renderL U.env (linkOf ctx) (stuckOf ps) cs = some x → ∀ (st : St Bool), st.tagTypes = c.tagTypes →
    renderList (Engine.renderNode S U.lib.tables c rn ctx) (cs.map (Loc.mk ps)) st = some { st with out := st.out ++ x }
  | [], _, _, x, h, st, hst => by
    simp only [Render.renderL, Option.some.injEq] at h
    subst h
    simp [renderList]
  | n :: cs, hdep, hgs, x, h, st, hst => by
    rw [depthL] at hdep
    simp only [Render.renderL, Option.bind_eq_some_iff, Option.map_eq_some_iff] at h
    obtain ⟨y, hy, z, hz, rfl⟩ := h
    rw [List.map_cons, renderList, node_right hc hrn hd (by omega) hgs.1 hy st hst, Option.bind_some,
      list_right (by omega) hgs.2 hz _ (by exact hst)]
    simp [List.append_assoc]

end

theorem right {S : GoSort} {U : Setup} {good : Bytes → Prop} {c : Conv Bool} (hc : IsStock S U good c) : ∀ fuel, Right U good c.tagTypes (Engine.renderNodes S U.lib.tables c fuel) fuel
  | 0 => fun _ _ _ _ _ h => absurd h (by omega)
  | fuel + 1 => fun _ hd _ _ _ hdep hgs h st hst => list_right hc (right hc fuel) hd (by omega) hgs h st hst

/-! ## Conversions -/

/-- A converter that runs the handlers of the stock plugins in the right order. -/
structure IsConv (S : GoSort) (U : Setup) (good : Bytes → Prop) (c : Conv Bool) : Prop extends IsStock S U good c where
  err : c.err = none
  base : c.plugins.contains b!"base" = true
  renders : c.renderers ≠ []
  pre : S.sort c.pre = [⟨removeNodes, 100⟩, ⟨commonmarkPre U.lib, 500⟩] ++ (U.strike.toList.map fun _ => ⟨strikePre, 500⟩) ++
    [⟨collapseNodes U.lib, 1000⟩, ⟨listEndComments U.cfg, 1100⟩]
  post : S.sort c.post = [⟨trimContent, 500⟩, ⟨unEscapeResult, 520⟩, ⟨codeNewlines, 1000⟩]

theorem conv_eta {c : Conv Bool} (h : c.err = none) : { c with err := none } = c := by
  cases c
  simp only at h
  subst h
  rfl

section
variable {S : GoSort} {U : Setup} {good : Bytes → Prop} {c : Conv Bool} (hc : IsConv S U good c) {rn : Ctx Bool → List Loc → St Bool → Option (St Bool)} {ctx : Ctx Bool}
include hc

theorem pre_right {doc : Node} (h1 : Names good doc)
    (h2 : Names good (Render.strikePreRender U.env (handlePreRender U.lib.tables (preRenderRemove Render.isRemoved doc)))) (st : St Bool)
    (hst : st.tagTypes = c.tagTypes) :
    runPre S (world U c) rn ctx (S.sort c.pre) doc st = some (Render.preRender U.env doc, st) := by
  have hm : ∀ n, good n → getTagType S U.lib.tables st.tagTypes n = (tagOf U.lib.tables n, st.tagTypes) := fun n hn =>
    getTagType_stock (by rw [hst]; exact hc.tagTypes n hn)
  have hrem : preRenderRemove (fun n => decide ((getTagType S U.lib.tables st.tagTypes n).1 = some .remove)) doc = preRenderRemove Render.isRemoved doc := by
    refine preRenderRemove_congr hc.marks (fun n hn => ?_) h1
    simp only [hm n hn]
    rw [tagOf]
    cases Render.isRemoved n <;> simp
    split <;> simp
  have hblk : ∀ d, Names good d → ∀ b : Bytes → Bool, (∀ n, good n → b n = Render.isBlock U.env n) →
      Collapse.collapse (Collapse.baseFuncs b) d = Collapse.collapse (Collapse.baseFuncs (Render.isBlock U.env)) d := fun d hd b hb =>
    collapse_congr (f := Collapse.baseFuncs b) (g := Collapse.baseFuncs (Render.isBlock U.env)) hb rfl rfl hd
  have hcfg : U.env.cfg = U.cfg := rfl
  rw [Render.strikePreRender] at h2
  rw [hc.pre]
  cases hs : U.strike with
  | none =>
    simp only [show U.env.strike = none from hs, Option.isSome_none, Bool.false_eq_true, if_false] at h2
    simp only [List.cons_append, List.nil_append, Option.toList_none, List.map_nil, runPre, runProg, removeNodes, commonmarkPre, collapseNodes, listEndComments,
      Option.bind_some, hrem]
    simp only [Render.preRender, Render.strikePreRender, show U.env.strike = none from hs, hcfg, Option.isSome_none, Bool.false_eq_true, if_false]
    rw [hblk _ h2]
    · rfl
    · intro n hn
      simp only [hm n hn]
      rw [tagOf, Render.isBlock]
      show _ = (!Render.isRemoved n && U.lib.tables.isBlock n)
      cases Render.isRemoved n <;> cases hb : U.lib.tables.isBlock n <;> cases U.lib.tables.isInline n <;> simp [hb]
  | some d =>
    simp only [show U.env.strike = some d from hs, Option.isSome_some, if_true] at h2
    simp only [List.cons_append, List.nil_append, Option.toList_some, List.map_cons, List.map_nil, runPre, runProg, removeNodes, commonmarkPre, collapseNodes, listEndComments,
      strikePre, Option.bind_some, hrem]
    simp only [Render.preRender, Render.strikePreRender, show U.env.strike = some d from hs, hcfg, Option.isSome_some, if_true]
    rw [hblk _ h2]
    · rfl
    · intro n hn
      simp only [hm n hn]
      rw [tagOf, Render.isBlock]
      show _ = (!Render.isRemoved n && U.lib.tables.isBlock n)
      cases Render.isRemoved n <;> cases hb : U.lib.tables.isBlock n <;> cases U.lib.tables.isInline n <;> simp [hb]

theorem post_right (content : Bytes) (st : St Bool) :
    runPost S (world U c) rn ctx (S.sort c.post) content st = some (postRender U.mode (Render.handlers U.env) content, st) := by
  rw [hc.post]
  simp only [runPost, trimContent, unEscapeResult, codeNewlines, runProg, Option.bind_some, hc.unEscape]
  rfl

theorem convert_right {doc : Node} {md : Bytes} (h1 : Names good doc)
    (h2 : Names good (Render.strikePreRender U.env (handlePreRender U.lib.tables (preRenderRemove Render.isRemoved doc))))
    (h3 : Names good (Render.preRender U.env doc)) (hd : ctx.domain = U.domain) (hctx : ctx.values insideLink ≠ some true)
    (h : Render.convertNode U.env doc = some md) (fuel : Nat) (hf : depth (Render.preRender U.env doc) < fuel) :
    Engine.convertNode S U.lib.tables c fuel ctx doc = some (.ok md, c) := by
  rw [Render.convertNode, Option.map_eq_some_iff] at h
  obtain ⟨x, hx, rfl⟩ := h
  have hlen : ¬(S.sort c.renderers).length = 0 := by
    rw [(S.perm _).length_eq]
    simpa using hc.renders
  have hlink : linkOf ctx = false := by simp [linkOf, hctx]
  have hr := right hc.toIsStock fuel ctx hd [] [Render.preRender U.env doc] x (by simpa [depthL] using hf) ⟨h3, trivial⟩
    (by rw [Render.renderL, hlink, show stuckOf [] = false from rfl, hx]; simp [Render.renderL])
  unfold Engine.convertNode
  rw [hc.err]
  simp only
  rw [if_neg hlen, if_neg (by simp only [hc.base]; simp)]
  have hpre := pre_right hc (rn := Engine.renderNodes S U.lib.tables c fuel) (ctx := ctx) h1 h2 ⟨[], fun _ => none, c.tagTypes⟩ rfl
  rw [show (⟨U.lib.tables, c.escaping⟩ : World) = world U c from rfl, hpre]
  simp only [Option.bind_some]
  have := hr ⟨[], fun _ => none, c.tagTypes⟩ rfl
  simp only [List.map_cons, List.map_nil, List.nil_append] at this
  rw [this]
  simp only [Option.bind_some]
  rw [post_right hc]
  have := conv_eta hc.err
  simp only [Option.bind_some]
  rw [this]
  rfl

end

end Verif.Stock
