import Verif.Proofs.Engine
/-!
# Properties C46-C50, C52: the conversion engine

`S` is any `sort.Slice` as described by `GoSort`, `T` any tables of block and inline names, `V` any type of values,
`fuel` any bound; `none` as a result means that `fuel` is too small.
-/

namespace Verif.Props
open Verif Verif.Engine

variable {V : Type} (S : GoSort) (T : NameTables)

/-! ## C46 -/

/-- A tree function as pre-render handler. -/
def preOf (f : Prio (Node → Node)) : Prio (PreRender V) := ⟨fun _ doc => .ret (f.value doc), f.priority⟩
/-- A bytes function as post-render handler. -/
def postOf (f : Prio (Bytes → Bytes)) : Prio (PostRender V) := ⟨fun _ content => .ret (f.value content), f.priority⟩
/-- A bytes function as text transformer. -/
def textOf (f : Prio (Bytes → Bytes)) : Prio (TextTransform V) := ⟨fun _ content => .ret (f.value content), f.priority⟩

/-- **C46**: up to 12 registered handlers are used in priority order, ties in order of registration. -/
theorem c46_order {α : Type} (registered : List (Prio α)) (h : registered.length ≤ 12) :
    Spec.InPriorityOrder registered (S.sort registered) := sort_order S registered h

/-- **C46**: any number of handlers are all used, each as often as it was registered, in ascending priority. -/
theorem c46_ascending {α : Type} (registered : List (Prio α)) :
    (S.sort registered).Perm registered ∧ (S.sort registered).Pairwise (fun a b => a.priority ≤ b.priority) :=
  ⟨S.perm registered, S.ascending registered⟩

/-- Priority order says exactly in which order the handlers come. -/
theorem c46_order_unique {α : Type} (registered a b : List (Prio α))
    (ha : Spec.InPriorityOrder registered a) (hb : Spec.InPriorityOrder registered b) : a = b :=
  inPriorityOrder_unique ha hb

example : Spec.InPriorityOrder [⟨'a', 500⟩, ⟨'b', 100⟩, ⟨'c', 500⟩, ⟨'d', 100⟩] [⟨'b', 100⟩, ⟨'d', 100⟩, ⟨'a', 500⟩, ⟨'c', 500⟩] := by
  exact sort_order stableSort [⟨'a', 500⟩, ⟨'b', 100⟩, ⟨'c', 500⟩, ⟨'d', 100⟩] (by decide)

theorem runPre_pure (T : World) (rn) (ctx : Ctx V) (doc) (st) : ∀ (order : List (Prio (Node → Node))),
    runPre S T rn ctx (order.map preOf) doc st = some (order.foldl (fun d f => f.value d) doc, st)
  | [] => rfl
  | f :: order => by
    rw [List.map_cons, runPre, preOf, runProg, Option.bind_some, List.foldl_cons]
    exact runPre_pure T rn ctx (f.value doc) st order

theorem runPost_pure (T : World) (rn) (ctx : Ctx V) (content) (st) : ∀ (order : List (Prio (Bytes → Bytes))),
    runPost S T rn ctx (order.map postOf) content st = some (order.foldl (fun d f => f.value d) content, st)
  | [] => rfl
  | f :: order => by
    rw [List.map_cons, runPost, postOf, runProg, Option.bind_some, List.foldl_cons]
    exact runPost_pure T rn ctx (f.value content) st order

theorem transformText_pure (T : World) (rn) (ctx : Ctx V) (content) (st) : ∀ (order : List (Prio (Bytes → Bytes))),
    transformText S T rn ctx (order.map textOf) content st = some (order.foldl (fun d f => f.value d) content, st)
  | [] => rfl
  | f :: order => by
    rw [List.map_cons, transformText, textOf, runProg, Option.bind_some, List.foldl_cons]
    exact transformText_pure T rn ctx (f.value content) st order

/-- **C46**: a conversion passes the document through the pre-render handlers in priority order, renders it, and
passes the result through the post-render handlers in priority order. -/
theorem c46_conversion (c : Conv V) (pre preOrder : List (Prio (Node → Node))) (post postOrder : List (Prio (Bytes → Bytes)))
    (hpre : c.pre = pre.map preOf) (hpost : c.post = post.map postOf)
    (hpn : pre.length ≤ 12) (hqn : post.length ≤ 12)
    (hpo : Spec.InPriorityOrder pre preOrder) (hqo : Spec.InPriorityOrder post postOrder)
    (herr : c.err = none) (hren : c.renderers ≠ []) (hbase : b!"commonmark" ∈ c.plugins → b!"base" ∈ c.plugins)
    (fuel : Nat) (ctx : Ctx V) (doc : Node) :
    (convertNode S T c fuel ctx doc).map (·.1) =
      (renderNodes S T c fuel ctx [{ node := preOrder.foldl (fun d f => f.value d) doc }] ⟨[], fun _ => none, c.tagTypes⟩).map
        fun st => .ok (postOrder.foldl (fun b f => f.value b) st.out) := by
  have h1 : S.sort c.pre = preOrder.map preOf := by
    rw [hpre]; exact sort_map S (fun f : Node → Node => (fun _ doc => .ret (f doc) : PreRender V)) pre hpn preOrder hpo
  have h2 : S.sort c.post = postOrder.map postOf := by
    rw [hpost]; exact sort_map S (fun f : Bytes → Bytes => (fun _ doc => .ret (f doc) : PostRender V)) post hqn postOrder hqo
  have h3 : ¬ (S.sort c.renderers).length = 0 := by
    rw [sort_length]; simpa using hren
  have h4 : ¬ (c.plugins.contains b!"commonmark" && !c.plugins.contains b!"base") = true := by
    simpa using hbase
  simp only [convertNode, herr]
  rw [if_neg h3, if_neg h4, h1, h2, runPre_pure, Option.bind_some]
  cases renderNodes S T c fuel ctx [{ node := preOrder.foldl (fun d f => f.value d) doc }] ⟨[], fun _ => none, c.tagTypes⟩ with
  | none => rfl
  | some st => simp only [Option.bind_some, runPost_pure, Option.map_some]

/-- What one call adds. -/
structure Adds {V : Type} (c : Conv V) (calls : List (Op V)) (c' : Conv V) : Prop where
  pre : c'.pre = c.pre ++ calls.filterMap fun | .preRenderer h p => some ⟨h, p⟩ | _ => none
  renderers : c'.renderers = c.renderers ++ calls.filterMap fun
    | .renderer h p => some ⟨h, p⟩ | .rendererFor n _ h p => some ⟨onlyFor n h, p⟩ | _ => none
  post : c'.post = c.post ++ calls.filterMap fun | .postRenderer h p => some ⟨h, p⟩ | _ => none
  text : c'.text = c.text ++ calls.filterMap fun | .textTransformer h p => some ⟨h, p⟩ | _ => none
  unEscapers : c'.escaping.unEscapers = c.escaping.unEscapers ++ calls.filterMap fun | .unEscaper h p => some ⟨h, p⟩ | _ => none
  chars : c'.escaping.markdownChars = c.escaping.markdownChars ++ calls.flatMap fun | .escapedChar rs => rs | _ => []

theorem Adds.trans {c c' c'' : Conv V} {a b : List (Op V)} (h : Adds c a c') (h' : Adds c' b c'') : Adds c (a ++ b) c'' := by
  obtain ⟨h1, h2, h3, h4, h5, h6⟩ := h
  obtain ⟨g1, g2, g3, g4, g5, g6⟩ := h'
  constructor
  · rw [g1, h1, List.filterMap_append, List.append_assoc]
  · rw [g2, h2, List.filterMap_append, List.append_assoc]
  · rw [g3, h3, List.filterMap_append, List.append_assoc]
  · rw [g4, h4, List.filterMap_append, List.append_assoc]
  · rw [g5, h5, List.filterMap_append, List.append_assoc]
  · rw [g6, h6, List.flatMap_append, List.append_assoc]

theorem Adds.refl (c : Conv V) : Adds c [] c := by constructor <;> simp

mutual
theorem apply_adds (c : Conv V) : ∀ op : Op V, Adds c (Spec.callsOf op) (apply c op)
  | .preRenderer h p => by constructor <;> simp [apply, Spec.callsOf]
  | .renderer h p => by constructor <;> simp [apply, Spec.callsOf]
  | .postRenderer h p => by constructor <;> simp [apply, Spec.callsOf]
  | .textTransformer h p => by constructor <;> simp [apply, Spec.callsOf]
  | .tagType n t p => by constructor <;> simp [apply, Spec.callsOf]
  | .rendererFor n t h p => by constructor <;> simp [apply, Spec.callsOf]
  | .escapedChar rs => by constructor <;> simp [apply, Spec.callsOf]
  | .unEscaper h p => by constructor <;> simp [apply, Spec.callsOf]
  | .escapeMode m => by constructor <;> simp [apply, Spec.callsOf]
  | .plugin name init err => by
    have ih := applyAll_adds { c with plugins := c.plugins ++ [name] } init
    rw [apply, Spec.callsOf]
    split
    · constructor <;> simp
    · obtain ⟨h1, h2, h3, h4, h5, h6⟩ := ih
      cases err with
      | none => exact ⟨h1, h2, h3, h4, h5, h6⟩
      | some e => exact ⟨h1, h2, h3, h4, h5, h6⟩
theorem applyAll_adds (c : Conv V) : ∀ ops : List (Op V), Adds c (Spec.callsOfAll ops) (applyAll c ops)
  | [] => by rw [applyAll, Spec.callsOfAll]; exact .refl c
  | op :: ops => by
    rw [applyAll, Spec.callsOfAll]
    exact (apply_adds c op).trans (applyAll_adds (apply c op) ops)
end

/-- **C46**: a converter has exactly the handlers that were registered for it, in the order of the calls, where a plugin stands for
the calls that it makes itself. -/
theorem c46_registered (ops : List (Op V)) :
    (newConverter [withPlugins ops]).pre = ((Spec.callsOfAll ops).filterMap fun | .preRenderer h p => some ⟨h, p⟩ | _ => none) ∧
    (newConverter [withPlugins ops]).renderers = ((Spec.callsOfAll ops).filterMap fun
      | .renderer h p => some ⟨h, p⟩ | .rendererFor n _ h p => some ⟨onlyFor n h, p⟩ | _ => none) ∧
    (newConverter [withPlugins ops]).post = ((Spec.callsOfAll ops).filterMap fun | .postRenderer h p => some ⟨h, p⟩ | _ => none) ∧
    (newConverter [withPlugins ops]).text = ((Spec.callsOfAll ops).filterMap fun | .textTransformer h p => some ⟨h, p⟩ | _ => none) ∧
    (newConverter [withPlugins ops]).escaping.unEscapers = ((Spec.callsOfAll ops).filterMap fun | .unEscaper h p => some ⟨h, p⟩ | _ => none) ∧
    (newConverter [withPlugins ops]).escaping.markdownChars = ((Spec.callsOfAll ops).flatMap fun | .escapedChar rs => rs | _ => []) := by
  have h := applyAll_adds {} ops
  exact ⟨h.pre, h.renderers, h.post, h.text, h.unEscapers, h.chars⟩

/-- Handlers of a plugin between others: the order is that of the calls. -/
example (a b d : Bytes → Bytes) : ((newConverter [withPlugins [.postRenderer (V := Unit) (fun _ x => .ret (a x)) 1,
      .plugin b!"p" [.postRenderer (fun _ x => .ret (b x)) 2] none, .postRenderer (fun _ x => .ret (d x)) 3]]).post.map (·.priority)) = [1, 2, 3] := rfl

/-! ## C48 -/

/-- **C48**: a text node is rendered as its content passed through the text transformers in priority order. -/
theorem c48_text (c : Conv V) (fs order : List (Prio (Bytes → Bytes))) (htext : c.text = fs.map textOf)
    (hn : fs.length ≤ 12) (ho : Spec.InPriorityOrder fs order) (fuel : Nat) (ctx : Ctx V) (around : List Node) (data : Bytes) (st : St V) :
    renderNodes S T c (fuel + 1) ctx [⟨around, .text data⟩] st =
      some { st with out := st.out ++ order.foldl (fun b f => f.value b) data } := by
  have h1 : S.sort c.text = order.map textOf := by
    rw [htext]; exact sort_map S (fun f : Bytes → Bytes => (fun _ doc => .ret (f doc) : TextTransform V)) fs hn order ho
  rw [renderNodes, renderList, renderNode, h1]
  simp only [transformText_pure]
  rfl

/-! ## C47 -/

/-- Running a handler has this effect. -/
def Runs (c : Conv V) (fuel : Nat) (ctx : Ctx V) (h : Render V) (node : Loc) (st : St V) (status : Status) (st' : St V) : Prop :=
  runProg S ⟨T, c.escaping⟩ (renderNodes S T c fuel) (h ctx node) st = some (status, st')

/-- The handlers all answer "try next", one after the other, with this effect. -/
inductive AllTryNext (c : Conv V) (fuel : Nat) (ctx : Ctx V) (node : Loc) : List (Prio (Render V)) → St V → St V → Prop
  | nil (st) : AllTryNext c fuel ctx node [] st st
  | cons {h hs st st' st''} : Runs S T c fuel ctx h.value node st .tryNext st' →
      AllTryNext c fuel ctx node hs st' st'' → AllTryNext c fuel ctx node (h :: hs) st st''

theorem tryHandlers_all {c : Conv V} {fuel ctx node hs st st'} (h : AllTryNext S T c fuel ctx node hs st st') (rest) :
    tryHandlers S ⟨T, c.escaping⟩ (renderNodes S T c fuel) ctx node (hs ++ rest) st = tryHandlers S ⟨T, c.escaping⟩ (renderNodes S T c fuel) ctx node rest st' := by
  induction h with
  | nil st => rfl
  | cons h1 _ ih =>
    rw [List.cons_append, tryHandlers, h1, Option.bind_some]
    simpa using ih

/-- **C47**: the first handler in priority order that answers with success determines the result; later handlers
are not used.  What the earlier ones did before they answered "try next" (here: `st` to `st'`) is not undone. -/
theorem c47_first_success (c : Conv V) (fuel : Nat) (ctx : Ctx V) (node : Loc) (hnt : ∀ d, node.node ≠ .text d)
    (earlier later : List (Prio (Render V))) (h : Prio (Render V)) (horder : S.sort c.renderers = earlier ++ h :: later)
    (st st' st'' : St V) (htry : AllTryNext S T c fuel ctx node earlier st st')
    (hok : Runs S T c fuel ctx h.value node st' .success st'') :
    renderNodes S T c (fuel + 1) ctx [node] st = some st'' := by
  have key : tryHandlers S ⟨T, c.escaping⟩ (renderNodes S T c fuel) ctx node (S.sort c.renderers) st = some (true, st'') := by
    rw [horder, tryHandlers_all S T htry, tryHandlers, hok]
    rfl
  rw [renderNodes, renderList]
  have : renderNode S T c (renderNodes S T c fuel) ctx node st = some st'' := by
    unfold renderNode
    split
    · rename_i d; exact absurd d (hnt _)
    · rw [key]; rfl
  rw [this]; rfl

/-- **C47**: without a successful handler the children are rendered in order, for a block between blank lines. -/
theorem c47_fallback (c : Conv V) (fuel : Nat) (ctx : Ctx V) (node : Loc) (hnt : ∀ d, node.node ≠ .text d)
    (st st' : St V) (htry : AllTryNext S T c fuel ctx node (S.sort c.renderers) st st') :
    renderNodes S T c (fuel + 1) ctx [node] st =
      let t := getTagType S T st'.tagTypes node.name
      if t.1 = some .block then
        (renderNodes S T c fuel ctx node.children { st' with out := st'.out ++ [NL, NL], tagTypes := t.2 }).map
          fun st => { st with out := st.out ++ [NL, NL] }
      else renderNodes S T c fuel ctx node.children { st' with tagTypes := t.2 } := by
  have key : tryHandlers S ⟨T, c.escaping⟩ (renderNodes S T c fuel) ctx node (S.sort c.renderers) st = some (false, st') := by
    have := tryHandlers_all S T htry []
    rwa [List.append_nil] at this
  have hone : ∀ x : Option (St V), x.bind (renderList (renderNode S T c (renderNodes S T c fuel) ctx) []) = x := by
    intro x; cases x <;> rfl
  rw [renderNodes, renderList, hone]
  unfold renderNode
  split
  · rename_i d; exact absurd d (hnt _)
  · rw [key]
    simp only [Option.bind_some, fallback, runProg]
    rw [if_neg (by decide)]
    generalize getTagType S T st'.tagTypes node.name = t
    by_cases ht : t.1 = some .block
    · rw [if_pos ht, if_pos ht]
      simp only [runProg]
      rw [show st'.out ++ [NL] ++ [NL] = st'.out ++ [NL, NL] by simp]
      cases renderNodes S T c fuel ctx node.children { st' with out := st'.out ++ [NL, NL], tagTypes := t.2 } with
      | none => rfl
      | some s => simp
    · rw [if_neg ht, if_neg ht]
      simp only [runProg]
      cases renderNodes S T c fuel ctx node.children { st' with tagTypes := t.2 } with
      | none => rfl
      | some s => rfl

/-- **C47**: nodes are rendered in document order, one after the other. -/
theorem c47_in_order (c : Conv V) (fuel : Nat) (ctx : Ctx V) (as bs : List Loc) (st : St V) :
    renderNodes S T c (fuel + 1) ctx (as ++ bs) st =
      (renderNodes S T c (fuel + 1) ctx as st).bind (renderNodes S T c (fuel + 1) ctx bs) := by
  simp only [renderNodes]
  induction as generalizing st with
  | nil => rfl
  | cons a as ih =>
    rw [List.cons_append, renderList, renderList]
    cases renderNode S T c (renderNodes S T c fuel) ctx a st with
    | none => rfl
    | some s => exact ih s

/-- **C47**: rendering never takes back what was already written. -/
theorem c47_appends (c : Conv V) (fuel : Nat) (ctx : Ctx V) (nodes : List Loc) (st st' : St V)
    (h : renderNodes S T c fuel ctx nodes st = some st') : st.out <+: st'.out :=
  renderNodes_appends S T c fuel ctx nodes st st' h

/-- **C47**: a renderer that was registered for one tag never touches a node of another name. -/
theorem c47_renderer_for (c : Conv V) (fuel : Nat) (ctx : Ctx V) (name : Bytes) (h : Render V) (node : Loc)
    (hn : node.name ≠ name) (st : St V) : Runs S T c fuel ctx (onlyFor name h) node st .tryNext st := by
  rw [Runs, onlyFor, if_neg hn]
  rfl

/-- The renderers of the counterexample: the first writes a byte and answers "try next". -/
def leaky : Conv Unit :=
  applyAll {} [.renderer (fun _ _ => .write b!"x" (.ret .tryNext)) 100, .renderer (fun _ _ => .write b!"y" (.ret .success)) 500]

/-- **C47**, that only the successful handler determines the result, needs that the others write nothing: the writes
of a handler that answers "try next" stay in the output. -/
theorem c47_counterexample_leak (T : NameTables) :
    (renderNodes stableSort T leaky 2 {} [⟨[], .elem b!"p" [] []⟩] ⟨[], fun _ => none, fun _ => []⟩).map St.out = some b!"xy" := by
  rfl

/-- A case of `c47_first_success` with one handler that passes and one that succeeds. -/
example (T : NameTables) : let c : Conv Unit := applyAll {} [.renderer (fun _ _ => .write b!"y" (.ret .success)) 500,
      .rendererFor b!"b" .inline (fun _ _ => .write b!"x" (.ret .success)) 100]
    ∃ earlier h later st', stableSort.sort c.renderers = earlier ++ h :: later ∧ earlier ≠ [] ∧
      AllTryNext stableSort T c 1 {} ⟨[], .elem b!"p" [] []⟩ earlier ⟨[], fun _ => none, c.tagTypes⟩ ⟨[], fun _ => none, c.tagTypes⟩ ∧
      Runs stableSort T c 1 {} h.value ⟨[], .elem b!"p" [] []⟩ ⟨[], fun _ => none, c.tagTypes⟩ .success st' :=
  ⟨[_], _, [], _, rfl, by simp, .cons rfl (.nil _), rfl⟩

/-- A case of `c47_fallback`: no handler takes the node. -/
example (T : NameTables) : let c : Conv Unit := applyAll {} [.rendererFor b!"b" .inline (fun _ _ => .write b!"x" (.ret .success)) 100]
    AllTryNext stableSort T c 1 {} ⟨[], .elem b!"p" [] [.text b!"a"]⟩ (stableSort.sort c.renderers)
      ⟨[], fun _ => none, c.tagTypes⟩ ⟨[], fun _ => none, c.tagTypes⟩ :=
  .cons rfl (.nil _)

/-! ## C49 -/

/-- **C49**: a converter has an error exactly when some option or plugin failed: a plugin without a name, a plugin
whose `Init` fails (also one registered by another plugin), or an option that returns an error. -/
theorem c49_error_iff (opts : List (List (Op V) × Option Bytes)) :
    (newConverter opts).err.isSome = true ↔
      ∃ before opt after, opts = before ++ opt :: after ∧ (∀ o ∈ before, o.2 = none) ∧ (Spec.anyFails opt.1 = true ∨ opt.2.isSome = true) := by
  have gen : ∀ (opts : List (List (Op V) × Option Bytes)) (c : Conv V), (newConverterGo c opts).err.isSome = true ↔
      c.err.isSome = true ∨ ∃ before opt after, opts = before ++ opt :: after ∧ (∀ o ∈ before, o.2 = none) ∧
        (Spec.anyFails opt.1 = true ∨ opt.2.isSome = true) := by
    intro opts
    induction opts with
    | nil => intro c; simp [newConverterGo]
    | cons o opts ih =>
      intro c
      obtain ⟨ops, err⟩ := o
      cases err with
      | some e =>
        simp only [newConverterGo]
        simp only [Option.isSome_some, true_iff]
        exact .inr ⟨[], (ops, some e), opts, rfl, by simp, .inr rfl⟩
      | none =>
        simp only [newConverterGo, ih, applyAll_err, Bool.or_eq_true]
        constructor
        · rintro ((h | h) | ⟨b, o, a, rfl, h1, h2⟩)
          · exact .inl h
          · exact .inr ⟨[], (ops, none), opts, rfl, by simp, .inl h⟩
          · exact .inr ⟨(ops, none) :: b, o, a, rfl, by simpa using h1, h2⟩
        · rintro (h | ⟨b, o, a, e, h1, h2⟩)
          · exact .inl (.inl h)
          · cases b with
            | nil =>
              simp only [List.nil_append, List.cons.injEq] at e
              obtain ⟨rfl, rfl⟩ := e
              exact .inl (.inr (by simpa using h2))
            | cons x b =>
              simp only [List.cons_append, List.cons.injEq] at e
              obtain ⟨rfl, rfl⟩ := e
              exact .inr ⟨b, o, a, rfl, fun o ho => h1 o (by simp [ho]), h2⟩
  have := gen opts {}
  rw [newConverter, this]
  simp

/-- **C49**: the error sticks: whatever is registered later, every conversion returns an error and no output. -/
theorem c49_error_sticks (c : Conv V) (h : c.err.isSome = true) (later : List (Op V)) (fuel : Nat) (ctx : Ctx V) (doc : Node) :
    ∃ e, convertNode S T (applyAll c later) fuel ctx doc = some (.error e, applyAll c later) := by
  have h' : (applyAll c later).err.isSome = true := by rw [applyAll_err, h]; rfl
  obtain ⟨e, he⟩ := Option.isSome_iff_exists.mp h'
  exact ⟨e, by rw [convertNode, he]⟩

/-- **C49**: also registering a failing plugin later makes every later conversion fail. -/
theorem c49_later_failure (c : Conv V) (ops later : List (Op V)) (h : Spec.anyFails ops = true) (fuel : Nat) (ctx : Ctx V) (doc : Node) :
    ∃ e, (convertNode S T (applyAll (applyAll c ops) later) fuel ctx doc).map (·.1) = some (.error e) := by
  obtain ⟨e, he⟩ := c49_error_sticks S T (applyAll c ops) (by rw [applyAll_err, h]; simp) later fuel ctx doc
  exact ⟨e, by rw [he]; rfl⟩

/-- **C49**: after any registrations, a conversion that finishes gives an output exactly when nothing failed, there is
a renderer, and the CommonMark plugin is accompanied by the base plugin. -/
theorem c49_output_iff (ops : List (Op V)) (fuel : Nat) (ctx : Ctx V) (doc : Node) (r : Except Err Bytes × Conv V)
    (h : convertNode S T (applyAll {} ops) fuel ctx doc = some r) :
    (∃ out, r.1 = .ok out) ↔ Spec.anyFails ops = false ∧ Spec.anyRenderer ops = true ∧
      (b!"commonmark" ∈ Spec.pluginsOfAll ops → b!"base" ∈ Spec.pluginsOfAll ops) := by
  have h1 : (applyAll ({} : Conv V) ops).err.isSome = Spec.anyFails ops := by rw [applyAll_err]; rfl
  have h2 : (applyAll ({} : Conv V) ops).renderers.isEmpty = !Spec.anyRenderer ops := by rw [applyAll_renderers]; rfl
  have h3 : (applyAll ({} : Conv V) ops).plugins = Spec.pluginsOfAll ops := by rw [applyAll_plugins]; rfl
  generalize applyAll ({} : Conv V) ops = c at h h1 h2 h3
  rw [← h1, ← h3]
  have h2' : Spec.anyRenderer ops = true ↔ c.renderers.length ≠ 0 := by
    rw [← Bool.not_eq_false, ← Bool.not_eq_true', ← h2]
    cases c.renderers <;> simp
  rw [h2']
  rw [convertNode] at h
  cases he : c.err with
  | some e =>
    simp only [he, Option.some.injEq] at h
    subst h
    simp
  | none =>
    simp only [he] at h
    rw [sort_length] at h
    split at h
    · rename_i hr
      simp only [Option.some.injEq] at h
      subst h
      simp [hr]
    · rename_i hr
      split at h
      · rename_i hb
        simp only [Option.some.injEq] at h
        subst h
        simp only [Bool.and_eq_true, Bool.not_eq_true', List.contains_iff_mem, ← Bool.not_eq_true] at hb
        simp only [reduceCtorEq, exists_false, Option.isSome_none, false_iff, true_and]
        exact fun hh => hb.2 (hh.2 hb.1)
      · rename_i hb
        simp only [Option.bind_eq_some_iff, Option.some.injEq] at h
        obtain ⟨p, _, st, _, q, _, rfl⟩ := h
        simp only [Except.ok.injEq, exists_eq', Option.isSome_none, true_and, true_iff]
        refine ⟨hr, ?_⟩
        simpa using hb

/-- The three ways to be misconfigured, and a converter that works. -/
example (T : NameTables) :
    (convertNode stableSort T (applyAll ({} : Conv Unit) []) 9 {} (.document [])).map (·.1.toOption) = some none ∧
    (convertNode stableSort T (applyAll ({} : Conv Unit) [.plugin b!"commonmark" [.renderer (fun _ _ => .ret .success) 500] none]) 9 {} (.document [])).map (·.1.toOption) = some none ∧
    (convertNode stableSort T (applyAll ({} : Conv Unit) [.plugin b!"base" [.plugin [] [] none] none, .renderer (fun _ _ => .ret .success) 500]) 9 {} (.document [])).map (·.1.toOption) = some none ∧
    (convertNode stableSort T (applyAll ({} : Conv Unit) [.plugin b!"commonmark" [.renderer (fun _ _ => .write b!"a" (.ret .success)) 500] none, .plugin b!"base" [] none]) 9 {} (.document [])).map (·.1.toOption) = some (some b!"a") :=
  ⟨rfl, rfl, rfl, rfl⟩

/-! ## C50 -/

/-- **C50**: after any registrations (at most 12 for the name), the tag type of a name is that of the first
registration with the lowest priority; without any, it is given by the HTML tables. -/
theorem c50_tag_type (ops : List (Op V)) (name : Bytes) (hn : (Spec.tagTypesOfAll name ops).length ≤ 12) :
    let registered := Spec.tagTypesOfAll name ops
    let t := (getTagType S T (applyAll ({} : Conv V) ops).tagTypes name).1
    (registered = [] → t = if T.isBlock name then some .block else if T.isInline name then some .inline else none) ∧
    (registered ≠ [] → ∃ before r after, registered = before ++ r :: after ∧ t = some r.value ∧
      (∀ x ∈ before, r.priority < x.priority) ∧ (∀ x ∈ after, r.priority ≤ x.priority)) := by
  dsimp only
  have h1 : (applyAll ({} : Conv V) ops).tagTypes name = Spec.tagTypesOfAll name ops := by rw [applyAll_tagTypes]; rfl
  rw [getTagType, h1]
  have ho := sort_order S _ hn
  have hp := S.perm (Spec.tagTypesOfAll name ops)
  generalize Spec.tagTypesOfAll name ops = l at ho hp
  constructor
  · rintro rfl
    rw [List.perm_nil] at hp
    rw [hp]
  · intro hl
    generalize hs : S.sort l = s at ho hp
    cases s with
    | nil => rw [List.nil_perm] at hp; exact absurd hp hl
    | cons r s =>
      have hf := ho.stable r.priority
      rw [List.filter_cons_of_pos (by simp)] at hf
      have hmin : ∀ y ∈ l, r.priority ≤ y.priority := by
        intro y hy
        rcases List.mem_cons.mp (hp.mem_iff.mpr hy) with rfl | hy
        · omega
        · exact (List.pairwise_cons.mp ho.ascending).1 y hy
      obtain ⟨before, after, rfl, h1, h2, -⟩ := List.filter_eq_cons_iff.mp hf.symm
      refine ⟨before, r, after, rfl, rfl, fun y hy => ?_, fun y hy => hmin y (by simp [hy])⟩
      have := hmin y (by simp [hy])
      have hne := h1 y hy
      simp only [beq_iff_eq] at hne
      omega

example : (getTagType stableSort ⟨fun _ => true, fun _ => false⟩ (applyAll ({} : Conv Unit)
      [.tagType b!"p" .remove 500, .plugin b!"x" [.rendererFor b!"p" .inline (fun _ _ => .ret .success) 100] none]).tagTypes b!"p").1 = some .inline := by rfl

/-- **C50**: reading a tag type does not change what is read later, although it sorts the registrations. -/
theorem c50_read_stable (m : TagTypes) (name name' : Bytes) :
    (getTagType S T (getTagType S T m name).2 name').1 = (getTagType S T m name').1 :=
  (getTagType_eq (fun n => getTagType_map S T m name n) name').1

/-! ## C52 -/

/-- **C52**: converting documents one after the other gives the same results as converting each with the converter as it
was at the start, whatever the handlers do. -/
theorem c52_independent (c : Conv V) (fuel : Nat) (jobs : List (Ctx V × Node)) :
    convertAll S T c fuel jobs = jobs.mapM fun j => (convertNode S T c fuel j.1 j.2).map (·.1) := by
  have gen : ∀ (jobs : List (Ctx V × Node)) (c' : Conv V), CEq S c c' →
      convertAll S T c' fuel jobs = jobs.mapM fun j => (convertNode S T c fuel j.1 j.2).map (·.1) := by
    intro jobs
    induction jobs with
    | nil => intro c' _; rfl
    | cons j jobs ih =>
      intro c' hc
      obtain ⟨ctx, doc⟩ := j
      have h := convertNode_eq (T := T) hc fuel ctx doc
      rw [convertAll, List.mapM_cons]
      cases h1 : convertNode S T c fuel ctx doc with
      | none =>
        rw [h1] at h
        cases h2 : convertNode S T c' fuel ctx doc with
        | none => simp
        | some b => rw [h2] at h; exact h.elim
      | some a =>
        rw [h1] at h
        cases h2 : convertNode S T c' fuel ctx doc with
        | none => rw [h2] at h; exact h.elim
        | some b =>
          rw [h2] at h
          have hk := convertNode_keeps h2
          have hcb : CEq S c b.2 := ⟨by rw [hk.1, hc.1], TEq.trans hc.2 hk.2⟩
          have := ih b.2 hcb
          simp only [Option.bind_some, Option.map_some, Option.bind_eq_bind, this, h.1, Option.pure_def]
          cases jobs.mapM fun j => (convertNode S T c fuel j.1 j.2).map (·.1) <;> rfl
  exact gen jobs c ⟨rfl, .refl _ _⟩

/-- A renderer that counts in the per-conversion state starts anew in every conversion. -/
example (T : NameTables) : let c : Conv Nat := applyAll {} [.renderer (fun _ _ =>
      .getState b!"n" fun n => .write (List.replicate (n.getD 0 + 1) 65) (.setState b!"n" (n.getD 0 + 1) (.ret .success))) 500]
    (convertAll stableSort T c 9 [({}, .document []), ({}, .document [])]).map (·.map Except.toOption) = some [some b!"A", some b!"A"] := rfl

end Verif.Props
