import Verif.Spec.Engine
/-!
# Lemmas about the conversion engine
-/

namespace Verif.Engine
open Verif

/-! ## Sorting -/

theorem insertLeft_perm {α} (x : Prio α) : ∀ rev, (insertLeft x rev).Perm (x :: rev)
  | [] => .refl _
  | y :: rev => by
    rw [insertLeft]
    split
    · exact ((insertLeft_perm x rev).cons y).trans (.swap x y rev)
    · exact .refl _

theorem insertLeft_filter {α} (x : Prio α) (p : Int) : ∀ rev,
    (insertLeft x rev).filter (fun a => a.priority == p) = [x].filter (fun a => a.priority == p) ++ rev.filter (fun a => a.priority == p)
  | [] => by simp [insertLeft]
  | y :: rev => by
    rw [insertLeft]
    split
    · rename_i h
      rw [List.filter_cons, insertLeft_filter x p rev]
      by_cases hx : x.priority = p
      · have : ¬ y.priority = p := by omega
        simp [hx, this]
      · simp [hx, List.filter_cons]
    · rw [← List.singleton_append, List.filter_append]

theorem insertLeft_descending {α} (x : Prio α) : ∀ rev : List (Prio α),
    rev.Pairwise (fun a b => b.priority ≤ a.priority) → (insertLeft x rev).Pairwise (fun a b => b.priority ≤ a.priority)
  | [], _ => by simp [insertLeft]
  | y :: rev, h => by
    rw [List.pairwise_cons] at h
    rw [insertLeft]
    split
    · rename_i hlt
      refine List.pairwise_cons.mpr ⟨?_, insertLeft_descending x rev h.2⟩
      intro a ha
      rcases List.mem_cons.mp ((insertLeft_perm x rev).mem_iff.mp ha) with rfl | ha
      · omega
      · exact h.1 a ha
    · refine List.pairwise_cons.mpr ⟨?_, List.pairwise_cons.mpr h⟩
      intro a ha
      rcases List.mem_cons.mp ha with rfl | ha
      · omega
      · have := h.1 a ha; omega

theorem insertionSort_perm {α} (l : List (Prio α)) : (insertionSort l).Perm l := by
  have : ∀ (l acc : List (Prio α)), (l.foldl (fun rev x => insertLeft x rev) acc).Perm (l.reverse ++ acc) := by
    intro l
    induction l with
    | nil => intro acc; exact .refl _
    | cons x l ih =>
      intro acc
      rw [List.foldl_cons]
      refine (ih _).trans ?_
      rw [List.reverse_cons, List.append_assoc]
      exact (insertLeft_perm x acc).append_left _
  have h := this l []
  rw [List.append_nil] at h
  exact (List.reverse_perm _).trans (h.trans (List.reverse_perm _))

theorem insertionSort_ascending {α} (l : List (Prio α)) : Ascending (insertionSort l) := by
  have : ∀ (l acc : List (Prio α)), acc.Pairwise (fun a b => b.priority ≤ a.priority) →
      (l.foldl (fun rev x => insertLeft x rev) acc).Pairwise (fun a b => b.priority ≤ a.priority) := by
    intro l
    induction l with
    | nil => intro acc h; exact h
    | cons x l ih => intro acc h; exact ih _ (insertLeft_descending x acc h)
  rw [Ascending, insertionSort, List.pairwise_reverse]
  exact this l [] List.Pairwise.nil

theorem insertionSort_filter {α} (l : List (Prio α)) (p : Int) :
    (insertionSort l).filter (fun a => a.priority == p) = l.filter (fun a => a.priority == p) := by
  have : ∀ (l acc : List (Prio α)), (l.foldl (fun rev x => insertLeft x rev) acc).filter (fun a => a.priority == p) =
      (l.filter (fun a => a.priority == p)).reverse ++ acc.filter (fun a => a.priority == p) := by
    intro l
    induction l with
    | nil => intro acc; rfl
    | cons x l ih =>
      intro acc
      rw [List.foldl_cons, ih, insertLeft_filter, List.filter_cons]
      by_cases hx : x.priority = p <;> simp [hx]
  rw [insertionSort, List.filter_reverse, this l []]
  simp

/-- A list that is in priority order is determined by the registrations. -/
theorem inPriorityOrder_unique {α} {l a b : List (Prio α)} (ha : Spec.InPriorityOrder l a) (hb : Spec.InPriorityOrder l b) : a = b := by
  have hf : ∀ p : Int, a.filter (fun x => x.priority == p) = b.filter (fun x => x.priority == p) :=
    fun p => (ha.stable p).trans (hb.stable p).symm
  have h1 := ha.ascending
  have h2 := hb.ascending
  clear ha hb
  induction a generalizing b with
  | nil =>
    cases b with
    | nil => rfl
    | cons y b =>
      have := hf y.priority
      simp at this
  | cons x a ih =>
    cases b with
    | nil =>
      have := hf x.priority
      simp at this
    | cons y b =>
      rw [List.pairwise_cons] at h1 h2
      have hx : x ∈ y :: b := by
        have : x ∈ (y :: b).filter (fun z => z.priority == x.priority) := by rw [← hf]; simp
        exact (List.mem_filter.mp this).1
      have hy : y ∈ x :: a := by
        have : y ∈ (x :: a).filter (fun z => z.priority == y.priority) := by rw [hf]; simp
        exact (List.mem_filter.mp this).1
      have hp : x.priority = y.priority := by
        have e1 : y.priority ≤ x.priority := by
          rcases List.mem_cons.mp hx with rfl | hx
          · omega
          · exact h2.1 x hx
        have e2 : x.priority ≤ y.priority := by
          rcases List.mem_cons.mp hy with rfl | hy
          · omega
          · exact h1.1 y hy
        omega
      have hxy : x = y := by
        have := hf x.priority
        rw [List.filter_cons_of_pos (by simp), List.filter_cons_of_pos (by simp [hp])] at this
        exact (List.cons.inj this).1
      subst hxy
      rw [ih (b := b) _ h1.2 h2.2]
      intro p
      have := hf p
      rw [List.filter_cons, List.filter_cons] at this
      split at this
      · exact (List.cons.inj this).2
      · exact this

theorem insertionSort_order {α} (l : List (Prio α)) : Spec.InPriorityOrder l (insertionSort l) :=
  ⟨insertionSort_ascending l, insertionSort_filter l⟩

theorem insertionSort_sorted {α} (l : List (Prio α)) (h : Ascending l) : insertionSort l = l :=
  inPriorityOrder_unique (insertionSort_order l) ⟨h, fun _ => rfl⟩

/-- Insertion sort meets what the model assumes about `sort.Slice`. -/
def stableSort : GoSort where
  sort := insertionSort
  perm := insertionSort_perm
  ascending := insertionSort_ascending
  sorted := insertionSort_sorted
  small := fun _ _ => rfl

theorem sort_order {α} (S : GoSort) (l : List (Prio α)) (h : l.length ≤ 12) : Spec.InPriorityOrder l (S.sort l) := by
  rw [S.small l h]; exact insertionSort_order l

theorem sort_map {α β} (S : GoSort) (f : α → β) (l : List (Prio α)) (h : l.length ≤ 12) (order : List (Prio α))
    (ho : Spec.InPriorityOrder l order) :
    S.sort (l.map fun x => (⟨f x.value, x.priority⟩ : Prio β)) = order.map fun x => ⟨f x.value, x.priority⟩ := by
  refine inPriorityOrder_unique (sort_order S _ (by simpa using h)) ⟨?_, ?_⟩
  · rw [List.pairwise_map]
    exact ho.ascending
  · intro p
    rw [List.filter_map, List.filter_map]
    exact congrArg _ (ho.stable p)

theorem sort_length {α} (S : GoSort) (l : List (Prio α)) : (S.sort l).length = l.length := (S.perm l).length_eq

/-! ## Registrations -/

mutual
theorem apply_tagTypes {V} (c : Conv V) (name : Bytes) : ∀ op : Op V,
    (apply c op).tagTypes name = c.tagTypes name ++ Spec.tagTypesOf name op
  | .preRenderer _ _ | .renderer _ _ | .postRenderer _ _ | .textTransformer _ _ | .escapedChar _ | .unEscaper _ _ | .escapeMode _ => by
    simp [apply, Spec.tagTypesOf]
  | .tagType n t p | .rendererFor n t _ p => by
    simp only [apply, Spec.tagTypesOf, addTagType]
    by_cases h : name = n
    · simp [h]
    · simp [h, Ne.symm h]
  | .plugin n init err => by
    simp only [apply, Spec.tagTypesOf]
    split
    · simp
    · have := applyAll_tagTypes { c with plugins := c.plugins ++ [n] } name init
      cases err <;> exact this
theorem applyAll_tagTypes {V} (c : Conv V) (name : Bytes) : ∀ ops : List (Op V),
    (applyAll c ops).tagTypes name = c.tagTypes name ++ Spec.tagTypesOfAll name ops
  | [] => by simp [applyAll, Spec.tagTypesOfAll]
  | op :: ops => by
    rw [applyAll, applyAll_tagTypes _ name ops, apply_tagTypes c name op, Spec.tagTypesOfAll, List.append_assoc]
end

mutual
theorem apply_err {V} (c : Conv V) : ∀ op : Op V, (apply c op).err.isSome = (c.err.isSome || Spec.fails op)
  | .preRenderer _ _ | .renderer _ _ | .postRenderer _ _ | .textTransformer _ _ | .tagType _ _ _ | .rendererFor _ _ _ _ | .escapedChar _ | .unEscaper _ _ | .escapeMode _ => by
    simp [apply, Spec.fails]
  | .plugin n init err => by
    simp only [apply, Spec.fails]
    split
    · rename_i h; simp [h]
    · rename_i h
      have hn : n.isEmpty = false := by cases n <;> simp_all
      have := applyAll_err { c with plugins := c.plugins ++ [n] } init
      cases err with
      | none => rw [hn]; simpa using this
      | some e => simp
theorem applyAll_err {V} (c : Conv V) : ∀ ops : List (Op V),
    (applyAll c ops).err.isSome = (c.err.isSome || Spec.anyFails ops)
  | [] => by simp [applyAll, Spec.anyFails]
  | op :: ops => by rw [applyAll, applyAll_err _ ops, apply_err c op, Spec.anyFails, Bool.or_assoc]
end

mutual
theorem apply_renderers {V} (c : Conv V) : ∀ op : Op V,
    (apply c op).renderers.isEmpty = (c.renderers.isEmpty && !Spec.hasRenderer op)
  | .preRenderer _ _ | .postRenderer _ _ | .textTransformer _ _ | .tagType _ _ _ | .escapedChar _ | .unEscaper _ _ | .escapeMode _ => by
    simp [apply, Spec.hasRenderer]
  | .renderer _ _ | .rendererFor _ _ _ _ => by simp [apply, Spec.hasRenderer]
  | .plugin n init err => by
    simp only [apply, Spec.hasRenderer]
    split
    · rename_i h; simp [h]
    · rename_i h
      have hn : n.isEmpty = false := by cases n <;> simp_all
      have := applyAll_renderers { c with plugins := c.plugins ++ [n] } init
      rw [hn, Bool.not_false, Bool.true_and]
      cases err <;> exact this
theorem applyAll_renderers {V} (c : Conv V) : ∀ ops : List (Op V),
    (applyAll c ops).renderers.isEmpty = (c.renderers.isEmpty && !Spec.anyRenderer ops)
  | [] => by simp [applyAll, Spec.anyRenderer]
  | op :: ops => by
    rw [applyAll, applyAll_renderers _ ops, apply_renderers c op, Spec.anyRenderer, Bool.not_or, Bool.and_assoc]
end

mutual
theorem apply_plugins {V} (c : Conv V) : ∀ op : Op V, (apply c op).plugins = c.plugins ++ Spec.pluginsOf op
  | .preRenderer _ _ | .renderer _ _ | .postRenderer _ _ | .textTransformer _ _ | .tagType _ _ _ | .rendererFor _ _ _ _ | .escapedChar _ | .unEscaper _ _ | .escapeMode _ => by
    simp [apply, Spec.pluginsOf]
  | .plugin n init err => by
    simp only [apply, Spec.pluginsOf]
    split
    · simp
    · have := applyAll_plugins { c with plugins := c.plugins ++ [n] } init
      rw [List.append_assoc] at this
      cases err <;> exact this
theorem applyAll_plugins {V} (c : Conv V) : ∀ ops : List (Op V),
    (applyAll c ops).plugins = c.plugins ++ Spec.pluginsOfAll ops
  | [] => by simp [applyAll, Spec.pluginsOfAll]
  | op :: ops => by
    rw [applyAll, applyAll_plugins _ ops, apply_plugins c op, Spec.pluginsOfAll, List.append_assoc]
end

/-! ## Output is only appended -/

/-- A renderer that only appends to the writer. -/
def Appends {V} (rn : Ctx V → List Loc → St V → Option (St V)) : Prop :=
  ∀ ctx ns st st', rn ctx ns st = some st' → st.out <+: st'.out

theorem runProg_appends {V α} {S T} {rn : Ctx V → List Loc → St V → Option (St V)} (h : Appends rn) :
    ∀ (p : Prog V α) (st : St V) r, runProg S T rn p st = some r → st.out <+: r.2.out
  | .ret a, st, r, e => by simp only [runProg, Option.some.injEq] at e; subst e; exact List.prefix_rfl
  | .write b next, st, r, e => by
    rw [runProg] at e
    exact (List.prefix_append _ _).trans (runProg_appends h next _ r e)
  | .getTagType n next, st, r, e => by
    rw [runProg] at e
    have := runProg_appends h (next _) _ r e
    exact this
  | .render ctx ns next, st, r, e => by
    rw [runProg, Option.bind_eq_some_iff] at e
    obtain ⟨st', e1, e2⟩ := e
    exact (h _ _ _ _ e1).trans (runProg_appends h next _ r e2)
  | .renderTo ctx ns next, st, r, e => by
    rw [runProg, Option.bind_eq_some_iff] at e
    obtain ⟨st', e1, e2⟩ := e
    have := runProg_appends h (next _) _ r e2
    exact this
  | .getState k next, st, r, e => by
    rw [runProg] at e
    exact runProg_appends h (next _) _ r e
  | .setState k v next, st, r, e => by
    rw [runProg] at e
    have := runProg_appends h next _ r e
    exact this
  | .escape next, st, r, e | .unEscape next, st, r, e | .getTagTypes next, st, r, e => by
    rw [runProg] at e
    exact runProg_appends h (next _) _ r e
  | .panic, st, r, e => by simp [runProg] at e

theorem tryHandlers_appends {V} {S T} {rn : Ctx V → List Loc → St V → Option (St V)} (h : Appends rn) (ctx) (node) :
    ∀ (hs : List (Prio (Render V))) (st : St V) r, tryHandlers S T rn ctx node hs st = some r → st.out <+: r.2.out
  | [], st, r, e => by simp only [tryHandlers, Option.some.injEq] at e; subst e; exact List.prefix_rfl
  | x :: hs, st, r, e => by
    rw [tryHandlers, Option.bind_eq_some_iff] at e
    obtain ⟨st', e1, e2⟩ := e
    have h1 := runProg_appends h _ _ _ e1
    split at e2
    · simp only [Option.some.injEq] at e2; subst e2; exact h1
    · exact h1.trans (tryHandlers_appends h ctx node hs _ r e2)

theorem transformText_appends {V} {S T} {rn : Ctx V → List Loc → St V → Option (St V)} (h : Appends rn) (ctx) :
    ∀ (hs : List (Prio (TextTransform V))) (c : Bytes) (st : St V) r, transformText S T rn ctx hs c st = some r → st.out <+: r.2.out
  | [], c, st, r, e => by simp only [transformText, Option.some.injEq] at e; subst e; exact List.prefix_rfl
  | x :: hs, c, st, r, e => by
    rw [transformText, Option.bind_eq_some_iff] at e
    obtain ⟨st', e1, e2⟩ := e
    exact (runProg_appends h _ _ _ e1).trans (transformText_appends h ctx hs _ _ r e2)

theorem renderNode_appends {V} {S T} {c : Conv V} {rn : Ctx V → List Loc → St V → Option (St V)} (h : Appends rn)
    (ctx node st st') (e : renderNode S T c rn ctx node st = some st') : st.out <+: st'.out := by
  unfold renderNode at e
  split at e
  · rw [Option.map_eq_some_iff] at e
    obtain ⟨r, e1, rfl⟩ := e
    exact (transformText_appends h ctx _ _ _ _ e1).trans (List.prefix_append _ _)
  · rw [Option.bind_eq_some_iff] at e
    obtain ⟨r, e1, e2⟩ := e
    have h1 := tryHandlers_appends h ctx _ _ _ _ e1
    split at e2
    · simp only [Option.some.injEq] at e2; subst e2; exact h1
    · rw [Option.map_eq_some_iff] at e2
      obtain ⟨q, e3, rfl⟩ := e2
      exact h1.trans (runProg_appends h _ _ _ e3)

theorem renderList_appends {V} {one : Loc → St V → Option (St V)} (h : ∀ n st st', one n st = some st' → st.out <+: st'.out) :
    ∀ ns st st', renderList one ns st = some st' → st.out <+: st'.out
  | [], st, st', e => by simp only [renderList, Option.some.injEq] at e; subst e; exact List.prefix_rfl
  | n :: ns, st, st', e => by
    rw [renderList, Option.bind_eq_some_iff] at e
    obtain ⟨s1, e1, e2⟩ := e
    exact (h _ _ _ e1).trans (renderList_appends h ns _ _ e2)

theorem renderNodes_appends {V} (S T) (c : Conv V) : ∀ fuel, Appends (renderNodes S T c fuel)
  | 0 => by intro ctx ns st st' e; simp [renderNodes] at e
  | fuel + 1 => by
    intro ctx ns st st' e
    rw [renderNodes] at e
    exact renderList_appends (fun n s s' => renderNode_appends (renderNodes_appends S T c fuel) ctx n s s') _ _ _ e

/-! ## Tag types are the same before and after they were sorted -/

/-- Two maps that differ only in the order that sorting removes. -/
def TEq (S : GoSort) (m m' : TagTypes) : Prop := ∀ n, S.sort (m n) = S.sort (m' n)

theorem sort_sort {α} (S : GoSort) (l : List (Prio α)) : S.sort (S.sort l) = S.sort l := S.sorted _ (S.ascending l)

theorem getTagType_map (S : GoSort) (T m name) (n : Bytes) : S.sort ((getTagType S T m name).2 n) = S.sort (m n) := by
  rw [getTagType]
  split
  · rfl
  · rename_i first rest e
    show S.sort (if n = name then first :: rest else m n) = _
    split
    · rename_i h; rw [h, ← e, sort_sort]
    · rfl

theorem getTagType_eq {S T m m'} (h : TEq S m m') (name) :
    (getTagType S T m name).1 = (getTagType S T m' name).1 ∧ TEq S (getTagType S T m name).2 (getTagType S T m' name).2 := by
  refine ⟨?_, fun n => by rw [getTagType_map, getTagType_map, h n]⟩
  rw [getTagType, getTagType, ← h name]
  split <;> rfl

/-- States that differ only in the order that sorting removes. -/
def StEq {V} (S : GoSort) (a b : St V) : Prop := a.out = b.out ∧ a.state = b.state ∧ TEq S a.tagTypes b.tagTypes

/-- Results that differ only in the order that sorting removes. -/
def ResEq {V α} (S : GoSort) : Option (α × St V) → Option (α × St V) → Prop
  | none, none => True
  | some a, some b => a.1 = b.1 ∧ StEq S a.2 b.2
  | _, _ => False

/-- The same for results without a value. -/
def OptEq {V} (S : GoSort) : Option (St V) → Option (St V) → Prop
  | none, none => True
  | some a, some b => StEq S a b
  | _, _ => False

theorem ResEq.bind {V α β} {S : GoSort} {a b : Option (α × St V)} {f g : α × St V → Option (β × St V)} (h : ResEq S a b)
    (hf : ∀ x s s', StEq S s s' → ResEq S (f (x, s)) (g (x, s'))) : ResEq S (a.bind f) (b.bind g) := by
  match a, b, h with
  | none, none, _ => trivial
  | some (x, s), some (y, s'), h => obtain ⟨rfl, h⟩ := h; exact hf x s s' h

theorem OptEq.bind {V β} {S : GoSort} {a b : Option (St V)} {f g : St V → Option (β × St V)} (h : OptEq S a b)
    (hf : ∀ s s', StEq S s s' → ResEq S (f s) (g s')) : ResEq S (a.bind f) (b.bind g) := by
  match a, b, h with
  | none, none, _ => trivial
  | some s, some s', h => exact hf s s' h

theorem OptEq.bind' {V} {S : GoSort} {a b : Option (St V)} {f g : St V → Option (St V)} (h : OptEq S a b)
    (hf : ∀ s s', StEq S s s' → OptEq S (f s) (g s')) : OptEq S (a.bind f) (b.bind g) := by
  match a, b, h with
  | none, none, _ => trivial
  | some s, some s', h => exact hf s s' h

theorem ResEq.bind' {V α} {S : GoSort} {a b : Option (α × St V)} {f g : α × St V → Option (St V)} (h : ResEq S a b)
    (hf : ∀ x s s', StEq S s s' → OptEq S (f (x, s)) (g (x, s'))) : OptEq S (a.bind f) (b.bind g) := by
  match a, b, h with
  | none, none, _ => trivial
  | some (x, s), some (y, s'), h => obtain ⟨rfl, h⟩ := h; exact hf x s s' h

/-- Renderers that do not see the order that sorting removes. -/
def Agree {V} (S : GoSort) (rn rn' : Ctx V → List Loc → St V → Option (St V)) : Prop :=
  ∀ ctx ns st st', StEq S st st' → OptEq S (rn ctx ns st) (rn' ctx ns st')

theorem runProg_eq {V α} {S T} {rn rn' : Ctx V → List Loc → St V → Option (St V)} (h : Agree S rn rn') :
    ∀ (p : Prog V α) (st st' : St V), StEq S st st' → ResEq S (runProg S T rn p st) (runProg S T rn' p st')
  | .ret a, st, st', e => ⟨rfl, e⟩
  | .write b next, st, st', e => by
    rw [runProg, runProg]
    exact runProg_eq h next _ _ ⟨by show st.out ++ b = st'.out ++ b; rw [e.1], e.2.1, e.2.2⟩
  | .getTagType n next, st, st', e => by
    have := getTagType_eq (T := T.tables) e.2.2 n
    simp only [runProg]
    rw [this.1]
    exact runProg_eq h _ _ _ ⟨e.1, e.2.1, this.2⟩
  | .render ctx ns next, st, st', e => by
    rw [runProg, runProg]
    exact (h ctx ns _ _ e).bind fun s s' hs => runProg_eq h next s s' hs
  | .renderTo ctx ns next, st, st', e => by
    rw [runProg, runProg]
    refine (h ctx ns { st with out := [] } { st' with out := [] } ⟨rfl, e.2.1, e.2.2⟩).bind fun s s' hs => ?_
    rw [hs.1]
    exact runProg_eq h _ _ _ ⟨e.1, hs.2.1, hs.2.2⟩
  | .getState k next, st, st', e => by
    rw [runProg, runProg, e.2.1]
    exact runProg_eq h _ _ _ e
  | .setState k v next, st, st', e => by
    rw [runProg, runProg]
    refine runProg_eq h next _ _ ⟨e.1, ?_, e.2.2⟩
    show (fun k' => if k' = k then some v else st.state k') = _
    rw [e.2.1]
  | .getTagTypes next, st, st', e => by
    rw [runProg, runProg, show (fun n => (getTagType S T.tables st.tagTypes n).1) = fun n => (getTagType S T.tables st'.tagTypes n).1 from
      funext fun n => (getTagType_eq (T := T.tables) e.2.2 n).1]
    exact runProg_eq h _ _ _ e
  | .escape next, st, st', e | .unEscape next, st, st', e => by
    rw [runProg, runProg]
    exact runProg_eq h _ _ _ e
  | .panic, st, st', e => trivial

theorem tryHandlers_eq {V} {S T} {rn rn' : Ctx V → List Loc → St V → Option (St V)} (h : Agree S rn rn') (ctx node) :
    ∀ (hs : List (Prio (Render V))) (st st' : St V), StEq S st st' →
      ResEq S (tryHandlers S T rn ctx node hs st) (tryHandlers S T rn' ctx node hs st')
  | [], st, st', e => ⟨rfl, e⟩
  | x :: hs, st, st', e => by
    rw [tryHandlers, tryHandlers]
    refine (runProg_eq h _ _ _ e).bind fun r s s' hs' => ?_
    dsimp only
    split
    · exact ⟨rfl, hs'⟩
    · exact tryHandlers_eq h ctx node hs s s' hs'

theorem transformText_eq {V} {S T} {rn rn' : Ctx V → List Loc → St V → Option (St V)} (h : Agree S rn rn') (ctx) :
    ∀ (hs : List (Prio (TextTransform V))) (c : Bytes) (st st' : St V), StEq S st st' →
      ResEq S (transformText S T rn ctx hs c st) (transformText S T rn' ctx hs c st')
  | [], c, st, st', e => ⟨rfl, e⟩
  | x :: hs, c, st, st', e => by
    rw [transformText, transformText]
    exact (runProg_eq h _ _ _ e).bind fun r s s' hs' => transformText_eq h ctx hs r s s' hs'

theorem renderNode_eq {V} {S T} {c c' : Conv V} {rn rn' : Ctx V → List Loc → St V → Option (St V)} (h : Agree S rn rn')
    (hr : c.renderers = c'.renderers) (ht : c.text = c'.text) (he : c.escaping = c'.escaping) (ctx node) (st st' : St V) (e : StEq S st st') :
    OptEq S (renderNode S T c rn ctx node st) (renderNode S T c' rn' ctx node st') := by
  have hfall : ∀ n, OptEq S ((tryHandlers S ⟨T, c.escaping⟩ rn ctx n (S.sort c.renderers) st).bind fun r =>
      if r.1 then some r.2 else (runProg S ⟨T, c.escaping⟩ rn (fallback ctx n) r.2).map (·.2))
      ((tryHandlers S ⟨T, c'.escaping⟩ rn' ctx n (S.sort c'.renderers) st').bind fun r =>
      if r.1 then some r.2 else (runProg S ⟨T, c'.escaping⟩ rn' (fallback ctx n) r.2).map (·.2)) := by
    intro n
    rw [← hr, ← he]
    refine (tryHandlers_eq h ctx n _ _ _ e).bind' fun r s s' hs => ?_
    dsimp only
    split
    · exact hs
    · have := runProg_eq (T := ⟨T, c.escaping⟩) h (fallback ctx n) s s' hs
      match runProg S ⟨T, c.escaping⟩ rn (fallback ctx n) s, runProg S ⟨T, c.escaping⟩ rn' (fallback ctx n) s', this with
      | none, none, _ => trivial
      | some a, some b, this => exact this.2
  match node with
  | ⟨ps, .text d⟩ =>
    simp only [renderNode]
    rw [← ht, ← he]
    have := transformText_eq (T := ⟨T, c.escaping⟩) h ctx (S.sort c.text) d _ _ e
    match transformText S ⟨T, c.escaping⟩ rn ctx (S.sort c.text) d st, transformText S ⟨T, c.escaping⟩ rn' ctx (S.sort c.text) d st', this with
    | none, none, _ => trivial
    | some a, some b, this =>
      refine ⟨?_, this.2.2.1, this.2.2.2⟩
      show a.2.out ++ a.1 = b.2.out ++ b.1
      rw [this.1, this.2.1]
  | ⟨ps, .comment d⟩ => exact hfall ⟨ps, .comment d⟩
  | ⟨ps, .doctype d⟩ => exact hfall ⟨ps, .doctype d⟩
  | ⟨ps, .document cs⟩ => exact hfall ⟨ps, .document cs⟩
  | ⟨ps, .elem n as cs⟩ => exact hfall ⟨ps, .elem n as cs⟩

theorem renderList_eq {V} {S : GoSort} {one one' : Loc → St V → Option (St V)}
    (h : ∀ n st st', StEq S st st' → OptEq S (one n st) (one' n st')) :
    ∀ ns st st', StEq S st st' → OptEq S (renderList one ns st) (renderList one' ns st')
  | [], st, st', e => e
  | n :: ns, st, st', e => by
    rw [renderList, renderList]
    exact (h n st st' e).bind' fun s s' hs => renderList_eq h ns s s' hs

theorem renderNodes_eq {V} (S T) {c c' : Conv V} (hr : c.renderers = c'.renderers) (ht : c.text = c'.text) (he : c.escaping = c'.escaping) :
    ∀ fuel, Agree S (renderNodes S T c fuel) (renderNodes S T c' fuel)
  | 0 => fun _ _ _ _ _ => trivial
  | fuel + 1 => by
    intro ctx ns st st' e
    rw [renderNodes, renderNodes]
    exact renderList_eq (fun n s s' hs => renderNode_eq (renderNodes_eq S T hr ht he fuel) hr ht he ctx n s s' hs) ns st st' e

theorem runPre_eq {V} {S T} {rn rn' : Ctx V → List Loc → St V → Option (St V)} (h : Agree S rn rn') (ctx) :
    ∀ (hs : List (Prio (PreRender V))) (d : Node) (st st' : St V), StEq S st st' →
      ResEq S (runPre S T rn ctx hs d st) (runPre S T rn' ctx hs d st')
  | [], d, st, st', e => ⟨rfl, e⟩
  | x :: hs, d, st, st', e => by
    rw [runPre, runPre]
    exact (runProg_eq h _ _ _ e).bind fun r s s' hs' => runPre_eq h ctx hs r s s' hs'

theorem runPost_eq {V} {S T} {rn rn' : Ctx V → List Loc → St V → Option (St V)} (h : Agree S rn rn') (ctx) :
    ∀ (hs : List (Prio (PostRender V))) (d : Bytes) (st st' : St V), StEq S st st' →
      ResEq S (runPost S T rn ctx hs d st) (runPost S T rn' ctx hs d st')
  | [], d, st, st', e => ⟨rfl, e⟩
  | x :: hs, d, st, st', e => by
    rw [runPost, runPost]
    exact (runProg_eq h _ _ _ e).bind fun r s s' hs' => runPost_eq h ctx hs r s s' hs'

/-- Converters that differ only in the order that sorting removes. -/
def CEq {V} (S : GoSort) (c c' : Conv V) : Prop :=
  c' = { c with tagTypes := c'.tagTypes } ∧ TEq S c.tagTypes c'.tagTypes

/-- The same result, and converters that differ only in the order that sorting removes. -/
def ConvEq {V} (S : GoSort) : Option (Except Err Bytes × Conv V) → Option (Except Err Bytes × Conv V) → Prop
  | none, none => True
  | some a, some b => a.1 = b.1 ∧ CEq S a.2 b.2
  | _, _ => False

theorem convertNode_eq {V} {S T} {c c' : Conv V} (h : CEq S c c') (fuel ctx doc) :
    ConvEq S (convertNode S T c fuel ctx doc) (convertNode S T c' fuel ctx doc) := by
  obtain ⟨hc, ht⟩ := h
  rw [hc]
  generalize c'.tagTypes = m at ht
  have hcc : CEq S c { c with tagTypes := m } := ⟨rfl, ht⟩
  cases he : c.err with
  | some e =>
    simp only [convertNode, he]
    rw [he] at hcc
    exact ⟨rfl, hcc⟩
  | none =>
    simp only [convertNode, he]
    rw [he] at hcc
    split
    · exact ⟨rfl, hcc⟩
    · split
      · exact ⟨rfl, hcc⟩
      · have hag := renderNodes_eq S T (c := c) (c' := { c with tagTypes := m }) rfl rfl rfl fuel
        have h1 := runPre_eq (T := ⟨T, c.escaping⟩) hag ctx (S.sort c.pre) doc ⟨[], fun _ => none, c.tagTypes⟩ ⟨[], fun _ => none, m⟩ ⟨rfl, rfl, ht⟩
        rw [he] at hag h1
        generalize runPre S ⟨T, c.escaping⟩ (renderNodes S T c fuel) ctx (S.sort c.pre) doc _ = x1 at h1
        generalize runPre S ⟨T, c.escaping⟩ _ ctx (S.sort c.pre) doc ⟨[], fun _ => none, m⟩ = x2 at h1
        match x1, x2, h1 with
        | none, none, _ => trivial
        | some (d, s), some (d', s'), h1 =>
          obtain ⟨hd, h1⟩ := h1
          dsimp only at hd; subst hd
          have h2 := hag ctx [{ node := d }] { s with out := [] } { s' with out := [] } ⟨rfl, h1.2.1, h1.2.2⟩
          simp only [Option.bind_some]
          generalize renderNodes S T c fuel ctx [{ node := d }] _ = y1 at h2
          generalize renderNodes S T _ fuel ctx [{ node := d }] _ = y2 at h2
          match y1, y2, h2 with
          | none, none, _ => trivial
          | some a, some b, h2 =>
            have h3 := runPost_eq (T := ⟨T, c.escaping⟩) hag ctx (S.sort c.post) a.out a b h2
            simp only [Option.bind_some]
            rw [← h2.1]
            generalize runPost S ⟨T, c.escaping⟩ (renderNodes S T c fuel) ctx (S.sort c.post) a.out a = z1 at h3
            generalize runPost S ⟨T, c.escaping⟩ _ ctx (S.sort c.post) a.out b = z2 at h3
            match z1, z2, h3 with
            | none, none, _ => trivial
            | some x, some y, h3 =>
              refine ⟨?_, rfl, h3.2.2.2⟩
              show Except.ok x.1 = Except.ok y.1
              rw [h3.1]

/-! ### A conversion leaves the converter alone, up to that order -/

/-- A relation between the tag types before and after that a sort in place respects. -/
structure Closed (S : GoSort) (T : NameTables) (R : TagTypes → TagTypes → Prop) : Prop where
  refl : ∀ a, R a a
  trans : ∀ {a b c}, R a b → R b c → R a c
  get : ∀ m n, R m (getTagType S T m n).2

/-- The tag types of the result are related to those of the argument. -/
def Keeps {V} (R : TagTypes → TagTypes → Prop) (rn : Ctx V → List Loc → St V → Option (St V)) : Prop :=
  ∀ ctx ns st st', rn ctx ns st = some st' → R st.tagTypes st'.tagTypes

theorem TEq.trans {S a b c} (h : TEq S a b) (h' : TEq S b c) : TEq S a c := fun n => (h n).trans (h' n)
theorem TEq.refl (S a) : TEq S a a := fun _ => rfl

theorem TEq.closed (S T) : Closed S T (TEq S) :=
  ⟨.refl S, .trans, fun m n k => (getTagType_map S T m n k).symm⟩

/-- Nothing changes when all registrations are sorted. -/
theorem sorted_closed (S : GoSort) (T) : Closed S T (fun m m' => (∀ n, Ascending (m n)) → m' = m) := by
  refine ⟨fun _ _ => rfl, fun h1 h2 hs => ?_, fun m n hs => ?_⟩
  · have := h1 hs
    subst this
    exact h2 hs
  · rw [getTagType, S.sorted _ (hs n)]
    split
    · rfl
    · rename_i first rest e
      funext k
      show (if k = n then first :: rest else m k) = m k
      split
      · rename_i h; rw [h, e]
      · rfl

theorem runProg_keeps {V α} {S} {T : World} {R} (hR : Closed S T.tables R) {rn : Ctx V → List Loc → St V → Option (St V)} (h : Keeps R rn) :
    ∀ (p : Prog V α) (st : St V) r, runProg S T rn p st = some r → R st.tagTypes r.2.tagTypes
  | .ret a, st, r, e => by simp only [runProg, Option.some.injEq] at e; subst e; exact hR.refl _
  | .write b next, st, r, e => by
    rw [runProg] at e
    exact runProg_keeps hR h next { st with out := st.out ++ b } r e
  | .getTagType n next, st, r, e => by
    rw [runProg] at e
    have := runProg_keeps hR h (next _) _ r e
    exact hR.trans (hR.get _ n) this
  | .render ctx ns next, st, r, e => by
    rw [runProg, Option.bind_eq_some_iff] at e
    obtain ⟨st', e1, e2⟩ := e
    exact hR.trans (h _ _ _ _ e1) (runProg_keeps hR h next _ r e2)
  | .renderTo ctx ns next, st, r, e => by
    rw [runProg, Option.bind_eq_some_iff] at e
    obtain ⟨st', e1, e2⟩ := e
    have h1 := h _ _ _ _ e1
    have h2 := runProg_keeps hR h (next _) _ r e2
    exact hR.trans h1 h2
  | .getState k next, st, r, e => by
    rw [runProg] at e
    exact runProg_keeps hR h (next _) _ r e
  | .setState k v next, st, r, e => by
    rw [runProg] at e
    exact runProg_keeps hR h next { st with state := fun k' => if k' = k then some v else st.state k' } r e
  | .escape next, st, r, e | .unEscape next, st, r, e | .getTagTypes next, st, r, e => by
    rw [runProg] at e
    exact runProg_keeps hR h (next _) _ r e
  | .panic, st, r, e => by simp [runProg] at e

theorem tryHandlers_keeps {V} {S} {T : World} {R} (hR : Closed S T.tables R) {rn : Ctx V → List Loc → St V → Option (St V)} (h : Keeps R rn) (ctx) (node) :
    ∀ (hs : List (Prio (Render V))) (st : St V) r, tryHandlers S T rn ctx node hs st = some r → R st.tagTypes r.2.tagTypes
  | [], st, r, e => by simp only [tryHandlers, Option.some.injEq] at e; subst e; exact hR.refl _
  | x :: hs, st, r, e => by
    rw [tryHandlers, Option.bind_eq_some_iff] at e
    obtain ⟨st', e1, e2⟩ := e
    have h1 := runProg_keeps hR h _ _ _ e1
    split at e2
    · simp only [Option.some.injEq] at e2; subst e2; exact h1
    · exact hR.trans h1 (tryHandlers_keeps hR h ctx node hs _ r e2)

theorem transformText_keeps {V} {S} {T : World} {R} (hR : Closed S T.tables R) {rn : Ctx V → List Loc → St V → Option (St V)} (h : Keeps R rn) (ctx) :
    ∀ (hs : List (Prio (TextTransform V))) (c : Bytes) (st : St V) r, transformText S T rn ctx hs c st = some r → R st.tagTypes r.2.tagTypes
  | [], c, st, r, e => by simp only [transformText, Option.some.injEq] at e; subst e; exact hR.refl _
  | x :: hs, c, st, r, e => by
    rw [transformText, Option.bind_eq_some_iff] at e
    obtain ⟨st', e1, e2⟩ := e
    exact hR.trans (runProg_keeps hR h _ _ _ e1) (transformText_keeps hR h ctx hs _ _ r e2)

theorem renderNode_keeps {V} {S T R} (hR : Closed S T R) {c : Conv V} {rn : Ctx V → List Loc → St V → Option (St V)} (h : Keeps R rn)
    (ctx node st st') (e : renderNode S T c rn ctx node st = some st') : R st.tagTypes st'.tagTypes := by
  unfold renderNode at e
  split at e
  · rw [Option.map_eq_some_iff] at e
    obtain ⟨r, e1, rfl⟩ := e
    exact transformText_keeps (T := ⟨T, c.escaping⟩) hR h ctx _ _ _ _ e1
  · rw [Option.bind_eq_some_iff] at e
    obtain ⟨r, e1, e2⟩ := e
    have h1 := tryHandlers_keeps (T := ⟨T, c.escaping⟩) hR h ctx _ _ _ _ e1
    split at e2
    · simp only [Option.some.injEq] at e2; subst e2; exact h1
    · rw [Option.map_eq_some_iff] at e2
      obtain ⟨q, e3, rfl⟩ := e2
      exact hR.trans h1 (runProg_keeps (T := ⟨T, c.escaping⟩) hR h _ _ _ e3)

theorem renderList_keeps {V} {S T R} (hR : Closed S T R) {one : Loc → St V → Option (St V)}
    (h : ∀ n st st', one n st = some st' → R st.tagTypes st'.tagTypes) :
    ∀ ns st st', renderList one ns st = some st' → R st.tagTypes st'.tagTypes
  | [], st, st', e => by simp only [renderList, Option.some.injEq] at e; subst e; exact hR.refl _
  | n :: ns, st, st', e => by
    rw [renderList, Option.bind_eq_some_iff] at e
    obtain ⟨s1, e1, e2⟩ := e
    exact hR.trans (h _ _ _ e1) (renderList_keeps hR h ns _ _ e2)

theorem renderNodes_keeps {V} {S T R} (hR : Closed S T R) (c : Conv V) : ∀ fuel, Keeps R (renderNodes S T c fuel)
  | 0 => by intro ctx ns st st' e; simp [renderNodes] at e
  | fuel + 1 => by
    intro ctx ns st st' e
    rw [renderNodes] at e
    exact renderList_keeps hR (fun n s s' => renderNode_keeps hR (renderNodes_keeps hR c fuel) ctx n s s') _ _ _ e

theorem runPre_keeps {V} {S} {T : World} {R} (hR : Closed S T.tables R) {rn : Ctx V → List Loc → St V → Option (St V)} (h : Keeps R rn) (ctx) :
    ∀ (hs : List (Prio (PreRender V))) (d : Node) (st : St V) r, runPre S T rn ctx hs d st = some r → R st.tagTypes r.2.tagTypes
  | [], d, st, r, e => by simp only [runPre, Option.some.injEq] at e; subst e; exact hR.refl _
  | x :: hs, d, st, r, e => by
    rw [runPre, Option.bind_eq_some_iff] at e
    obtain ⟨st', e1, e2⟩ := e
    exact hR.trans (runProg_keeps hR h _ _ _ e1) (runPre_keeps hR h ctx hs _ _ r e2)

theorem runPost_keeps {V} {S} {T : World} {R} (hR : Closed S T.tables R) {rn : Ctx V → List Loc → St V → Option (St V)} (h : Keeps R rn) (ctx) :
    ∀ (hs : List (Prio (PostRender V))) (d : Bytes) (st : St V) r, runPost S T rn ctx hs d st = some r → R st.tagTypes r.2.tagTypes
  | [], d, st, r, e => by simp only [runPost, Option.some.injEq] at e; subst e; exact hR.refl _
  | x :: hs, d, st, r, e => by
    rw [runPost, Option.bind_eq_some_iff] at e
    obtain ⟨st', e1, e2⟩ := e
    exact hR.trans (runProg_keeps hR h _ _ _ e1) (runPost_keeps hR h ctx hs _ _ r e2)

theorem convertNode_rel {V} {S T R} (hR : Closed S T R) {c : Conv V} {fuel ctx doc r} (e : convertNode S T c fuel ctx doc = some r) :
    r.2 = { c with tagTypes := r.2.tagTypes } ∧ R c.tagTypes r.2.tagTypes := by
  rw [convertNode] at e
  split at e
  · simp only [Option.some.injEq] at e; subst e; exact ⟨rfl, hR.refl _⟩
  · split at e
    · simp only [Option.some.injEq] at e; subst e; exact ⟨rfl, hR.refl _⟩
    · split at e
      · simp only [Option.some.injEq] at e; subst e; exact ⟨rfl, hR.refl _⟩
      · have hk := renderNodes_keeps hR c fuel
        simp only [Option.bind_eq_some_iff, Option.some.injEq] at e
        obtain ⟨p, e1, st, e2, q, e3, rfl⟩ := e
        refine ⟨rfl, ?_⟩
        have h1 := runPre_keeps (T := ⟨T, c.escaping⟩) hR hk ctx _ _ _ _ e1
        have h2 := hk _ _ _ _ e2
        have h3 := runPost_keeps (T := ⟨T, c.escaping⟩) hR hk ctx _ _ _ _ e3
        exact hR.trans (hR.trans h1 h2) h3

theorem convertNode_keeps {V} {S T} {c : Conv V} {fuel ctx doc r} (e : convertNode S T c fuel ctx doc = some r) : CEq S c r.2 :=
  convertNode_rel (TEq.closed S T) e

end Verif.Engine
