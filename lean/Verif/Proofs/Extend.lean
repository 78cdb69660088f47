import Verif.Spec.Extend
import Verif.Proofs.StockConv
/-!
# Registrations for some tags, proofs
-/

namespace Verif.Stock
open Verif Verif.Engine Verif.DomUtils Verif.Dom Verif.Spec

/-! ## Handlers of which at most one does anything -/

/-- Of two handlers at most one does anything for the node. -/
def Calm (ctx : Ctx Bool) (l : Loc) (f g : Prio (Engine.Render Bool)) : Prop := f.value ctx l = tryNext ∨ g.value ctx l = tryNext

section
variable {S : GoSort} {T : World} {rn : Ctx Bool → List Loc → St Bool → Option (St Bool)} {ctx : Ctx Bool} {l : Loc}

theorem try_skip {f : Prio (Engine.Render Bool)} (h : f.value ctx l = tryNext) (hs : List (Prio (Engine.Render Bool))) (st : St Bool) :
    tryHandlers S T rn ctx l (f :: hs) st = tryHandlers S T rn ctx l hs st := by
  rw [tryHandlers, h]
  simp only [tryNext, runProg, Option.bind_some, reduceCtorEq, if_false]

theorem try_perm {a b : List (Prio (Engine.Render Bool))} (h : a.Perm b) (hp : a.Pairwise (Calm ctx l)) :
    ∀ st, tryHandlers S T rn ctx l a st = tryHandlers S T rn ctx l b st := by
  induction h with
  | nil => intro st; rfl
  | cons x h ih => intro st; exact try_cons x (ih (List.pairwise_cons.1 hp).2) st
  | swap x y a =>
    intro st
    have := (List.pairwise_cons.1 hp).1 x (by simp)
    rcases this with e | e
    · rw [try_skip e]
      exact (try_cons x (try_skip e a) st).symm
    · rw [try_skip (f := x) e]
      exact try_cons y (try_skip e a) st
  | trans h1 h2 ih1 ih2 =>
    intro st
    rw [ih1 hp, ih2 (hp.perm h1 (fun h => h.symm))]

theorem try_rest : ∀ {a b : List (Prio (Engine.Render Bool))}, (∀ r ∈ b, r.value ctx l = tryNext) →
    ∀ st, tryHandlers S T rn ctx l (a ++ b) st = tryHandlers S T rn ctx l a st
  | [], [], _, st => rfl
  | [], r :: b, h, st => by
    rw [List.nil_append, try_skip (h r (by simp))]
    exact try_rest (a := []) (fun r hr => h r (by simp [hr])) st
  | f :: a, b, h, st => try_cons f (try_rest h) st
end

/-! ## More registrations -/

/-- A converter with more renderers and tag types for these names. -/
structure Extends (names : List Bytes) (c c' : Conv Bool) : Prop where
  err : c'.err = c.err
  plugins : ∃ ps, c'.plugins = c.plugins ++ ps
  pre : c'.pre = c.pre
  renderers : ∃ rs, c'.renderers = c.renderers ++ rs ∧ ∀ r ∈ rs, ∀ ctx l, l.name ∉ names → r.value ctx l = tryNext
  post : c'.post = c.post
  text : c'.text = c.text
  tagTypes : ∀ n, n ∉ names → c'.tagTypes n = c.tagTypes n
  escaping : c'.escaping = c.escaping

theorem extends_refl (names : List Bytes) (c : Conv Bool) : Extends names c c :=
  ⟨rfl, ⟨[], by simp⟩, rfl, ⟨[], by simp, by simp⟩, rfl, rfl, fun _ _ => rfl, rfl⟩

theorem Extends.trans {names : List Bytes} {a b c : Conv Bool} (h : Extends names a b) (k : Extends names b c) : Extends names a c := by
  obtain ⟨ps, hp⟩ := h.plugins
  obtain ⟨qs, hq⟩ := k.plugins
  obtain ⟨rs, hr, hr'⟩ := h.renderers
  obtain ⟨ss, hs, hs'⟩ := k.renderers
  refine ⟨k.err.trans h.err, ⟨ps ++ qs, by rw [hq, hp, List.append_assoc]⟩, k.pre.trans h.pre, ⟨rs ++ ss, by rw [hs, hr, List.append_assoc], ?_⟩,
    k.post.trans h.post, k.text.trans h.text, fun n hn => (k.tagTypes n hn).trans (h.tagTypes n hn), k.escaping.trans h.escaping⟩
  intro r hr
  rcases List.mem_append.1 hr with h | h
  · exact hr' r h
  · exact hs' r h

theorem addTagType_other {m : TagTypes} {name n : Bytes} {t : TagType} {p : Int} {names : List Bytes} (h : name ∈ names) (hn : n ∉ names) :
    addTagType m name t p n = m n := by
  rw [addTagType, if_neg (fun e : n = name => hn (by rw [e]; exact h))]

theorem applyAll_extends' {names : List Bytes} : ∀ {ops : List (Op Bool)}, (∀ op ∈ ops, ∀ c, Extends names c (apply c op)) →
    ∀ c, Extends names c (applyAll c ops)
  | [], _, c => by rw [applyAll]; exact extends_refl names c
  | op :: ops, h, c => by
    rw [applyAll]
    exact (h op (by simp) c).trans (applyAll_extends' (fun op hop => h op (by simp [hop])) _)

theorem apply_extends {names : List Bytes} {op : Op Bool} (h : Concerns names op) : ∀ c, Extends names c (apply c op) := by
  induction h with
  | tagType t p hn =>
    intro c
    rw [apply]
    exact ⟨rfl, ⟨[], by simp⟩, rfl, ⟨[], by simp, by simp⟩, rfl, rfl, fun n h => addTagType_other hn h, rfl⟩
  | rendererFor t h p hn =>
    intro c
    rw [apply]
    refine ⟨rfl, ⟨[], by simp⟩, rfl, ⟨[_], rfl, ?_⟩, rfl, rfl, fun n h => addTagType_other hn h, rfl⟩
    intro r hr ctx l hl
    rw [List.mem_singleton.1 hr]
    simp only [onlyFor]
    rw [if_neg (fun e => hl (by rw [e]; exact hn))]
    rfl
  | renderer p hh =>
    intro c
    rw [apply]
    refine ⟨rfl, ⟨[], by simp⟩, rfl, ⟨[_], rfl, ?_⟩, rfl, rfl, fun n h => rfl, rfl⟩
    intro r hr ctx l hl
    rw [List.mem_singleton.1 hr]
    exact hh ctx l hl
  | @plugin plugin init hp hi ih =>
    intro c
    rw [apply, if_neg hp]
    refine Extends.trans (b := { c with plugins := c.plugins ++ [plugin] }) ?_ (applyAll_extends' ih _)
    exact ⟨rfl, ⟨[_], rfl⟩, rfl, ⟨[], by simp, by simp⟩, rfl, rfl, fun _ _ => rfl, rfl⟩

theorem applyAll_extends {names : List Bytes} {ops : List (Op Bool)} (h : ∀ op ∈ ops, Concerns names op) (c : Conv Bool) :
    Extends names c (applyAll c ops) := applyAll_extends' (fun op hop => apply_extends (h op hop)) c

theorem strike_commonmark (d : Bytes) (L : Lib) (cfg : Config.Config) : Apart (strikeRender d) (commonmarkRender L cfg) := by
  intro ctx l
  by_cases h : Render.isStrike l.name = true
  · refine .inr ?_
    have : l.name = b!"del" ∨ l.name = b!"s" ∨ l.name = b!"strike" := by
      simpa [Render.isStrike] using h
    rcases this with e | e | e <;> (simp only [commonmarkRender, e]; rfl)
  · exact .inl (by rw [strikeRender, if_neg h])

/-- The handlers of the plugins are for different nodes. -/
theorem parts_apart (U : Setup) (d : Bytes) (t : Table.Config) {j k : Kind} (h : j ≠ k) : ∀ f ∈ (parts U d t j).renderers,
    ∀ g ∈ (parts U d t k).renderers, ∀ ctx l, Calm ctx l f g := by
  cases j <;> cases k <;> first | exact absurd rfl h | skip
  all_goals
    intro f hf g hg ctx l
    simp only [parts, List.mem_singleton, List.not_mem_nil] at hf hg
  all_goals
    subst hf hg
  · exact (strike_commonmark d U.lib U.cfg ctx l).symm
  · exact (table_commonmark t U.lib U.cfg ctx l).symm
  · exact strike_commonmark d U.lib U.cfg ctx l
  · exact (table_strike t d ctx l).symm
  · exact table_commonmark t U.lib U.cfg ctx l
  · exact table_strike t d ctx l

theorem parts_calm (U : Setup) (d : Bytes) (t : Table.Config) (ctx : Ctx Bool) (l : Loc) : ∀ {kinds : List Kind}, kinds.Nodup →
    (kinds.flatMap fun k => (parts U d t k).renderers).Pairwise (Calm ctx l)
  | [], _ => by simp
  | k :: kinds, h => by
    rw [List.nodup_cons] at h
    rw [List.flatMap_cons, List.pairwise_append]
    refine ⟨?_, parts_calm U d t ctx l h.2, ?_⟩
    · cases k <;> simp [parts]
    · intro f hf g hg
      obtain ⟨j, hj, hg⟩ := List.mem_flatMap.1 hg
      exact parts_apart U d t (fun e => h.1 (by rw [e]; exact hj)) f hf g hg ctx l

theorem ext_ok (S : GoSort) (U : Setup) (d : Bytes) (t : Table.Config) {kinds : List Kind} (h : Usual kinds) {names : List Bytes}
    {c : Conv Bool} (hx : Extends names (conv U d t kinds) c) (hm : Marks fun n => n ∉ names) :
    IsConv S (setup U d t kinds) (fun n => n ∉ names) c := by
  have hc := conv_ok S U d t h
  obtain ⟨rs, hr, hr'⟩ := hx.renderers
  have h4 : (conv U d t kinds).renderers = kinds.flatMap fun k => (parts U d t k).renderers :=
    (applyAll_plug U d t kinds (applyAll {} [.escapeMode U.mode])).2.2.2.1
  refine { err := hx.err.trans hc.err, base := ?_, renders := ?_, pre := ?_, post := ?_, renderers := ?_, text := ?_, tagTypes := ?_, marks := hm, escape := ?_, unEscape := ?_ }
  · intro T rn ctx l st hl
    rw [← hc.renderers T rn ctx l st trivial, h4, hr, h4]
    have hcalm : ((kinds.flatMap fun k => (parts U d t k).renderers) ++ rs).Pairwise (Calm ctx l) := by
      rw [List.pairwise_append]
      exact ⟨parts_calm U d t ctx l h.once, List.pairwise_of_forall_mem_list fun a ha b hb => .inl (hr' a ha ctx l hl), fun a _ b hb => .inr (hr' b hb ctx l hl)⟩
    rw [try_perm (S.perm _) (hcalm.perm (S.perm _).symm fun h => h.symm), try_rest (fun r hr => hr' r hr ctx l hl),
      try_perm (S.perm _) ((parts_calm U d t ctx l h.once).perm (S.perm _).symm fun h => h.symm)]
  · rw [hx.text]; exact hc.text
  · intro n hn
    rw [hx.tagTypes n hn]; exact hc.tagTypes n trivial
  · rw [hx.escaping]; exact hc.escape
  · rw [hx.escaping]; exact hc.unEscape
  · obtain ⟨ps, hp⟩ := hx.plugins
    have := hc.base
    rw [List.contains_iff_mem] at this ⊢
    rw [hp]
    exact List.mem_append.2 (.inl this)
  · rw [hr]
    intro e
    exact hc.renders (List.append_eq_nil_iff.1 e).1
  · rw [hx.pre]; exact hc.pre
  · rw [hx.post]; exact hc.post

/-! ## Trees without these names -/

theorem ok_of_names {names : List Bytes} : (∀ n, noDocument n = true → (∀ m ∈ elementNames n, m ∉ names) → ok (only fun n => n ∉ names) false n) ∧
    (∀ ns, noDocumentL ns = true → (∀ m ∈ elementNamesL ns, m ∉ names) → okL (only fun n => n ∉ names) ns) := by
  apply induct
  · intro d _ _; trivial
  · intro d _ _; trivial
  · intro d _ _; trivial
  · intro cs ih h _; simp [noDocument] at h
  · intro n a cs ih h hn
    rw [elementNames] at hn
    exact ⟨hn n (by simp), trivial, fun h => h.elim, ih (by simpa [noDocument] using h) fun m hm => hn m (by simp [hm])⟩
  · intro _ _; trivial
  · intro n ns h1 h2 h hn
    rw [elementNamesL] at hn
    rw [noDocumentL, Bool.and_eq_true] at h
    exact ⟨h1 h.1 fun m hm => hn m (by simp [hm]), h2 h.2 fun m hm => hn m (by simp [hm])⟩

theorem without_ok {names : List Bytes} {doc : Node} (h : Without names doc) : ok (only fun n => n ∉ names) true doc := by
  have hn := h.absent
  have ht := h.tree
  cases doc with
  | document cs => exact ⟨rfl, ok_of_names.2 _ ht hn⟩
  | elem n a cs =>
    rw [elementNames] at hn
    exact ⟨hn n (by simp), trivial, fun h => h.elim, ok_of_names.2 _ ht fun m hm => hn m (by simp [hm])⟩
  | _ => trivial

theorem without_marks {names : List Bytes} {doc : Node} (h : Without names doc) : (Marks fun n => n ∉ names) ∧ Made fun n => n ∉ names :=
  ⟨⟨h.made _ (by simp [madeNames]), h.made _ (by simp [madeNames]), h.made _ (by simp [madeNames]), h.made _ (by simp [madeNames])⟩,
   ⟨h.made _ (by simp [madeNames]), h.made _ (by simp [madeNames]), h.made _ (by simp [madeNames]), h.made _ (by simp [madeNames]),
    h.made _ (by simp [madeNames]), h.made _ (by simp [madeNames])⟩⟩

end Verif.Stock
