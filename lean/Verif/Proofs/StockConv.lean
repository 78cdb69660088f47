import Verif.Spec.Stock
import Verif.Proofs.Stock
/-!
# Converters with the stock plugins are what they should be
-/

namespace Verif.Stock
open Verif Verif.Engine Verif.TextUtils Verif.Escape Verif.Commonmark Verif.DomUtils Verif.Spec

/-! ## The order of the render handlers -/

/-- For no node both handlers do anything. -/
def Apart (f g : Engine.Render Bool) : Prop := ∀ ctx l, f ctx l = tryNext ∨ g ctx l = tryNext

theorem try_swap {f g : Prio (Engine.Render Bool)} (h : Apart f.value g.value) (hs : List (Prio (Engine.Render Bool))) (S T rn ctx l st) :
    tryHandlers S T rn ctx l (f :: g :: hs) st = tryHandlers S T rn ctx l (g :: f :: hs) st := by
  rcases h ctx l with e | e
  · rw [tryHandlers, e]
    simp only [tryHandlers, e, tryNext, runProg, Option.bind_some, reduceCtorEq, if_false]
  · conv => rhs; rw [tryHandlers, e]
    simp only [tryHandlers, e, tryNext, runProg, Option.bind_some, reduceCtorEq, if_false]

theorem try_cons (f : Prio (Engine.Render Bool)) {a b : List (Prio (Engine.Render Bool))} {S T rn ctx l}
    (h : ∀ st, tryHandlers S T rn ctx l a st = tryHandlers S T rn ctx l b st) (st) :
    tryHandlers S T rn ctx l (f :: a) st = tryHandlers S T rn ctx l (f :: b) st := by
  rw [tryHandlers, tryHandlers]
  simp only [h]

theorem table_commonmark (t : Table.Config) (L : Lib) (cfg : Config.Config) : Apart (tableRender t) (commonmarkRender L cfg) := by
  intro ctx l
  by_cases h1 : l.name = b!"table"
  · exact .inr (by simp only [commonmarkRender, h1]; rfl)
  by_cases h2 : l.name = b!"tr"
  · exact .inr (by simp only [commonmarkRender, h2]; rfl)
  exact .inl (by rw [tableRender, if_neg h1, if_neg h2])

theorem table_strike (t : Table.Config) (d : Bytes) : Apart (tableRender t) (strikeRender d) := by
  intro ctx l
  by_cases h1 : l.name = b!"table"
  · exact .inr (by simp only [strikeRender, h1]; rfl)
  by_cases h2 : l.name = b!"tr"
  · exact .inr (by simp only [strikeRender, h2]; rfl)
  exact .inl (by rw [tableRender, if_neg h1, if_neg h2])

/-! ## The plugins once their options are accepted -/

/-- The plugins. -/
def plug (U : Setup) (d : Bytes) (t : Table.Config) : Kind → Op Bool
  | .base => basePlugin U.lib
  | .commonmark => .plugin b!"commonmark" (commonmarkInit U.lib U.cfg) none
  | .strikethrough => .plugin b!"strikethrough" (strikeInit d) none
  | .table => .plugin b!"table" (tableInit t) none

/-- A converter with these plugins. -/
def conv (U : Setup) (d : Bytes) (t : Table.Config) (kinds : List Kind) : Conv Bool :=
  newConverter [([.escapeMode U.mode], none), withPlugins (kinds.map (plug U d t))]

theorem isChar_eq {l : List Nat} (h1 : (l.all isCommonmarkChar) = true) (h2 : (commonmarkChars.all fun x => l.contains x.toNat) = true)
    {mode : Mode} {hs : List (Prio Handler)} :
    Escaping.escape ⟨mode, l, hs⟩ = escapeContent mode isCommonmarkChar := by
  have : Escaping.isChar ⟨mode, l, hs⟩ = isCommonmarkChar := by
    funext r
    rw [Bool.eq_iff_iff]
    show l.contains r = true ↔ _
    constructor
    · intro h
      exact List.all_eq_true.1 h1 r (by simpa using h)
    · intro h
      obtain ⟨x, hx, e⟩ := List.any_eq_true.1 h
      have := List.all_eq_true.1 h2 x hx
      rw [← eq_of_beq e]
      exact this
  funext content
  rw [Escaping.escape, this]

theorem removes_tags (n : Bytes) {rest : List (Op Bool)} (hr : Spec.tagTypesOfAll n rest = []) : ∀ {names : List Bytes}, names.Nodup →
    Spec.tagTypesOfAll n (names.map (fun m => .tagType m .remove priorityStandard) ++ rest) = if names.contains n then [⟨.remove, 500⟩] else []
  | [], _ => by simpa using hr
  | m :: names, h => by
    rw [List.nodup_cons] at h
    rw [List.map_cons, List.cons_append, Spec.tagTypesOfAll, removes_tags n hr h.2, Spec.tagTypesOf]
    by_cases e : m = n
    · subst e
      simp [h.1, priorityStandard]
    · have : (m :: names).contains n = names.contains n := by
        rw [List.contains_cons]
        have : (n == m) = false := by simpa using fun e' => e e'.symm
        rw [this, Bool.false_or]
      rw [this, if_neg e, List.nil_append]

theorem base_tags (L : Lib) (n : Bytes) : Spec.tagTypesOf n (basePlugin L) = if Render.isRemoved n then [⟨.remove, 500⟩] else [] := by
  rw [basePlugin, Spec.tagTypesOf, if_neg (by decide), baseInit]
  exact removes_tags n rfl (by decide)

theorem plug_tags (U : Setup) (d : Bytes) (t : Table.Config) (n : Bytes) (k : Kind) (hk : k ≠ .base) : Spec.tagTypesOf n (plug U d t k) = [] := by
  cases k <;> first | exact absurd rfl hk | rfl

theorem no_tags (U : Setup) (d : Bytes) (t : Table.Config) (n : Bytes) : ∀ {kinds : List Kind}, .base ∉ kinds →
    Spec.tagTypesOfAll n (kinds.map (plug U d t)) = []
  | [], _ => rfl
  | k :: kinds, h => by
    rw [List.map_cons, Spec.tagTypesOfAll, plug_tags _ _ _ _ _ (fun e => h (by simp [e])), no_tags U d t n (fun e => h (by simp [e]))]
    rfl

theorem all_tags (U : Setup) (d : Bytes) (t : Table.Config) (n : Bytes) : ∀ {kinds : List Kind}, kinds.Nodup → .base ∈ kinds →
    Spec.tagTypesOfAll n (kinds.map (plug U d t)) = if Render.isRemoved n then [⟨.remove, 500⟩] else []
  | [], _, h => by simp at h
  | k :: kinds, hn, h => by
    rw [List.nodup_cons] at hn
    rw [List.map_cons, Spec.tagTypesOfAll]
    by_cases e : k = .base
    · subst e
      rw [no_tags U d t n hn.1, List.append_nil]
      exact base_tags U.lib n
    · rw [plug_tags _ _ _ _ _ e, all_tags U d t n hn.2 (by simpa [Ne.symm e] using h)]
      rfl

theorem kinds_length : ∀ kinds : List Kind,
    kinds.length = kinds.count .base + kinds.count .commonmark + kinds.count .strikethrough + kinds.count .table
  | [] => rfl
  | k :: kinds => by
    have := kinds_length kinds
    cases k <;> simp <;> omega

theorem usual_cases {kinds : List Kind} (h : Usual kinds) : kinds ∈ ([
    [.base, .commonmark], [.commonmark, .base],
    [.base, .commonmark, .strikethrough], [.commonmark, .base, .strikethrough], [.commonmark, .strikethrough, .base],
    [.base, .commonmark, .table], [.commonmark, .base, .table], [.commonmark, .table, .base],
    [.base, .table, .commonmark], [.table, .base, .commonmark], [.table, .commonmark, .base],
    [.base, .commonmark, .strikethrough, .table], [.commonmark, .base, .strikethrough, .table],
    [.commonmark, .strikethrough, .base, .table], [.commonmark, .strikethrough, .table, .base],
    [.base, .commonmark, .table, .strikethrough], [.commonmark, .base, .table, .strikethrough],
    [.commonmark, .table, .base, .strikethrough], [.commonmark, .table, .strikethrough, .base],
    [.base, .table, .commonmark, .strikethrough], [.table, .base, .commonmark, .strikethrough],
    [.table, .commonmark, .base, .strikethrough], [.table, .commonmark, .strikethrough, .base]] : List (List Kind)) := by
  obtain ⟨h1, h2, h3, h4⟩ := h
  have hlen : kinds.length ≤ 4 := by
    rw [kinds_length]
    have := List.nodup_iff_count.1 h1
    have a := this .base; have b := this .commonmark; have c := this .strikethrough; have d := this .table
    omega
  match kinds, hlen with
  | [], _ => simp at h2
  | [a], _ => revert h1 h2 h3 h4; cases a <;> decide
  | [a, b], _ => revert h1 h2 h3 h4; cases a <;> cases b <;> decide
  | [a, b, c], _ => revert h1 h2 h3 h4; cases a <;> cases b <;> cases c <;> decide
  | [a, b, c, d], _ => revert h1 h2 h3 h4; cases a <;> cases b <;> cases c <;> cases d <;> decide
  | _ :: _ :: _ :: _ :: _ :: _, h => exact absurd h (by simp)

/-- The settings with these plugins. -/
def setup (U : Setup) (d : Bytes) (t : Table.Config) (kinds : List Kind) : Setup :=
  { U with strike := if .strikethrough ∈ kinds then some d else none, table := if .table ∈ kinds then some t else none }

theorem conv_tags (U : Setup) (d : Bytes) (t : Table.Config) {kinds : List Kind} (h : Usual kinds) (n : Bytes) :
    (conv U d t kinds).tagTypes n = if Render.isRemoved n then [⟨.remove, 500⟩] else [] := by
  show (applyAll (applyAll {} [.escapeMode U.mode]) (kinds.map (plug U d t))).tagTypes n = _
  rw [applyAll_tagTypes, all_tags U d t n h.once h.base]
  rfl

theorem ours_unEscape (S : GoSort) (U : Setup) {l : List Nat} {hs : List Handler} (hh : hs = Render.handlers U.env) :
    Escaping.unEscape S ⟨U.mode, l, hs.map fun h => ⟨h, 500⟩⟩ = unEscapeContent U.mode (Render.handlers U.env) := by
  funext content
  rw [Escaping.unEscape, S.sorted _ (by simp only [Ascending, List.pairwise_map]; exact List.pairwise_of_forall fun _ _ => Int.le_refl _), List.map_map]
  have : ((fun x : Prio Handler => x.value) ∘ fun h => (⟨h, 500⟩ : Prio Handler)) = id := rfl
  rw [this, List.map_id, hh]

/-! ### What the plugins register -/

/-- What a plugin adds to a converter. -/
structure Parts where
  pre : List (Prio (Engine.PreRender Bool)) := []
  renderers : List (Prio (Engine.Render Bool)) := []
  post : List (Prio (Engine.PostRender Bool)) := []
  text : List (Prio (TextTransform Bool)) := []
  chars : List Nat := []
  unEscapers : List Handler := []

def parts (U : Setup) (d : Bytes) (t : Table.Config) : Kind → Parts
  | .base => {
      pre := [⟨removeNodes, 100⟩, ⟨collapseNodes U.lib, 1000⟩]
      post := [⟨trimContent, 500⟩, ⟨unEscapeResult, 520⟩]
      text := [⟨baseText, 500⟩] }
  | .commonmark => {
      pre := [⟨commonmarkPre U.lib, 500⟩, ⟨listEndComments U.cfg, 1100⟩]
      renderers := [⟨commonmarkRender U.lib U.cfg, 500⟩]
      post := [⟨codeNewlines, 1000⟩]
      text := [⟨commonmarkText, 1000⟩]
      chars := commonmarkChars.map UInt8.toNat
      unEscapers := commonmarkHandlers U.lib.isDigit }
  | .strikethrough => {
      pre := [⟨strikePre, 500⟩]
      renderers := [⟨strikeRender d, 500⟩]
      chars := [126]
      unEscapers := [isStrikethrough] }
  | .table => {
      renderers := [⟨tableRender t, 500⟩]
      chars := [124] }

/-- The converter has these parts more. -/
structure More (c c' : Conv Bool) (name : Bytes) (p : Parts) : Prop where
  err : c'.err = c.err
  plugins : c'.plugins = c.plugins ++ [name]
  pre : c'.pre = c.pre ++ p.pre
  renderers : c'.renderers = c.renderers ++ p.renderers
  post : c'.post = c.post ++ p.post
  text : c'.text = c.text ++ p.text
  mode : c'.escaping.mode = c.escaping.mode
  chars : c'.escaping.markdownChars = c.escaping.markdownChars ++ p.chars
  unEscapers : c'.escaping.unEscapers = c.escaping.unEscapers ++ p.unEscapers.map fun h => ⟨h, 500⟩

def kindName : Kind → Bytes
  | .base => b!"base"
  | .commonmark => b!"commonmark"
  | .strikethrough => b!"strikethrough"
  | .table => b!"table"

theorem apply_plug (U : Setup) (d : Bytes) (t : Table.Config) (c : Conv Bool) (k : Kind) :
    More c (apply c (plug U d t k)) (kindName k) (parts U d t k) := by
  cases k
  · constructor <;> simp [plug, basePlugin, baseInit, baseRemoves, apply, applyAll, parts, kindName, priorityStandard, priorityEarly, priorityLate]
  · constructor <;> simp [plug, commonmarkInit, apply, applyAll, parts, kindName, commonmarkHandlers, priorityStandard, priorityEarly, priorityLate]
  · constructor <;> simp [plug, strikeInit, apply, applyAll, parts, kindName, priorityStandard, priorityEarly, priorityLate]
  · constructor <;> simp [plug, tableInit, apply, applyAll, parts, kindName, priorityStandard, priorityEarly, priorityLate]

theorem applyAll_plug (U : Setup) (d : Bytes) (t : Table.Config) : ∀ (kinds : List Kind) (c : Conv Bool),
    let c' := applyAll c (kinds.map (plug U d t))
    c'.err = c.err ∧ c'.plugins = c.plugins ++ kinds.map kindName ∧ c'.pre = c.pre ++ kinds.flatMap (fun k => (parts U d t k).pre) ∧
    c'.renderers = c.renderers ++ kinds.flatMap (fun k => (parts U d t k).renderers) ∧
    c'.post = c.post ++ kinds.flatMap (fun k => (parts U d t k).post) ∧
    c'.text = c.text ++ kinds.flatMap (fun k => (parts U d t k).text) ∧
    c'.escaping.mode = c.escaping.mode ∧
    c'.escaping.markdownChars = c.escaping.markdownChars ++ kinds.flatMap (fun k => (parts U d t k).chars) ∧
    c'.escaping.unEscapers = c.escaping.unEscapers ++ (kinds.flatMap (fun k => (parts U d t k).unEscapers)).map fun h => ⟨h, 500⟩
  | [], c => by simp [applyAll]
  | k :: kinds, c => by
    have ih := applyAll_plug U d t kinds (apply c (plug U d t k))
    have h := apply_plug U d t c k
    simp only [List.map_cons, applyAll, List.flatMap_cons, List.map_append] at ih ⊢
    rw [h.err, h.plugins, h.pre, h.renderers, h.post, h.text, h.mode, h.chars, h.unEscapers] at ih
    simpa [List.append_assoc] using ih

section
variable (S : GoSort) (U : Setup) (d : Bytes) (t : Table.Config) {kinds : List Kind} (h : Usual kinds)

theorem sort_same {α : Type} {l : List (Prio α)} (hl : ∀ x ∈ l, x.priority = 500) : S.sort l = l := by
  refine S.sorted _ ?_
  rw [Ascending, List.pairwise_iff_forall_sublist]
  intro a b hab
  rw [hl a (hab.subset (by simp)), hl b (hab.subset (by simp))]
  exact Int.le_refl _

include h

theorem conv_renderers (T rn ctx l st) :
    tryHandlers S T rn ctx l (S.sort (kinds.flatMap fun k => (parts U d t k).renderers)) st =
      tryHandlers S T rn ctx l (⟨commonmarkRender U.lib U.cfg, 500⟩ :: ((setup U d t kinds).strike.toList.map (fun d => ⟨strikeRender d, 500⟩) ++
        (setup U d t kinds).table.toList.map fun t => ⟨tableRender t, 500⟩)) st := by
  rw [sort_same S (by
    intro x hx
    obtain ⟨k, _, hk⟩ := List.mem_flatMap.1 hx
    cases k <;> simp [parts] at hk <;> simp [hk])]
  have tc := fun hs st => try_swap (f := ⟨tableRender t, 500⟩) (g := ⟨commonmarkRender U.lib U.cfg, 500⟩) (table_commonmark t U.lib U.cfg) hs S T rn ctx l st
  have ts := fun hs st => try_swap (f := ⟨tableRender t, 500⟩) (g := ⟨strikeRender d, 500⟩) (table_strike t d) hs S T rn ctx l st
  have hcase := usual_cases h
  simp only [List.mem_cons, List.not_mem_nil, or_false] at hcase
  clear h
  rcases hcase with h | h | h | h | h | h | h | h | h | h | h | h | h | h | h | h | h | h | h | h | h | h | h <;> subst h <;>
  first
  | rfl
  | exact tc [] st
  | exact try_cons _ (ts []) st
  | exact (tc _ st).trans (try_cons _ (ts []) st)

theorem conv_pre : S.sort (kinds.flatMap fun k => (parts U d t k).pre) = [⟨removeNodes, 100⟩, ⟨commonmarkPre U.lib, 500⟩] ++
    ((setup U d t kinds).strike.toList.map fun _ => ⟨strikePre, 500⟩) ++ [⟨collapseNodes U.lib, 1000⟩, ⟨listEndComments U.cfg, 1100⟩] := by
  have hcase := usual_cases h
  simp only [List.mem_cons, List.not_mem_nil, or_false] at hcase
  clear h
  rcases hcase with h | h | h | h | h | h | h | h | h | h | h | h | h | h | h | h | h | h | h | h | h | h | h <;> subst h <;>
  (rw [S.small _ (Nat.le_of_ble_eq_true rfl)]; rfl)

theorem conv_post : S.sort (kinds.flatMap fun k => (parts U d t k).post) = [⟨trimContent, 500⟩, ⟨unEscapeResult, 520⟩, ⟨codeNewlines, 1000⟩] := by
  have hcase := usual_cases h
  simp only [List.mem_cons, List.not_mem_nil, or_false] at hcase
  clear h
  rcases hcase with h | h | h | h | h | h | h | h | h | h | h | h | h | h | h | h | h | h | h | h | h | h | h <;> subst h <;>
  (rw [S.small _ (Nat.le_of_ble_eq_true rfl)]; rfl)

theorem conv_text : S.sort (kinds.flatMap fun k => (parts U d t k).text) = [⟨baseText, 500⟩, ⟨commonmarkText, 1000⟩] := by
  have hcase := usual_cases h
  simp only [List.mem_cons, List.not_mem_nil, or_false] at hcase
  clear h
  rcases hcase with h | h | h | h | h | h | h | h | h | h | h | h | h | h | h | h | h | h | h | h | h | h | h <;> subst h <;>
  (rw [S.small _ (Nat.le_of_ble_eq_true rfl)]; rfl)

theorem conv_unEscapers : (kinds.flatMap fun k => (parts U d t k).unEscapers) = Render.handlers (setup U d t kinds).env := by
  have hcase := usual_cases h
  simp only [List.mem_cons, List.not_mem_nil, or_false] at hcase
  clear h
  rcases hcase with h | h | h | h | h | h | h | h | h | h | h | h | h | h | h | h | h | h | h | h | h | h | h <;> subst h <;> rfl

theorem conv_escape (hs : List (Prio Handler)) (mode : Mode) :
    Escaping.escape ⟨mode, kinds.flatMap fun k => (parts U d t k).chars, hs⟩ = escapeContent mode isCommonmarkChar := by
  refine isChar_eq ?_ ?_
  · rw [List.all_eq_true]
    intro x hx
    obtain ⟨k, _, hk⟩ := List.mem_flatMap.1 hx
    cases k with
    | base => simp [parts] at hk
    | commonmark => exact List.all_eq_true.1 (show ((commonmarkChars.map UInt8.toNat).all isCommonmarkChar) = true by decide) x hk
    | strikethrough => exact List.all_eq_true.1 (show (([126] : List Nat).all isCommonmarkChar) = true by decide) x hk
    | table => exact List.all_eq_true.1 (show (([124] : List Nat).all isCommonmarkChar) = true by decide) x hk
  · rw [List.all_eq_true]
    intro x hx
    rw [List.contains_iff_mem, List.mem_flatMap]
    exact ⟨.commonmark, h.commonmark, List.mem_map_of_mem hx⟩

theorem conv_ok : IsConv S (setup U d t kinds) (fun _ => True) (conv U d t kinds) := by
  have hall := applyAll_plug U d t kinds (applyAll {} [.escapeMode U.mode])
  rw [show applyAll (applyAll {} [.escapeMode U.mode]) (kinds.map (plug U d t)) = conv U d t kinds from rfl] at hall
  obtain ⟨h1, h2, h3, h4, h5, h6, h7, h8, h9⟩ := hall
  have hesc : (conv U d t kinds).escaping = ⟨U.mode, kinds.flatMap fun k => (parts U d t k).chars,
      (kinds.flatMap (fun k => (parts U d t k).unEscapers)).map fun h => ⟨h, 500⟩⟩ := by
    revert h7 h8 h9
    cases (conv U d t kinds).escaping
    intro h7 h8 h9
    simp only at h7 h8 h9
    subst h7 h8 h9
    rfl
  refine { err := h1, base := ?_, renders := ?_, pre := ?_, post := ?_, renderers := ?_, text := ?_, tagTypes := fun n _ => conv_tags U d t h n, marks := ⟨trivial, trivial, trivial, trivial⟩, escape := ?_, unEscape := ?_ }
  · intro T rn ctx l st _
    rw [h4]
    exact conv_renderers S U d t h T rn ctx l st
  · rw [h6]; exact conv_text S U d t h
  · rw [hesc]; exact conv_escape U d t h _ _
  · rw [hesc]; exact ours_unEscape S (setup U d t kinds) (conv_unEscapers U d t h)
  · rw [h2, List.contains_iff_mem]
    exact List.mem_append.2 (.inr (List.mem_map.2 ⟨.base, h.base, rfl⟩))
  · rw [h4]
    intro e
    have := (List.append_eq_nil_iff.1 e).2
    rw [List.flatMap_eq_nil_iff] at this
    exact absurd (this .commonmark h.commonmark) (by simp [parts])
  · rw [h3]; exact conv_pre S U d t h
  · rw [h5]; exact conv_post S U d t h
end

end Verif.Stock
