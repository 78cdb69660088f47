import Verif.Model.Convert
import Verif.Props.Everyday
/-!
# C90: the functions that convert agree, and the last option counts
-/

namespace Verif.Props
open Verif Verif.Engine Verif.Convert

variable {V : Type} (S : GoSort) (T : NameTables) (parse : Reader → Except Bytes Node)

/-! ## Specification -/

/-- The domain that the last `WithDomain` gives; without one it is empty. -/
def lastDomain (opts : List (Opt V)) : Bytes :=
  (opts.filterMap fun | .withDomain d => some d | _ => none).getLast?.getD []

/-- The values of the context that the last `WithContext` gives; without one (or with nil) there are none. -/
def lastValues (opts : List (Opt V)) : Bytes → Option V :=
  match (opts.filterMap fun | .withContext c => some c | _ => none).getLast? with
  | some (some c) => c.values
  | _ => fun _ => none

/-! ## Theorems -/

theorem settings_append (opts : List (Opt V)) (o : Opt V) : settings (opts ++ [o]) = Opt.apply (settings opts) o := by
  rw [settings, List.foldl_append]; rfl

/-- **C90**: the handlers of a conversion get the domain of the last `WithDomain` and the values of the last `WithContext`, whatever else there is,
in any order. -/
theorem c90_last_option (opts : List (Opt V)) :
    (context (settings opts)).domain = lastDomain opts ∧ (context (settings opts)).values = lastValues opts := by
  have key : (settings opts).domain = lastDomain opts ∧
      (settings opts).context = (opts.filterMap fun | .withContext c => some c | _ => none).getLast?.join := by
    have gen : ∀ r : List (Opt V), (settings r.reverse).domain = lastDomain r.reverse ∧
        (settings r.reverse).context = (r.reverse.filterMap fun | .withContext c => some c | _ => none).getLast?.join := by
      intro r
      induction r with
      | nil => exact ⟨rfl, rfl⟩
      | cons o r ih =>
        rw [List.reverse_cons, settings_append]
        cases o with
        | withContext c => exact ⟨by simpa [Opt.apply, lastDomain] using ih.1, by simp [Opt.apply]⟩
        | withDomain d => exact ⟨by simp [Opt.apply, lastDomain], by simpa [Opt.apply] using ih.2⟩
    simpa using gen opts.reverse
  refine ⟨key.1, ?_⟩
  rw [context, lastValues, key.2]
  generalize (opts.filterMap fun | .withContext c => some c | _ => none).getLast? = x
  rcases x with _ | _ | c <;> rfl

/-- **C90**: what can be parsed is converted as by `ConvertNode` with the parsed tree, by `ConvertReader` and by `ConvertString`. -/
theorem c90_agree (c : Conv V) (fuel : Nat) (opts : List (Opt V)) {r : Reader} {doc : Node} (h : parse r = .ok doc) :
    convertReader S T parse c fuel r opts = Convert.convertNode S T c fuel doc opts ∧
      (r.err = none → convertString S T parse c fuel r.bytes opts = Convert.convertNode S T c fuel doc opts) := by
  have h1 : convertReader S T parse c fuel r opts = Convert.convertNode S T c fuel doc opts := by rw [convertReader, h]
  refine ⟨h1, fun he => ?_⟩
  have : ({ bytes := r.bytes } : Reader) = r := by cases r; simp_all
  rw [convertString, this, h1, Convert.convertNode]
  cases Engine.convertNode S T c fuel (context (settings opts)) doc with
  | none => rfl
  | some x => rcases x with ⟨_ | _, _⟩ <;> rfl

/-- **C90**: an error of the reader or the parser is returned, also by a converter that is misconfigured, and nothing is converted. -/
theorem c90_parse_error (c : Conv V) (fuel : Nat) (opts : List (Opt V)) {r : Reader} {e : Bytes} (h : parse r = .error e) :
    convertReader S T parse c fuel r opts = some (([], some (.parse e)), c) ∧
      (r.err = none → convertString S T parse c fuel r.bytes opts = some (([], some (.parse e)), c)) := by
  have h1 : convertReader S T parse c fuel r opts = some (([], some (.parse e)), c) := by rw [convertReader, h]
  refine ⟨h1, fun he => ?_⟩
  have : ({ bytes := r.bytes } : Reader) = r := by cases r; simp_all
  rw [convertString, this, h1]; rfl

/-- **C90**: with an error there is no output, and `ConvertNode` returns what the conversion gives, otherwise. -/
theorem c90_error_or_output (c : Conv V) (fuel : Nat) (opts : List (Opt V)) (doc : Node) {out : Bytes} {err : Option Error} {c' : Conv V} :
    Convert.convertNode S T c fuel doc opts = some ((out, err), c') ↔
      (err = none ∧ Engine.convertNode S T c fuel { domain := lastDomain opts, values := lastValues opts } doc = some (.ok out, c')) ∨
      (out = [] ∧ ∃ e, err = some (.convert e) ∧
        Engine.convertNode S T c fuel { domain := lastDomain opts, values := lastValues opts } doc = some (.error e, c')) := by
  have hctx : context (settings opts) = { domain := lastDomain opts, values := lastValues opts } := by
    have := c90_last_option opts
    rw [← this.1, ← this.2]
  rw [Convert.convertNode, hctx]
  cases Engine.convertNode S T c fuel { domain := lastDomain opts, values := lastValues opts } doc with
  | none => simp
  | some x =>
    rcases x with ⟨e | o, c2⟩
    · simp only [Option.map_some, Option.some.injEq, Prod.mk.injEq, Except.error.injEq, reduceCtorEq, false_and, and_false, false_or]
      grind
    · simp only [Option.map_some, Option.some.injEq, Prod.mk.injEq, Except.ok.injEq, reduceCtorEq, false_and, and_false, or_false, exists_false]
      grind

/-- **C90** and C89 for the functions of the package: `ConvertString` returns for every input that is parsed as a page complete Markdown and no
error, and so do `ConvertReader` and `ConvertNode`; it is the same Markdown. -/
theorem c90_package {L : Stock.Lib} {opts : List (Opt Bool)} (hctx : lastValues opts b!"is_inside_link" ≠ some true)
    (ha : ∀ u, Spec.Utf8 u → Spec.Utf8 (L.assemble (lastDomain opts) u)) {input : Bytes} {doc : Node} (h : parse ⟨input, none⟩ = .ok doc) (hp : Spec.Page doc) :
    ∃ md, Complete (Spec.pageChars doc) md ∧ ∃ n, ∀ fuel, n ≤ fuel → packageNode S L fuel doc opts = some (md, none) ∧
      packageReader S L parse fuel ⟨input, none⟩ opts = some (md, none) ∧ packageString S L parse fuel input opts = some (md, none) := by
  obtain ⟨md, hc, n, hn⟩ := c89_package S (L := L) (ctx := { domain := lastDomain opts, values := lastValues opts }) hctx ha hp
  refine ⟨md, hc, n, fun fuel hf => ?_⟩
  have h1 := (c90_error_or_output S L.tables (Stock.defaultConverter L) fuel opts doc (out := md) (err := none)).2 (.inl ⟨rfl, hn fuel hf⟩)
  have h2 := c90_agree S L.tables parse (Stock.defaultConverter L) fuel opts h
  refine ⟨by rw [packageNode, h1]; rfl, by rw [packageReader, h2.1, h1]; rfl, ?_⟩
  have := h2.2 rfl
  dsimp only at this
  rw [packageString, this, h1]; rfl

/-! ### Beside the theorems -/

example : lastDomain [.withDomain b!"a", .withContext none, .withDomain b!"b", .withContext (some { domain := b!"c", values := fun _ => some 1 })] = b!"b" ∧
    lastValues [.withContext (some { values := fun _ => some 2 }), .withDomain b!"b", .withContext (some { domain := b!"c", values := fun _ => some 1 })] b!"k" = some 1 ∧
    lastValues [.withContext (some { values := fun _ => some 2 }), .withContext none] b!"k" = none := ⟨rfl, rfl, rfl⟩
/-- A parser that cannot read one input, and one that reads a page. -/
def demoParse : Reader → Except Bytes Node := fun r => if r.err = none then .ok demoPage else .error b!"broken pipe"
example : demoParse ⟨b!"<p>", some b!"x"⟩ = .error b!"broken pipe" ∧ demoParse ⟨b!"<p>", none⟩ = .ok demoPage := ⟨rfl, rfl⟩
/-- A misconfigured converter: the error of the parser comes first. -/
example (c : Conv Bool) : convertReader S T demoParse { c with err := some .noName } 3 ⟨b!"<p>", some b!"x"⟩ [] =
    some (([], some (.parse b!"broken pipe")), { c with err := some .noName }) := (c90_parse_error S T demoParse _ 3 [] rfl).1
example : ∃ md, Complete (Spec.pageChars demoPage) md ∧ ∃ n, ∀ fuel, n ≤ fuel → packageNode S demoLib fuel demoPage [] = some (md, none) ∧
    packageReader S demoLib demoParse fuel ⟨b!"x", none⟩ [] = some (md, none) ∧ packageString S demoLib demoParse fuel b!"x" [] = some (md, none) :=
  c90_package S demoParse (by simp [lastValues]) (fun _ hu => by exact hu) rfl demoPage_ok

end Verif.Props
