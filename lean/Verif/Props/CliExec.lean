import Verif.Model.CliExec
import Verif.Props.Cli
/-!
# Property C86: exit code, output and messages of the command line tool
-/

namespace Verif.Props
open Verif Verif.Cli Verif.Spec

variable (scr : Screen) (env : Env)

/-- What is converted is only printed if everything went well. -/
theorem processGo_err (cfg : Config) : ∀ (jobs : List (Input × Bytes)) (fs : FS), jobs.length ≤ 1 → (processGo env cfg .stdout fs jobs).err ≠ none →
    (processGo env cfg .stdout fs jobs).stdout = []
  | [], _, _, _ => rfl
  | (i, name) :: rest, fs, hl, h => by
    have : rest = [] := List.eq_nil_of_length_eq_zero (by rw [List.length_cons] at hl; omega)
    subst this
    rcases processGo_cons env cfg .stdout fs i name [] with ⟨e, h2⟩ | ⟨data, md, _, _, ⟨_, h2⟩ | ⟨hot, _⟩⟩
    · rw [h2]
    · rw [h2] at h; exact absurd rfl h
    · exact absurd rfl hot

theorem processGo_quiet (cfg : Config) {ot : OutputType} (hot : ot ≠ .stdout) : ∀ (jobs : List (Input × Bytes)) (fs : FS),
    (processGo env cfg ot fs jobs).stdout = []
  | [], _ => rfl
  | (i, name) :: rest, fs => by
    rcases processGo_cons env cfg ot fs i name rest with ⟨e, h2⟩ | ⟨data, md, _, _, ⟨h, _⟩ | ⟨_, _, n, _, ⟨e, h2⟩ | h2⟩⟩
    · rw [h2]
    · exact absurd h hot
    · rw [h2]
    · rw [h2]; exact processGo_quiet cfg hot rest _

theorem run_err (args : List Bytes) (fs : FS) (h : (run env args fs).err ≠ none) : (run env args fs).stdout = [] := by
  rw [run] at h ⊢
  cases hp : parseFlags env.parseSelector args with
  | error e => rfl
  | ok cfg =>
    rw [hp] at h
    dsimp only at h ⊢
    rcases runConfig_cases env cfg fs with ⟨err, out, e, -, -, hno⟩ | ⟨inputs, ot, _, _, hli, hot, ⟨e, e'⟩ | ⟨names, hn, e⟩⟩
    · rw [e] at h ⊢; exact hno h
    · rw [e']
    · rw [e] at h ⊢
      dsimp only at h ⊢
      by_cases ho : ot = .stdout
      · subst ho
        have := ((c61_decision fs inputs.length cfg.output).1.mp hot).2
        exact processGo_err env cfg _ _ (by simp; omega) h
      · exact processGo_quiet env cfg ho _ _

/-- **C86**: the exit code is 0 or 1.  With 0 nothing is written to stderr; with 1 something is, and nothing is written to stdout. -/
theorem c86_exit (args : List Bytes) (fs : FS) :
    ((execute scr env args fs).code = 0 ∧ (execute scr env args fs).stderr = []) ∨
    ((execute scr env args fs).code = 1 ∧ (execute scr env args fs).stderr ≠ [] ∧ (execute scr env args fs).stdout = []) := by
  have h := run_err env args fs
  rw [execute]
  cases he : (run env args fs).err with
  | none => exact .inl ⟨rfl, rfl⟩
  | some e =>
    have hd : printDetails scr e ≠ [] := by simp [printDetails]
    rw [he] at h
    cases e with
    | help => exact .inl ⟨rfl, rfl⟩
    | _ => exact .inr ⟨rfl, hd, h (by simp)⟩

/-- **C86**: with exit code 0 and no question for help, the run did what it was asked for: it had no error. -/
theorem c86_success (args : List Bytes) (fs : FS) (h : (execute scr env args fs).code = 0) :
    (run env args fs).err = some .help ∨ ((run env args fs).err = none ∧ (execute scr env args fs).stdout = (run env args fs).stdout ∧
      (execute scr env args fs).states = (run env args fs).states) := by
  rw [execute] at h ⊢
  cases he : (run env args fs).err with
  | none => exact .inr ⟨rfl, rfl, rfl⟩
  | some e => rw [he] at h; cases e <;> first | exact .inl rfl | cases h

/-- The flags before a point of the command line are read first. -/
theorem parseArgs_prefix (ps : Bytes → Option (List Bytes)) {pre flags rest} (h : Reads pre flags rest) : rest = [] → b!"--" ∉ pre → ∀ more c,
    parseArgs ps c (pre ++ more) = match applyFlags ps c flags with
      | none => .error .badValue
      | some c => parseArgs ps c more := by
  induction h with
  | done => intro _ _ more c; rfl
  | dashes rest => intro _ hd; simp at hd
  | positional a rest h => intro hr; cases hr
  | @bool dash name args flags rest hd hn h ih =>
    intro hr hp more c
    obtain ⟨f1, f2, f3, f4⟩ := names_fine name (List.mem_append_left _ hn)
    rw [List.cons_append, parseArgs_dash hd f1 f3 f4, (stepFlag_ok ps c (splitFlag_none f1 f2) _).1 hn, applyFlags]
    cases ha : applyFlag ps c (name, none) with
    | none => rfl
    | some c' => exact ih hr (by simp at hp; exact hp.2) more c'
  | @withValue dash name v args flags rest hd hn h ih =>
    intro hr hp more c
    obtain ⟨f1, f2, f3, f4⟩ := names_fine name hn
    have hh : (name ++ 61 :: v).head? = name.head? := by
      cases name with
      | nil => exact absurd rfl f1
      | cons => rfl
    have : dash ++ name ++ b!"=" ++ v = dash ++ (name ++ 61 :: v) := by simp
    rw [this, List.cons_append, parseArgs_dash hd (by simp) (by rw [hh]; exact f3) (by rw [hh]; exact f4), applyFlags]
    have : stepFlag ps c (name ++ 61 :: v) (args ++ more) = match applyFlag ps c (name, some v) with | none => .error .badValue | some c => parseArgs ps c (args ++ more) := by
      have hs := stepFlag_ok ps c (splitFlag_some (v := v) f1 f2) (args ++ more)
      rcases List.mem_append.mp hn with hn | hn
      · exact hs.1 hn
      · exact (hs.2 hn).1 v rfl
    rw [this]
    cases ha : applyFlag ps c (name, some v) with
    | none => rfl
    | some c' => exact ih hr (by simp at hp; exact hp.2) more c'
  | @nextArg dash name v args flags rest hd hn h ih =>
    intro hr hp more c
    obtain ⟨f1, f2, f3, f4⟩ := names_fine name (List.mem_append_right _ hn)
    rw [List.cons_append, List.cons_append, parseArgs_dash hd f1 f3 f4, ((stepFlag_ok ps c (splitFlag_none f1 f2) (v :: (args ++ more))).2 hn).2 rfl v _ rfl, applyFlags]
    cases ha : applyFlag ps c (name, some v) with
    | none => rfl
    | some c' => exact ih hr (by simp at hp; exact hp.2.2) more c'

/-- After valid flags, a flag that there is not decides, whatever follows. -/
theorem run_undefined {pre more : List Bytes} {flags} (hr : Reads pre flags []) (hd : b!"--" ∉ pre) (hv : Valid (fun v => (env.parseSelector v).isSome) flags)
    {dash name : Bytes} {value : Option Bytes} (hdash : dash ∈ [b!"-", b!"--"]) (hn : name ≠ []) (h1 : name.head? ≠ some 45) (h2 : 61 ∉ name)
    (hb : name ∉ boolFlags) (hf : name ∉ valueFlags) (fs : FS) :
    run env (pre ++ (dash ++ name ++ value.elim [] (b!"=" ++ ·)) :: more) fs =
      { states := [fs], err := some (if name = b!"help" ∨ name = b!"h" then .help else .notDefined name) } := by
  have h3 : name.head? ≠ some 61 := by
    cases name with
    | nil => exact absurd rfl hn
    | cons y r => intro e; exact h2 (by simp at e; simp [e])
  have hs : ∃ c2, applyFlags env.parseSelector {} flags = some c2 := Option.isSome_iff_exists.mp
    ((applyFlags_isSome env.parseSelector flags (reads_shaped hr) {}).mpr ⟨hv.words, hv.once _ (by simp), hv.once _ (by simp), hv.notBlank, hv.selectors⟩)
  obtain ⟨c2, ha⟩ := hs
  have hbody : ∀ v : Option Bytes, (name ++ v.elim [] (b!"=" ++ ·)).head? = name.head? := by
    intro v
    cases name with
    | nil => exact absurd rfl hn
    | cons => rfl
  have hsplit : splitFlag (name ++ value.elim [] (b!"=" ++ ·)) = (name, value) := by
    cases value with
    | none => simpa using splitFlag_none hn h2
    | some v => exact splitFlag_some hn h2
  have hb' : boolFlag? name = none := by
    cases e : boolFlag? name with
    | none => rfl
    | some set => exact absurd (bool_of_some e) hb
  have hf' : valueFlag? env.parseSelector name = none := by
    cases e : valueFlag? env.parseSelector name with
    | none => rfl
    | some set => exact absurd (value_of_some e) hf
  rw [run, parseFlags, parseArgs_prefix env.parseSelector hr rfl hd, ha]
  dsimp only
  rw [List.append_assoc dash, parseArgs_dash hdash (by simp [hn]) (by rw [hbody]; exact h1) (by rw [hbody]; exact h3)]
  simp only [stepFlag, hsplit, hb', hf']

/-- **C86**: the flag `help`, after valid flags and whatever follows, prints the usage and exits with code 0; nothing else happens. -/
theorem c86_help {pre more : List Bytes} {flags} (hr : Reads pre flags []) (hd : b!"--" ∉ pre) (hv : Valid (fun v => (env.parseSelector v).isSome) flags)
    {flag : Bytes} (hflag : flag ∈ [b!"-h", b!"--h", b!"-help", b!"--help"]) (fs : FS) :
    execute scr env (pre ++ flag :: more) fs = { states := [fs], stdout := scr.usage, code := 0 } := by
  have key : ∃ dash name, dash ∈ [b!"-", b!"--"] ∧ name ∈ [b!"h", b!"help"] ∧ flag = dash ++ name := by
    simp only [List.mem_cons, List.not_mem_nil, or_false] at hflag
    rcases hflag with rfl | rfl | rfl | rfl
    · exact ⟨b!"-", b!"h", by decide, by decide, rfl⟩
    · exact ⟨b!"--", b!"h", by decide, by decide, rfl⟩
    · exact ⟨b!"-", b!"help", by decide, by decide, rfl⟩
    · exact ⟨b!"--", b!"help", by decide, by decide, rfl⟩
  obtain ⟨dash, name, hdash, hname, rfl⟩ := key
  have hn : name ≠ [] ∧ name.head? ≠ some 45 ∧ 61 ∉ name ∧ name ∉ boolFlags ∧ name ∉ valueFlags ∧ (name = b!"help" ∨ name = b!"h") := by
    simp only [List.mem_cons, List.not_mem_nil, or_false] at hname
    rcases hname with rfl | rfl <;> decide
  have := run_undefined env (more := more) (value := none) hr hd hv hdash hn.1 hn.2.1 hn.2.2.1 hn.2.2.2.1 hn.2.2.2.2.1 fs
  rw [if_pos hn.2.2.2.2.2] at this
  simp only [Option.elim_none, List.append_nil] at this
  rw [execute, this]
  rfl

/-- **C86**: the flag `version` prints what the release says, with exit code 0; nothing is read, converted or written. -/
theorem c86_version {args : List Bytes} {cfg : Config} (h : parseFlags env.parseSelector args = .ok cfg) (hargs : cfg.args = []) (hver : cfg.version = true)
    (fs : FS) : execute scr env args fs = { states := [fs], code := 0, stdout :=
      b!"html2markdown\n\nGitVersion:  " ++ env.release.version ++ b!"\nGitCommit:   " ++ env.release.commit ++ b!"\nBuildDate:   " ++ env.release.date ++ b!"\n" } := by
  have e : run env args fs = { states := [fs], stdout := versionText env.release } := by
    simp [run, h, runConfig, hargs, hver]
  rw [execute, e]
  simp [versionText]

/-! ## Suggestions -/

/-- The known flags. -/
theorem sortedFlags_mem (n : Bytes) : n ∈ sortedFlags ↔ n ∈ boolFlags ++ valueFlags := by
  constructor
  · intro h; revert n; decide +kernel
  · intro h; revert n; decide +kernel

theorem closest_spec (distance : Bytes → Bytes → Nat) (unknown : Bytes) : ∀ (l : List Bytes) (best : Nat × Bytes),
    (closest distance unknown l best).1 ≤ best.1 ∧ (∀ f ∈ l, (closest distance unknown l best).1 ≤ distance f unknown) ∧
    (closest distance unknown l best = best ∨ ((closest distance unknown l best).2 ∈ l ∧
      (closest distance unknown l best).1 = distance (closest distance unknown l best).2 unknown))
  | [], best => ⟨Nat.le_refl _, by simp, .inl rfl⟩
  | f :: fs, best => by
    rw [closest]
    obtain ⟨h1, h2, h3⟩ := closest_spec distance unknown fs (if distance f unknown < best.1 then (distance f unknown, f) else best)
    by_cases hd : distance f unknown < best.1
    · rw [if_pos hd] at h1 h2 h3 ⊢
      refine ⟨by simp at h1; omega, ?_, ?_⟩
      · intro g hg
        rcases List.mem_cons.1 hg with rfl | hg
        · exact h1
        · exact h2 g hg
      · rcases h3 with h3 | h3
        · rw [h3]; exact .inr ⟨by simp, rfl⟩
        · exact .inr ⟨by simp [h3.1], h3.2⟩
    · rw [if_neg hd] at h1 h2 h3 ⊢
      refine ⟨h1, ?_, ?_⟩
      · intro g hg
        rcases List.mem_cons.1 hg with rfl | hg
        · omega
        · exact h2 g hg
      · rcases h3 with h3 | h3
        · exact .inl h3
        · exact .inr ⟨by simp [h3.1], h3.2⟩

/-- A flag worth suggesting: at most four changes away, and less than the unknown name has characters. -/
def Near (unknown f : Bytes) : Prop := scr.distance f unknown ≤ 4 ∧ scr.distance f unknown < runeCount unknown

/-- **C86**: for an unknown flag the tool suggests a known flag exactly if there is one that is near, and then one of the nearest. -/
theorem c86_suggestion (unknown : Bytes) :
    (alternativeFlag scr.distance unknown = [] ↔ ¬∃ f ∈ boolFlags ++ valueFlags, Near scr unknown f) ∧
    (alternativeFlag scr.distance unknown ≠ [] → alternativeFlag scr.distance unknown ∈ boolFlags ++ valueFlags ∧
      Near scr unknown (alternativeFlag scr.distance unknown) ∧
      ∀ f ∈ boolFlags ++ valueFlags, scr.distance (alternativeFlag scr.distance unknown) unknown ≤ scr.distance f unknown) := by
  obtain ⟨h1, h2, h3⟩ := closest_spec scr.distance unknown sortedFlags (10000, [])
  have h2' : ∀ f ∈ boolFlags ++ valueFlags, (closest scr.distance unknown sortedFlags (10000, [])).1 ≤ scr.distance f unknown :=
    fun f hf => h2 f ((sortedFlags_mem f).2 hf)
  rw [alternativeFlag]
  generalize closest scr.distance unknown sortedFlags (10000, []) = best at h1 h2 h3 h2'
  by_cases hr : best.1 ≥ runeCount unknown
  · simp only [hr, if_true]
    refine ⟨⟨fun _ => ?_, fun _ => trivial⟩, fun h => absurd rfl h⟩
    rintro ⟨f, hf, hn⟩
    have := h2' f hf
    have := hn.2
    omega
  · by_cases h4 : best.1 > 4
    · simp only [hr, h4, if_true, if_false]
      refine ⟨⟨fun _ => ?_, fun _ => trivial⟩, fun h => absurd rfl h⟩
      rintro ⟨f, hf, hn⟩
      have := h2' f hf
      have := hn.1
      omega
    · simp only [hr, h4, if_false]
      rcases h3 with h3 | ⟨hm, hd⟩
      · rw [h3] at h4; simp at h4
      · have hk := (sortedFlags_mem _).1 hm
        have hnear : Near scr unknown best.2 := ⟨by omega, by omega⟩
        have hne : best.2 ≠ [] := (names_fine _ hk).1
        refine ⟨⟨fun e => absurd e hne, fun e => absurd ⟨best.2, hk, hnear⟩ e⟩, fun _ => ⟨hk, hnear, fun f hf => ?_⟩⟩
        rw [← hd]; exact h2' f hf

/-- What is written about an unknown flag. -/
def unknownText (name : Bytes) : Bytes :=
  let alt := alternativeFlag scr.distance name
  let hint := if alt = [] then [] else b!"\nDid you mean " ++ (if alt = b!"v" then b!"-v" else b!"--" ++ alt) ++ b!" instead?\n"
  b!"\n" ++ scr.box (.notDefined name) ++ hint ++ b!"\n"

/-- **C86**: an unknown flag, after valid flags and whatever follows, is an error, and the suggestion is shown with its dashes. -/
theorem c86_unknown {pre more : List Bytes} {flags} (hr : Reads pre flags []) (hd : b!"--" ∉ pre) (hv : Valid (fun v => (env.parseSelector v).isSome) flags)
    {dash name : Bytes} {value : Option Bytes} (hdash : dash ∈ [b!"-", b!"--"]) (hn : name ≠ []) (h1 : name.head? ≠ some 45) (h2 : 61 ∉ name)
    (hk : name ∉ boolFlags ++ valueFlags) (hh : name ∉ [b!"help", b!"h"]) (fs : FS) :
    execute scr env (pre ++ (dash ++ name ++ value.elim [] (b!"=" ++ ·)) :: more) fs = { states := [fs], code := 1, stderr := unknownText scr name } := by
  have := run_undefined env (more := more) (value := value) hr hd hv hdash hn h1 h2 (fun h => hk (List.mem_append_left _ h)) (fun h => hk (List.mem_append_right _ h)) fs
  rw [if_neg (by simpa using hh)] at this
  rw [execute, this]
  have hlen : ∀ n ∈ boolFlags ++ valueFlags, (n.length = 1 ↔ n = b!"v") := by decide +kernel
  by_cases ha : alternativeFlag scr.distance name = []
  · simp [printDetails, printers, unknownText, ha]
  · have hf : formatFlag (alternativeFlag scr.distance name) = if alternativeFlag scr.distance name = b!"v" then b!"-v" else b!"--" ++ alternativeFlag scr.distance name := by
      rw [formatFlag]
      have := hlen _ ((c86_suggestion scr name).2 ha).1
      by_cases e : alternativeFlag scr.distance name = b!"v"
      · rw [if_pos e, if_pos (this.2 e), e]; rfl
      · rw [if_neg e, if_neg (fun h => e (this.1 h))]
    simp [printDetails, printers, unknownText, ha, hf]

/-! ### Beside the theorems -/

/-- Words of the same length differ by the number of different letters; others by 100. -/
def demoScreen : Screen where
  distance a b := if a.length = b.length then ((a.zip b).filter fun p => p.1 ≠ p.2).length else 100
  usage := b!"usage"
  box _ := b!"error: no"
  details _ := []

/-- `--plugin-table --imput=x` -/
example : (execute demoScreen exEnv [b!"--plugin-table", b!"--imput=x"] exFs).stderr = b!"\nerror: no\nDid you mean --input instead?\n\n" := by decide +kernel
example : Reads [b!"--plugin-table"] [(b!"plugin-table", none)] [] := .bool (dash := b!"--") (name := b!"plugin-table") (by decide) (by decide) .done
example : ∃ f ∈ boolFlags ++ valueFlags, Near demoScreen b!"imput" f := ⟨b!"input", by decide, by simp [Near, demoScreen]; decide⟩
example : ¬∃ f ∈ boolFlags ++ valueFlags, Near demoScreen b!"xy" f := by unfold Near; decide +kernel
example : (execute demoScreen exEnv [b!"-input=one", b!"--help", b!"x"] exFs).stdout = b!"usage" := by decide +kernel
example : (execute demoScreen exEnv [b!"--version"] exFs).stdout = b!"html2markdown\n\nGitVersion:  unknown\nGitCommit:   unknown\nBuildDate:   unknown\n" := by decide +kernel
example : (execute demoScreen exEnv [b!"-input=one"] exFs).code = 0 ∧ (execute demoScreen exEnv [b!"-input=none"] exFs).code = 1 := by decide +kernel

end Verif.Props
