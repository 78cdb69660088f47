import Verif.Proofs.Cli
import Verif.Proofs.CliFlags
/-!
# Properties C59-C62, C66: the command line tool
-/

namespace Verif.Props
open Verif Verif.Cli Verif.Spec

/-! ## Concrete surroundings for the examples -/

/-- A small world: the pattern `in` matches two files, nothing fails, the conversion removes the byte `<`. -/
def exEnv : Env where
  parseSelector v := some [v]
  glob p := if p = b!"in" then some [b!"x/a.html", b!"y/a.html"] else if p = b!"one" then some [b!"x/a.html"] else some []
  globBase _ := b!"."
  rel _ p := some p
  hash10 _ := b!"0123456789"
  join a b := a ++ b
  dirOf _ := b!"out"
  mkdirAll fs d := (fun p => if p = d ∧ fs p = none then some .dir else fs p, true)
  mkdirAll_adds fs d p := by
    by_cases h : p = d ∧ fs p = none
    · exact .inr ⟨h.2, if_pos h⟩
    · exact .inl (if_neg h)
  stdin := none
  openFails _ _ := false
  fault _ := none
  markdown _ d := some (d.filter (· != 60))

/-- Two input files and an old result. -/
def exFs : FS := fun p =>
  if p = b!"x/a.html" then some (.file b!"<A") else if p = b!"y/a.html" then some (.file b!"<B")
  else if p = b!"old.md" then some (.file b!"old") else none

/-! ## C59 -/

/-- **C59**: unless the last `output-overwrite` flag on the command line switches it on, nothing that exists is ever
changed: not in any state the file system goes through, whatever fails and wherever the run stops. -/
theorem c59_no_overwrite (env : Env) (args : List Bytes) (fs : FS)
    (h : ∀ flags rest, Reads args flags rest → ¬ IsOn b!"output-overwrite" flags) :
    ∀ s ∈ (run env args fs).states, ∀ p e, fs p = some e → s p = some e := by
  intro s hs
  rw [run] at hs
  cases hp : parseFlags env.parseSelector args with
  | error e => rw [hp] at hs; simp only [List.mem_singleton] at hs; subst hs; exact fun _ _ h => h
  | ok cfg =>
    rw [hp] at hs
    obtain ⟨flags, rest, hr, _⟩ := (parseFlags_iff env.parseSelector args).mp ⟨cfg, hp⟩
    obtain ⟨c2, ha, hc⟩ := parseFlags_config hr hp
    have hov : cfg.overwrite = false := by
      have e := (applyFlags_effect env.parseSelector flags {} c2 ha).1
      have hn := h flags rest hr
      rw [← on_iff] at hn
      rw [hc]
      show c2.overwrite = false
      rw [e]
      simpa using hn
    exact runConfig_keeps env cfg hov fs s hs

/-- A run that writes: two files are created, the old one stays. -/
example : (run exEnv [b!"--input=in", b!"-output", b!"out/"] exFs).err = none ∧
    (run exEnv [b!"--input=in", b!"-output", b!"out/"] exFs).final exFs b!"out/a.md" = some (.file b!"A") ∧
    (run exEnv [b!"--input=in", b!"-output", b!"out/"] exFs).final exFs b!"out/a.0123456789.md" = some (.file b!"B") ∧
    (run exEnv [b!"--input=in", b!"-output", b!"out/"] exFs).final exFs b!"old.md" = some (.file b!"old") := by
  decide +kernel

/-- The same for an argument list that does not contain the flag at all. -/
example : ∀ flags rest, Reads [b!"--input=in", b!"-output", b!"out/"] flags rest → ¬ IsOn b!"output-overwrite" flags := by
  intro flags rest h
  have := parseArgs_reads (fun v => some [v]) h {} rfl
  cases ha : applyFlags (fun v => some [v]) {} flags with
  | none =>
    rw [ha] at this
    have h3 : (parseArgs (fun v => some [v]) {} [b!"--input=in", b!"-output", b!"out/"]).toOption.isSome = true := by decide +kernel
    rw [this] at h3
    cases h3
  | some c =>
    rw [ha] at this
    have e := (applyFlags_effect _ flags {} c ha).1
    intro hon
    rw [← on_iff] at hon
    have h2 : c.overwrite = true := e.trans hon
    have h3 : (parseArgs (fun v => some [v]) {} [b!"--input=in", b!"-output", b!"out/"]).toOption.map (·.overwrite) = some false := by decide +kernel
    rw [this] at h3
    simp [Except.toOption, h2] at h3

/-- **C59**: with or without the flag, what changes is a path that the run writes a result to, or a directory that is new. -/
theorem c59_only_outputs (env : Env) (cfg : Config) (fs : FS) (s : FS) (hs : s ∈ (runConfig env cfg fs).states) (p : Bytes) :
    s p = fs p ∨ (fs p = none ∧ s p = some .dir) ∨
    ∃ inputs names, listInputs env cfg = .ok inputs ∧ outputNames env cfg.input (inputs.map (·.path)) = some names ∧
      cfg.output ≠ [] ∧ ((p = cfg.output ∧ cfg.output.getLast? ≠ some 47) ∨ ∃ n ∈ names, p = env.join cfg.output n ∧ cfg.output.getLast? = some 47) := by
  rcases runConfig_cases env cfg fs with ⟨err, out, h, _⟩ | ⟨inputs, ot, _, _, hli, hot, ⟨e, h⟩ | ⟨names, hnames, h⟩⟩
  · rw [h] at hs; simp only [List.mem_singleton] at hs; subst hs; exact .inl rfl
  · rw [h] at hs
    simp only [List.mem_cons, List.not_mem_nil, or_false] at hs
    rcases hs with rfl | rfl
    · exact .inl rfl
    · rcases afterMkdir_dirs env cfg ot fs p with h | h
      · exact .inl h
      · exact .inr (.inl h)
  · rw [h] at hs
    simp only [List.mem_cons] at hs
    have hd : (afterMkdir env cfg ot fs).1 p = fs p ∨ (fs p = none ∧ (afterMkdir env cfg ot fs).1 p = some .dir) ∨
       ∃ inputs names, listInputs env cfg = .ok inputs ∧ outputNames env cfg.input (inputs.map (·.path)) = some names ∧
      cfg.output ≠ [] ∧ ((p = cfg.output ∧ cfg.output.getLast? ≠ some 47) ∨ ∃ n ∈ names, p = env.join cfg.output n ∧ cfg.output.getLast? = some 47) := by
      rcases afterMkdir_dirs env cfg ot fs p with h | h
      · exact .inl h
      · exact .inr (.inl h)
    rcases hs with rfl | rfl | hs
    · exact .inl rfl
    · exact hd
    · rcases processGo_states env cfg ot _ _ s hs p with h1 | ⟨hno, i, name, hm, hp, _⟩
      · rw [h1]; exact hd
      · refine .inr (.inr ⟨inputs, names, hli, hnames, ?_⟩)
        rw [determineOutputType] at hot
        split at hot
        · split at hot
          · cases hot
          · cases hot; exact absurd rfl hno
        · rename_i hne
          refine ⟨hne, ?_⟩
          split at hot
          · rename_i hsuf
            cases hot
            exact .inr ⟨name, (List.of_mem_zip hm).2, hp, by simpa [hasFolderSuffix] using hsuf⟩
          · rename_i hsuf
            refine .inl ⟨?_, by simpa [hasFolderSuffix] using hsuf⟩
            split at hot
            · cases hot
            · split at hot
              · cases hot
              · cases hot; exact hp

/-! ## C60 -/

/-- **C60**: without overwriting, a run that reports no error has put the conversion of each input that existed at the start
into a file, and all of these are there at the end: no result has replaced another.  `dest` is the output path itself, or the
file in the output directory. -/
theorem c60_success (env : Env) (cfg : Config) (fs : FS) (hov : cfg.overwrite = false) (hv : cfg.version = false) (hout : cfg.output ≠ [])
    (hok : (runConfig env cfg fs).err = none) :
    ∃ inputs names, listInputs env cfg = .ok inputs ∧ outputNames env cfg.input (inputs.map (·.path)) = some names ∧
      names.length = inputs.length ∧
      ∀ i name, (i, name) ∈ inputs.zip names → ∀ d, readInput fs i = some d →
        ∃ md, convert env cfg d = .ok md ∧
          (runConfig env cfg fs).final fs (if cfg.output.getLast? = some 47 then env.join cfg.output name else cfg.output) = some (.file md) := by
  rcases runConfig_cases env cfg fs with ⟨err, out, h, h', hno, -⟩ | ⟨inputs, ot, _, _, hli, hot, ⟨e, h⟩ | ⟨names, hnames, h⟩⟩
  · rcases h' with h' | h' | h'
    · rw [hv] at h'; cases h'
    · rw [h] at hok
      simp only [runConfig, h', ne_eq, not_false_eq_true, if_true] at h
      rw [Outcome.mk.injEq] at h
      rw [← h.2.2] at hok; cases hok
    · rw [h] at hok; exact absurd hok h'
  · rw [h] at hok; cases hok
  · have hlen := outputNamesGo_length env _ _ _ _ hnames
    refine ⟨inputs, names, hli, hnames, by simpa using hlen, ?_⟩
    intro i name hm d hr
    have hno : ot ≠ .stdout ∧ (if cfg.output.getLast? = some 47 then env.join cfg.output name else cfg.output) = dest env cfg ot name := by
      rw [determineOutputType, if_neg hout] at hot
      split at hot
      · rename_i hsuf
        cases hot
        rw [hasFolderSuffix, beq_iff_eq] at hsuf
        exact ⟨by simp, by rw [if_pos hsuf, dest, if_pos rfl]⟩
      · rename_i hsuf
        rw [hasFolderSuffix, beq_iff_eq] at hsuf
        split at hot
        · cases hot
        · split at hot
          · cases hot
          · cases hot
            exact ⟨by simp, by rw [if_neg hsuf, dest, if_neg (by simp)]⟩
    rw [hno.2]
    have hok' : (processGo env cfg ot (afterMkdir env cfg ot fs).1 (inputs.zip names)).err = none := by rw [h] at hok; exact hok
    obtain ⟨md, h1, h2⟩ := processGo_success env cfg hov ot hno.1 _ _ hok' i name hm d (readInput_keeps (afterMkdir_keeps env cfg ot fs) hr)
    refine ⟨md, h1, ?_⟩
    rw [h, Outcome.final]
    rw [Outcome.final] at h2
    rw [← h2]
    simp only [List.getLast?_cons, Option.getD_some]

/-- **C60, partial**: the names are distinct, if the hashes of the inputs have ten digits and are distinct and no input has a
name that already looks like another one's name with its hash.  Missing: these hypotheses, see the counterexample. -/
theorem c60_distinct_partial (env : Env) (pattern : Bytes) (paths : List Bytes) (names : List Bytes) (hnd : paths.Nodup)
    (hlen : ∀ p ∈ paths, ∀ r, env.rel (env.globBase pattern) p = some r → (env.hash10 r).length = 10)
    (hinj : ∀ p ∈ paths, ∀ q ∈ paths, ∀ r r', env.rel (env.globBase pattern) p = some r → env.rel (env.globBase pattern) q = some r' →
      env.hash10 r = env.hash10 r' → p = q)
    (hlook : ∀ p ∈ paths, ∀ q ∈ paths, ∀ r, env.rel (env.globBase pattern) q = some r →
      withoutExt (base p) ≠ withoutExt (base q) ++ b!"." ++ env.hash10 r)
    (h : outputNames env pattern paths = some names) : names.Nodup ∧ names.length = paths.length :=
  ⟨outputNamesGo_nodup env _ paths hlen hinj hlook paths (fun _ h => h) hnd [] names h, outputNamesGo_length env _ _ _ _ h⟩

/-- Three inputs, two of them with the same name. -/
example : ∃ env : Env, outputNames env b!"in" [b!"x/a.html", b!"b.htm", b!"y/a.html"] = some [b!"a.md", b!"b.md", b!"a.123456/a.h.md"] ∧
    ∀ p ∈ [b!"x/a.html", b!"b.htm", b!"y/a.html"], ∀ r, env.rel (env.globBase b!"in") p = some r → (env.hash10 r).length = 10 :=
  ⟨{ exEnv with hash10 := fun r => (b!"123456" ++ (r.drop 1) ++ b!"0000000000").take 10 }, by decide +kernel, by decide +kernel⟩

/-- **C60, counterexample**: whatever the hash function is, there are three different inputs two of which get the same name:
the third one is called what the second one is renamed to. -/
theorem c60_counterexample (env : Env) (hhex : ∀ p, 47 ∉ env.hash10 p) (hrel : ∀ b p, env.rel b p = some p) (pattern : Bytes) :
    ∃ paths names, paths.Nodup ∧ outputNames env pattern paths = some names ∧ ¬ names.Nodup := by
  generalize hh : env.hash10 b!"y/a.html" = h
  have h47 : 47 ∉ h := hh ▸ hhex _
  refine ⟨[b!"x/a.html", b!"y/a.html", b!"a." ++ h ++ b!".html"], [b!"a.md", b!"a." ++ h ++ b!".md", b!"a." ++ h ++ b!".md"], ?_, ?_, by simp⟩
  · have hm : 47 ∉ b!"a." ++ h ++ b!".html" := by simp [h47]
    refine List.nodup_cons.mpr ⟨?_, List.nodup_cons.mpr ⟨?_, by simp⟩⟩
    · simp only [List.mem_cons, List.not_mem_nil, or_false, not_or]
      exact ⟨by decide, fun e => hm (e ▸ (by decide : (47 : UInt8) ∈ b!"x/a.html"))⟩
    · simp only [List.mem_singleton]
      exact fun e => hm (e ▸ (by decide : (47 : UInt8) ∈ b!"y/a.html"))
  · have hs : withoutExt (base (b!"a." ++ h ++ b!".html")) = b!"a." ++ h := by
      have hb : base (b!"a." ++ h ++ b!".html") = b!"a." ++ h ++ b!".html" := by
        rw [base, if_neg (by simp)]
        have hall : ∀ x ∈ h.reverse ++ [46, 97], (x != 47) = true := by
          intro x hx
          have : x ≠ 47 := by
            rintro rfl
            simp [h47] at hx
          simpa using this
        have e : (b!"a." ++ h ++ b!".html").reverse = b!"lmth." ++ (h.reverse ++ [46, 97]) := by simp
        rw [e]
        simp only [List.cons_append, List.nil_append]
        rw [List.dropWhile_cons_of_neg (by decide)]
        simp only [List.reverse_reverse]
        have : (108 :: 109 :: 116 :: 104 :: 46 :: (h.reverse ++ [46, 97])).takeWhile (· != 47) = 108 :: 109 :: 116 :: 104 :: 46 :: (h.reverse ++ [46, 97]) := by
          have := List.takeWhile_append_of_pos (l₂ := []) hall
          simp only [List.append_nil, List.takeWhile_nil] at this
          simp only [List.takeWhile_cons, show ((108 : UInt8) != 47) = true by decide, show ((109 : UInt8) != 47) = true by decide,
            show ((116 : UInt8) != 47) = true by decide, show ((104 : UInt8) != 47) = true by decide, show ((46 : UInt8) != 47) = true by decide, if_true, this]
        simp [this]
      rw [hb, withoutExt, if_pos (by simp)]
      have e : (b!"a." ++ h ++ b!".html").reverse = b!"lmth." ++ (h.reverse ++ [46, 97]) := by simp
      rw [e]
      simp
    have h1 : withoutExt (base b!"x/a.html") = b!"a" := by decide +kernel
    have h2 : withoutExt (base b!"y/a.html") = b!"a" := by decide +kernel
    have hne : b!"a." ++ h ≠ b!"a" := by simp
    have hc : List.count (b!"a." ++ h) [b!"a", b!"a"] = 0 := by
      rw [List.count_eq_zero]
      simp
    simp only [outputNames, outputNamesGo, h1, h2, hs, hrel, hh, Option.bind_some, hc]
    simp

/-- **C60, counterexample**: with the overwrite flag this loses a result without an error. -/
theorem c60_counterexample_lost :
    let env := { exEnv with glob := fun _ => some [b!"x/a.html", b!"y/a.html", b!"a.0123456789.html"] }
    let fs : FS := fun p => if p = b!"a.0123456789.html" then some (.file b!"C") else exFs p
    let o := run env [b!"-input=in", b!"-output=out/", b!"-output-overwrite"] fs
    o.err = none ∧ ∀ p ∈ [b!"out/a.md", b!"out/a.0123456789.md"], o.final fs p ≠ some (.file b!"B") := by
  decide +kernel

/-- **C60**: with the overwrite flag, too, every result is in its place at the end, if the destinations are distinct and none of
them is an input. -/
theorem c60_overwrite_partial (env : Env) (cfg : Config) (fs : FS) (hv : cfg.version = false) (hargs : cfg.args = [])
    (inputs : List Input) (names : List Bytes) (hli : listInputs env cfg = .ok inputs)
    (hna : outputNames env cfg.input (inputs.map (·.path)) = some names) (hdir : cfg.output.getLast? = some 47)
    (hnd : (names.map (env.join cfg.output)).Nodup) (hdis : ∀ n ∈ names, ∀ i ∈ inputs, i.path ≠ env.join cfg.output n)
    (hok : (runConfig env cfg fs).err = none) :
    ∀ i name, (i, name) ∈ inputs.zip names → ∃ d md, readInput (afterMkdir env cfg .directory fs).1 i = some d ∧ convert env cfg d = .ok md ∧
          (runConfig env cfg fs).final fs (env.join cfg.output name) = some (.file md) := by
  rcases runConfig_cases env cfg fs with ⟨err, out, h, h', hno, -⟩ | ⟨inputs', ot, _, _, hli', hot, ⟨e, h⟩ | ⟨names', hnames, h⟩⟩
  · rcases h' with h' | h' | h'
    · rw [hv] at h'; cases h'
    · exact absurd hargs h'
    · rw [h] at hok; exact absurd hok h'
  · rw [h] at hok; cases hok
  · rw [hli] at hli'
    cases hli'
    rw [hna] at hnames
    cases hnames
    have hd : ot = .directory := by
      rw [determineOutputType, if_neg (by intro e; rw [e] at hdir; cases hdir), if_pos (by rw [hasFolderSuffix, hdir]; rfl)] at hot
      cases hot; rfl
    subst hd
    intro i name hm
    have hok' : (processGo env cfg .directory (afterMkdir env cfg .directory fs).1 (inputs.zip names)).err = none := by rw [h] at hok; exact hok
    have hlen := outputNamesGo_length env _ _ _ _ hna
    have hmap : ((inputs.zip names).map fun j => dest env cfg .directory j.2) = names.map (env.join cfg.output) := by
      have : (fun j : Input × Bytes => dest env cfg .directory j.2) = (env.join cfg.output) ∘ Prod.snd := by funext j; simp [dest]
      rw [this, ← List.map_map, List.map_snd_zip (by simp at hlen; omega)]
    obtain ⟨d, md, h1, h2, h3⟩ := processGo_success_distinct env cfg .directory (by simp) _ _ hok' (by rw [hmap]; exact hnd)
      (fun j hj j' hj' => .inl (by
        have := hdis j.2 (List.of_mem_zip hj).2 j'.1 (List.of_mem_zip hj').1
        simpa [dest] using this)) i name hm
    refine ⟨d, md, h1, h2, ?_⟩
    rw [h, Outcome.final]
    rw [Outcome.final, dest, if_pos rfl] at h3
    rw [← h3]
    simp only [List.getLast?_cons, Option.getD_some]

/-! ## C61 -/

/-- **C61**: where the output goes.  No output path: to stdout, if there is at most one input; a path with a slash at the end: into
that directory; any other path: into that file, if there is at most one input and it is no directory; otherwise it is an error. -/
theorem c61_decision (fs : FS) (n : Nat) (output : Bytes) :
    (determineOutputType fs n output = .ok .stdout ↔ output = [] ∧ n ≤ 1) ∧
    (determineOutputType fs n output = .ok .directory ↔ ∃ p, output = p ++ b!"/") ∧
    (determineOutputType fs n output = .ok .file ↔ output ≠ [] ∧ (¬ ∃ p, output = p ++ b!"/") ∧ n ≤ 1 ∧ fs output ≠ some .dir) ∧
    ((∃ e, determineOutputType fs n output = .error e) ↔
      (¬ ∃ p, output = p ++ b!"/") ∧ (1 < n ∨ (output ≠ [] ∧ fs output = some .dir))) := by
  have hsuf : hasFolderSuffix output = true ↔ ∃ p, output = p ++ b!"/" := by
    rw [hasFolderSuffix, beq_iff_eq, List.getLast?_eq_some_iff]
  rw [← hsuf]
  by_cases h0 : output = []
  · subst h0
    by_cases hn : n > 1
    · simp [determineOutputType, hn, hasFolderSuffix]; try omega
    · simp [determineOutputType, hn, hasFolderSuffix]; try omega
  · by_cases h1 : hasFolderSuffix output = true
    · simp [determineOutputType, h0, h1]
    · by_cases hn : n > 1
      · simp [determineOutputType, h0, h1, hn]; try omega
      · have hd : determineOutputType fs n output = match fs output with | some .dir => .error .outputIsDirectory | _ => .ok .file := by
          simp only [determineOutputType, h0, h1, hn, if_false, Bool.false_eq_true]
          rfl
        rw [hd]
        cases hf : fs output with
        | none => simp [h0, h1]; omega
        | some e => cases e <;> simp [h0, h1] <;> omega

example : determineOutputType exFs 2 b!"out/" = .ok .directory ∧ determineOutputType exFs 1 b!"old.md" = .ok .file ∧
    determineOutputType exFs 1 [] = .ok .stdout ∧ determineOutputType exFs 2 b!"out.md" = .error .outputNeedsDirectory := ⟨rfl, rfl, rfl, rfl⟩

/-- **C61**: several inputs without an output directory are an error, and nothing is written or printed. -/
theorem c61_many (env : Env) (cfg : Config) (fs : FS) (inputs : List Input) (hargs : cfg.args = []) (hv : cfg.version = false)
    (hli : listInputs env cfg = .ok inputs) (hn : 1 < inputs.length) (hs : ¬ ∃ p, cfg.output = p ++ b!"/") :
    (runConfig env cfg fs).err ≠ none ∧ (runConfig env cfg fs).states = [fs] ∧ (runConfig env cfg fs).stdout = [] := by
  obtain ⟨e, he⟩ := ((c61_decision fs inputs.length cfg.output).2.2.2).mpr ⟨hs, .inl hn⟩
  simp [runConfig, hargs, hv, hli, he]

example : ∃ inputs, listInputs exEnv { input := b!"in", output := b!"out.md" } = .ok inputs ∧ 1 < inputs.length :=
  ⟨_, rfl, by decide⟩

/-- **C61**: without an output path the file system never changes and the conversion of the input is printed, with a newline. -/
theorem c61_stdout (env : Env) (cfg : Config) (fs : FS) (hv : cfg.version = false) (hout : cfg.output = []) :
    (∀ s ∈ (runConfig env cfg fs).states, s = fs) ∧
    ((runConfig env cfg fs).err = none → ∃ i d md, listInputs env cfg = .ok [i] ∧ readInput fs i = some d ∧ convert env cfg d = .ok md ∧
      (runConfig env cfg fs).stdout = md ++ [NL]) := by
  rcases runConfig_cases env cfg fs with ⟨err, out, h, h', hno, -⟩ | ⟨inputs, ot, _, _, hli, hot, ⟨e, h⟩ | ⟨names, hnames, h⟩⟩
  · constructor
    · intro s hs; rw [h] at hs; simpa using hs
    · intro hok
      rcases h' with h' | h' | h'
      · rw [hv] at h'; cases h'
      · simp [runConfig, h'] at hok
      · rw [h] at hok; exact absurd hok h'
  · have hst := ((c61_decision fs inputs.length cfg.output).1).mpr
    constructor
    · intro s hs
      rw [h] at hs
      simp only [List.mem_cons, List.not_mem_nil, or_false] at hs
      rw [hout, determineOutputType, if_pos rfl] at hot
      split at hot
      · cases hot
      · cases hot
        rcases hs with rfl | rfl <;> rfl
    · intro hok; rw [h] at hok; cases hok
  · rw [hout, determineOutputType, if_pos rfl] at hot
    split at hot
    · cases hot
    · rename_i hle
      cases hot
      constructor
      · intro s hs
        rw [h] at hs
        simp only [processGo_stdout, List.mem_cons, List.not_mem_nil, or_false] at hs
        rcases hs with rfl | rfl <;> rfl
      · intro hok
        have hlen := outputNamesGo_length env _ _ _ _ hnames
        have hpos : inputs ≠ [] := by
          rintro rfl
          rw [listInputs] at hli
          split at hli
          · split at hli
            · cases hli
            · cases hli
            · rename_i ms hne _
              cases ms with
              | nil => exact absurd rfl (by assumption)
              | cons => cases hli
          · split at hli <;> cases hli
        match inputs, names, hle, hpos, hlen, hli, h, hok with
        | [i], [name], _, _, _, hli, h, hok =>
          rw [h] at hok ⊢
          simp only [List.zip_cons_cons, List.zip_nil_right] at hok ⊢
          rcases processGo_cons env cfg .stdout (afterMkdir env cfg .stdout fs).1 i name [] with ⟨e, h2⟩ | ⟨data, md, hr0, hc, ⟨hot', h2⟩ | ⟨hot, _⟩⟩
          · rw [h2] at hok; cases hok
          · refine ⟨i, data, md, hli, hr0, hc, ?_⟩
            rw [h2]
            simp [processGo]
          · exact absurd rfl hot
        | _ :: _ :: _, _, hle, _, _, _, _, _ => exact absurd (by simp) hle
        | [], _, _, hpos, _, _, _, _ => exact absurd rfl hpos
        | [_], [], _, _, hlen, _, _, _ => simp at hlen
        | [_], _ :: _ :: _, _, _, hlen, _, _, _ => simp at hlen

example : (runConfig exEnv { input := b!"one" } exFs).err = none ∧ (runConfig exEnv { input := b!"one" } exFs).stdout = b!"A\n" := by decide +kernel

/-! ## C62 -/

/-- **C62**: a command line is accepted exactly if it can be read as known flags and the flags are valid. -/
theorem c62_accept_iff (parseSelector : Bytes → Option (List Bytes)) (args : List Bytes) :
    (∃ cfg, parseFlags parseSelector args = .ok cfg) ↔
      ∃ flags rest, Reads args flags rest ∧ Valid (fun v => (parseSelector v).isSome) flags := parseFlags_iff parseSelector args

/-- **C62**: a command line can be read in one way only, so that "the flags of a command line" is well defined. -/
theorem c62_reading_unique (args : List Bytes) (flags flags' : List (Bytes × Option Bytes)) (rest rest' : List Bytes)
    (h : Reads args flags rest) (h' : Reads args flags' rest') : flags = flags' ∧ rest = rest' := reads_unique h h'

/-- **C62**: what the flags of an accepted command line mean.  A flag without a value is on if its last mention says so; of the other flags the
last value counts, but the selectors of all mentions are used, in their order. -/
theorem c62_settings (parseSelector : Bytes → Option (List Bytes)) (args : List Bytes) (flags : List (Bytes × Option Bytes)) (rest : List Bytes)
    (cfg : Config) (hr : Reads args flags rest) (h : parseFlags parseSelector args = .ok cfg) :
    let text n := ((lastGiven n flags).map (·.getD []))
    let selectors n := (flags.filter fun f => f.1 = n).flatMap fun f => (parseSelector (f.2.getD [])).getD []
    cfg.args = rest ∧
    (cfg.overwrite = true ↔ IsOn b!"output-overwrite" flags) ∧ (cfg.strikethrough = true ↔ IsOn b!"plugin-strikethrough" flags) ∧
    (cfg.table = true ↔ IsOn b!"plugin-table" flags) ∧ (cfg.skipEmptyRows = true ↔ IsOn b!"opt-table-skip-empty-rows" flags) ∧
    (cfg.headerPromotion = true ↔ IsOn b!"opt-table-header-promotion" flags) ∧
    (cfg.presentationTables = true ↔ IsOn b!"opt-table-presentation-tables" flags) ∧
    cfg.input = ((text b!"input").map trimSpace).getD [] ∧ cfg.output = ((text b!"output").map trimSpace).getD [] ∧
    cfg.domain = (text b!"domain").getD [] ∧ cfg.strongDelimiter = (text b!"opt-strong-delimiter").getD b!"**" ∧
    cfg.spanCellBehavior = (text b!"opt-table-span-cell-behavior").getD [] ∧
    cfg.newlineBehavior = (text b!"opt-table-newline-behavior").getD [] ∧
    cfg.cellPaddingBehavior = (text b!"opt-table-cell-padding-behavior").getD [] ∧
    cfg.includeSel = selectors b!"include-selector" ∧ cfg.excludeSel = selectors b!"exclude-selector" := by
  obtain ⟨c2, ha, rfl⟩ := parseFlags_config hr h
  obtain ⟨a1, a2, a3, a4, a5, a6, a7, a8, a9, -⟩ := applyFlags_effect parseSelector flags {} c2 ha
  obtain ⟨b1, b2, b3, b4, b5, b6⟩ := applyFlags_effect2 parseSelector flags {} c2 ha
  refine ⟨rfl, ?_, ?_, ?_, ?_, ?_, ?_, ?_, ?_, b3, a9, a6, a7, a8, b5.trans (List.nil_append _), b6.trans (List.nil_append _)⟩
  · rw [← on_iff]; exact (iff_of_eq (congrArg (· = true) a1))
  · rw [← on_iff]; exact (iff_of_eq (congrArg (· = true) b4))
  · rw [← on_iff]; exact (iff_of_eq (congrArg (· = true) a2))
  · rw [← on_iff]; exact (iff_of_eq (congrArg (· = true) a3))
  · rw [← on_iff]; exact (iff_of_eq (congrArg (· = true) a4))
  · rw [← on_iff]; exact (iff_of_eq (congrArg (· = true) a5))
  · rw [Option.map_map]; exact b1
  · rw [Option.map_map]; exact b2

example : (parseFlags exEnv.parseSelector [b!"--input", b!"a ", b!"-exclude-selector=nav", b!"--exclude-selector", b!"footer", b!"--plugin-table=f"]).toOption.map
    (fun c => (c.input, c.excludeSel, c.table)) = some (b!"a", [b!"nav", b!"footer"], false) := by decide +kernel

/-- **C62**: if a command line is not valid, or if it has positional arguments, the run ends with an error before anything is written or printed. -/
theorem c62_rejected (env : Env) (args : List Bytes) (fs : FS)
    (h : ∀ flags rest, Reads args flags rest → Valid (fun v => (env.parseSelector v).isSome) flags → rest ≠ []) :
    (run env args fs).err ≠ none ∧ (run env args fs).states = [fs] ∧ (run env args fs).stdout = [] := by
  rw [run]
  cases hp : parseFlags env.parseSelector args with
  | error e => exact ⟨by simp, rfl, rfl⟩
  | ok cfg =>
    obtain ⟨flags, rest, hr, hv⟩ := (parseFlags_iff env.parseSelector args).mp ⟨cfg, hp⟩
    obtain ⟨c2, _, hc⟩ := parseFlags_config hr hp
    have hne : cfg.args ≠ [] := by rw [hc]; exact h flags rest hr hv
    simp [runConfig, hne]

/-- **C62**: an unknown value of a table option, or a bold delimiter without two equal delimiter bytes, is an error; nothing is printed and no file is
changed (the output directory may be created before). -/
theorem c62_values (env : Env) (args : List Bytes) (fs : FS) (flags : List (Bytes × Option Bytes)) (rest : List Bytes)
    (hr : Reads args flags rest) (hver : ∀ f ∈ flags, f.1 ∉ [b!"version", b!"v"])
    (h : (∃ v, lastGiven b!"opt-table-span-cell-behavior" flags = some (some v) ∧ v ∉ [[], b!"empty", b!"mirror"]) ∨
      (∃ v, lastGiven b!"opt-table-newline-behavior" flags = some (some v) ∧ v ∉ [[], b!"skip", b!"preserve"]) ∨
      (∃ v, lastGiven b!"opt-table-cell-padding-behavior" flags = some (some v) ∧ v ∉ [[], b!"aligned", b!"minimal", b!"none"]) ∨
      (∃ v, lastGiven b!"opt-strong-delimiter" flags = some (some v) ∧ v ≠ [] ∧ v.count 42 ≠ 2 ∧ v.count 95 ≠ 2)) :
    (run env args fs).err ≠ none ∧ (run env args fs).stdout = [] ∧
    ∀ s ∈ (run env args fs).states, ∀ p, s p = fs p ∨ (fs p = none ∧ s p = some .dir) := by
  rw [run]
  cases hp : parseFlags env.parseSelector args with
  | error e => exact ⟨by simp, rfl, fun s hs p => .inl (by simp only [List.mem_singleton] at hs; rw [hs])⟩
  | ok cfg =>
    obtain ⟨c2, ha, hc⟩ := parseFlags_config hr hp
    obtain ⟨_, e2, e3, e4, e5, e6, e7, e8, e9, e10⟩ := applyFlags_effect env.parseSelector flags {} c2 ha
    have hct : checkTable c2 = true := by
      rw [parseFlags, parseArgs_reads env.parseSelector hr {} rfl, ha] at hp
      dsimp only at hp
      split at hp
      · assumption
      · cases hp
    have hver' : cfg.version = false := by rw [hc]; exact e10 hver
    have hconv : ∀ d, ∃ e, convert env cfg d = .error e := by
      intro d
      rw [convert]
      split
      · exact ⟨_, rfl⟩
      · rename_i hopt
        split
        · exact ⟨_, rfl⟩
        · rename_i hval
          exfalso
          subst hc
          rcases h with ⟨v, hl, hv⟩ | ⟨v, hl, hv⟩ | ⟨v, hl, hv⟩ | ⟨v, hl, hv0, hv1, hv2⟩
          · rw [hl] at e6
            have hs : c2.spanCellBehavior = v := by simpa using e6
            have hne : v ≠ [] := fun e => hv (by simp [e])
            have ht : c2.table = true := by
              rw [checkTable, hs] at hct
              simpa [hne] using hct
            exact hopt ⟨ht, .inl (by rw [show ({ c2 with args := rest } : Config).spanCellBehavior = v from hs]; exact hv)⟩
          · rw [hl] at e7
            have hs : c2.newlineBehavior = v := by simpa using e7
            have hne : v ≠ [] := fun e => hv (by simp [e])
            have ht : c2.table = true := by
              rw [checkTable, hs] at hct
              simpa [hne] using hct
            exact hopt ⟨ht, .inr (.inl (by rw [show ({ c2 with args := rest } : Config).newlineBehavior = v from hs]; exact hv))⟩
          · rw [hl] at e8
            have hs : c2.cellPaddingBehavior = v := by simpa using e8
            have hne : v ≠ [] := fun e => hv (by simp [e])
            have ht : c2.table = true := by
              rw [checkTable, hs] at hct
              simpa [hne] using hct
            exact hopt ⟨ht, .inr (.inr (by rw [show ({ c2 with args := rest } : Config).cellPaddingBehavior = v from hs]; exact hv))⟩
          · rw [hl] at e9
            have hs : c2.strongDelimiter = v := by simpa using e9
            refine hval ?_
            rw [show ({ c2 with args := rest } : Config).strongDelimiter = v from hs]
            simp [Config.newPlugin, Config.fillInDefault, Config.orDefault, hv0, Config.validate, hv1, hv2]
    have hproc : ∀ ot fs i name jobs, ∃ e, processGo env cfg ot fs ((i, name) :: jobs) = { states := [], err := some e } := by
      intro ot fs i name jobs
      rw [processGo]
      cases readInput fs i with
      | none => exact ⟨_, rfl⟩
      | some d =>
        obtain ⟨e, he⟩ := hconv d
        simp [he]
    rcases runConfig_cases env cfg fs with ⟨err, out, h, h', hno, -⟩ | ⟨inputs, ot, _, _, hli, hot, ⟨e, h⟩ | ⟨names, hnames, h⟩⟩
    · dsimp only
      rw [h]
      refine ⟨?_, hno hver', fun s hs p => .inl (by simp only [List.mem_singleton] at hs; rw [hs])⟩
      rcases h' with h' | h' | h'
      · rw [hver'] at h'; cases h'
      · simp only [runConfig, h', ne_eq, not_false_eq_true, if_true] at h
        rw [Outcome.mk.injEq] at h
        rw [← h.2.2]; simp
      · exact h'
    · dsimp only
      rw [h]
      refine ⟨by simp, rfl, fun s hs p => ?_⟩
      simp only [List.mem_cons, List.not_mem_nil, or_false] at hs
      rcases hs with rfl | rfl
      · exact .inl rfl
      · exact afterMkdir_dirs env cfg ot fs p
    · have hlen := outputNamesGo_length env _ _ _ _ hnames
      have hpos : inputs ≠ [] := by
        rintro rfl
        rw [listInputs] at hli
        split at hli
        · split at hli
          · cases hli
          · cases hli
          · rename_i ms hne _
            cases ms with
            | nil => exact absurd rfl (by assumption)
            | cons => cases hli
        · split at hli <;> cases hli
      match inputs, names, hpos, hlen, h with
      | [], _, hpos, _, _ => exact absurd rfl hpos
      | _ :: _, [], _, hlen, _ => simp at hlen
      | i :: is, name :: ns, _, _, h =>
        obtain ⟨e, he⟩ := hproc ot (afterMkdir env cfg ot fs).1 i name (is.zip ns)
        dsimp only
        rw [h]
        simp only [List.zip_cons_cons, he]
        refine ⟨by simp, trivial, fun s hs p => ?_⟩
        simp only [List.mem_cons, List.not_mem_nil, or_false] at hs
        rcases hs with rfl | rfl
        · exact .inl rfl
        · exact afterMkdir_dirs env cfg ot fs p

example : ∃ flags rest, Reads [b!"--plugin-table", b!"--opt-table-newline-behavior", b!"keep"] flags rest ∧
    lastGiven b!"opt-table-newline-behavior" flags = some (some b!"keep") :=
  ⟨_, _, .bool (dash := b!"--") (name := b!"plugin-table") (by simp) (by decide)
    (.nextArg (dash := b!"--") (name := b!"opt-table-newline-behavior") (by simp) (by decide) .done), by decide⟩

/-- **C62, counterexample**: other flags may be given twice, the last one counts; and a bold delimiter with other bytes in it is accepted. -/
theorem c62_counterexample :
    (∃ c, parseFlags (fun v => some [v]) [b!"--domain=a", b!"--domain=b"] = .ok c ∧ c.domain = b!"b") ∧
    (run exEnv [b!"-input=one", b!"-opt-strong-delimiter=a**b"] exFs).err = none := by
  refine ⟨?_, by decide +kernel⟩
  have : (parseFlags (fun v => some [v]) [b!"--domain=a", b!"--domain=b"]).toOption.map (·.domain) = some b!"b" := by decide +kernel
  cases h : parseFlags (fun v => some [v]) [b!"--domain=a", b!"--domain=b"] with
  | error e => rw [h] at this; cases this
  | ok c => rw [h] at this; exact ⟨c, rfl, by simpa [Except.toOption] using this⟩

/-! ## C66 -/

/-- **C66, partial**: wherever a run is interrupted, every path holds what it held at the start, or is a new directory, or is a
destination that holds the beginning of the conversion of an input; without overwriting, what existed is untouched.
Missing: with overwriting, the old content is lost before the new one is complete. -/
theorem c66_interrupted_partial (env : Env) (cfg : Config) (fs : FS) (s : FS) (hs : s ∈ (runConfig env cfg fs).states) (p : Bytes) :
    (s p = fs p ∨ (fs p = none ∧ s p = some .dir) ∨
      ∃ inputs i, listInputs env cfg = .ok inputs ∧ i ∈ inputs ∧ ∃ s' ∈ (runConfig env cfg fs).states, ∃ d md k,
        readInput s' i = some d ∧ convert env cfg d = .ok md ∧ s p = some (.file (md.take k))) ∧
    (cfg.overwrite = false → fs p ≠ none → s p = fs p) := by
  constructor
  · rcases runConfig_cases env cfg fs with ⟨err, out, h, _⟩ | ⟨inputs, ot, _, _, hli, hot, ⟨e, h⟩ | ⟨names, hnames, h⟩⟩
    · rw [h] at hs; simp only [List.mem_singleton] at hs; subst hs; exact .inl rfl
    · rw [h] at hs
      simp only [List.mem_cons, List.not_mem_nil, or_false] at hs
      rcases hs with rfl | rfl
      · exact .inl rfl
      · rcases afterMkdir_dirs env cfg ot fs p with h | h
        · exact .inl h
        · exact .inr (.inl h)
    · rw [h] at hs ⊢
      simp only [List.mem_cons] at hs
      rcases hs with rfl | rfl | hs
      · exact .inl rfl
      · rcases afterMkdir_dirs env cfg ot fs p with h | h
        · exact .inl h
        · exact .inr (.inl h)
      · rcases processGo_states env cfg ot _ _ s hs p with h1 | ⟨_, i, name, hm, _, s', hs', d, md, k, h1, h2, h3⟩
        · rw [h1]
          rcases afterMkdir_dirs env cfg ot fs p with h | h
          · exact .inl h
          · exact .inr (.inl h)
        · refine .inr (.inr ⟨inputs, i, hli, (List.of_mem_zip hm).1, s', ?_, d, md, k, h1, h2, h3⟩)
          rcases List.mem_cons.mp hs' with rfl | hs'
          · simp
          · exact List.mem_cons_of_mem _ (List.mem_cons_of_mem _ hs')
  · intro hov hne
    obtain ⟨e, he⟩ := Option.ne_none_iff_exists'.mp hne
    rw [he]
    exact runConfig_keeps env cfg hov fs s hs p e he

/-- **C66, counterexample**: with overwriting there is a moment where the file holds neither the old nor the new content. -/
theorem c66_counterexample :
    let o := run exEnv [b!"-input=one", b!"-output=old.md", b!"-output-overwrite"] exFs
    o.err = none ∧ o.final exFs b!"old.md" = some (.file b!"A") ∧
    o.states.any (fun s => s b!"old.md" ≠ exFs b!"old.md" && s b!"old.md" ≠ some (.file b!"A")) = true := by
  decide +kernel

end Verif.Props
