import Verif.Model.Cli
import Verif.Spec.Cli
/-!
# Lemmas about runs of the command line tool
-/

namespace Verif.Cli
open Verif

/-- Everything that exists in `fs` is the same in `s`. -/
def KeepsAll (fs s : FS) : Prop := ∀ p e, fs p = some e → s p = some e

theorem KeepsAll.trans {a b c : FS} (h : KeepsAll a b) (h' : KeepsAll b c) : KeepsAll a c := fun p e he => h' p e (h p e he)
theorem KeepsAll.refl (a : FS) : KeepsAll a a := fun _ _ h => h

theorem keeps_write {fs : FS} {path data} (h : fs path = none) : KeepsAll fs (fs.write path data) := by
  intro p e he
  rw [FS.write]
  split
  · rename_i hp; subst hp; rw [h] at he; cases he
  · exact he

/-- Either nothing happens and there is an error, or the data is written up to some byte. -/
theorem writeFile_cases (fs : FS) (path data : Bytes) (ov openFails : Bool) (fault : Option Nat) :
    (∃ e, writeFile fs path data ov openFails fault = ([], some e)) ∨
    ((ov = false → fs path = none) ∧ fs path ≠ some .dir ∧ ∃ n err, n ≤ data.length ∧ (err = none → n = data.length) ∧
      writeFile fs path data ov openFails fault = ((List.range (n + 1)).map fun k => fs.write path (data.take k), err)) := by
  have go : ∀ (h1 : ov = false → fs path = none) (h2 : fs path ≠ some .dir),
      writeFile fs path data ov false fault = ((List.range ((match fault with
        | none => data.length
        | some k => min k data.length) + 1)).map fun k => fs.write path (data.take k), fault.map fun _ => .write) →
      (∃ e, writeFile fs path data ov false fault = ([], some e)) ∨
      ((ov = false → fs path = none) ∧ fs path ≠ some .dir ∧ ∃ n err, n ≤ data.length ∧ (err = none → n = data.length) ∧
      writeFile fs path data ov false fault = ((List.range (n + 1)).map fun k => fs.write path (data.take k), err)) := by
    intro h1 h2 h
    refine .inr ⟨h1, h2, _, _, ?_, ?_, h⟩
    · cases fault <;> simp <;> omega
    · cases fault <;> simp
  cases openFails with
  | true => exact .inl ⟨.write, by simp [writeFile]⟩
  | false =>
    cases hp : fs path with
    | none =>
      rw [hp] at go
      exact go (fun _ => rfl) (by simp) (by simp only [writeFile, hp]; rfl)
    | some e =>
      cases ov with
      | false => exact .inl ⟨.exists, by simp [writeFile, hp]⟩
      | true =>
        rw [hp] at go
        cases e with
        | dir => exact .inl ⟨.write, by simp [writeFile, hp]⟩
        | file d => exact go (by simp) (by simp) (by simp only [writeFile, hp]; rfl)

theorem processGo_keeps (env : Env) (cfg : Config) (hov : cfg.overwrite = false) (ot : OutputType) :
    ∀ (jobs : List (Input × Bytes)) (fs : FS), ∀ s ∈ (processGo env cfg ot fs jobs).states, KeepsAll fs s := by
  intro jobs
  induction jobs with
  | nil => intro fs s hs; simp [processGo] at hs
  | cons j jobs ih =>
    intro fs s hs
    obtain ⟨i, name⟩ := j
    rw [processGo] at hs
    split at hs
    · simp at hs
    · split at hs
      · simp at hs
      · rename_i md _
        split at hs
        · exact ih fs s hs
        · rw [hov] at hs
          dsimp only at hs
          generalize (if ot = .directory then env.join cfg.output name else cfg.output) = path at hs
          rcases writeFile_cases fs path md false (env.openFails fs path) (env.fault path) with ⟨e, h⟩ | ⟨hnone, _, n, err, _, _, h⟩
          · rw [h] at hs
            simp at hs
          · rw [h] at hs
            have hkw : ∀ k, KeepsAll fs (fs.write path (md.take k)) := fun k => keeps_write (hnone rfl)
            cases err with
            | some e =>
              simp only [List.mem_map] at hs
              obtain ⟨k, _, rfl⟩ := hs
              exact hkw k
            | none =>
              simp only [List.mem_append, List.mem_map] at hs
              rcases hs with ⟨k, _, rfl⟩ | hs
              · exact hkw k
              · refine KeepsAll.trans ?_ (ih _ s hs)
                simp only [List.range_succ, List.map_append, List.map_cons, List.map_nil, List.getLast?_concat, Option.getD_some]
                exact hkw n

theorem mkdirAll_keeps (env : Env) (fs : FS) (d : Bytes) : KeepsAll fs (env.mkdirAll fs d).1 := by
  intro p e he
  rcases env.mkdirAll_adds fs d p with h | ⟨h, _⟩
  · rw [h, he]
  · rw [h] at he; cases he

/-- The file system after the directories were created. -/
def afterMkdir (env : Env) (cfg : Config) (ot : OutputType) (fs : FS) : FS × Bool :=
  match ot with
  | .stdout => (fs, true)
  | .directory => env.mkdirAll fs cfg.output
  | .file => env.mkdirAll fs (env.dirOf cfg.output)

theorem afterMkdir_keeps (env cfg ot fs) : KeepsAll fs (afterMkdir env cfg ot fs).1 := by
  cases ot
  · exact .refl fs
  · exact mkdirAll_keeps env fs _
  · exact mkdirAll_keeps env fs _

theorem afterMkdir_dirs (env : Env) (cfg ot) (fs : FS) (p : Bytes) :
    (afterMkdir env cfg ot fs).1 p = fs p ∨ (fs p = none ∧ (afterMkdir env cfg ot fs).1 p = some .dir) := by
  cases ot
  · exact .inl rfl
  · exact env.mkdirAll_adds fs _ p
  · exact env.mkdirAll_adds fs _ p

/-- The cases of a run. -/
theorem runConfig_cases (env : Env) (cfg : Config) (fs : FS) :
    (∃ err out, runConfig env cfg fs = { states := [fs], stdout := out, err := err } ∧ (cfg.version = true ∨ cfg.args ≠ [] ∨ err ≠ none) ∧
      (cfg.version = false → out = []) ∧ (err ≠ none → out = [])) ∨
    ∃ inputs ot, cfg.args = [] ∧ cfg.version = false ∧ listInputs env cfg = .ok inputs ∧
      determineOutputType fs inputs.length cfg.output = .ok ot ∧
      ((∃ e, runConfig env cfg fs = { states := [fs, (afterMkdir env cfg ot fs).1], err := some e }) ∨
       ∃ names, outputNames env cfg.input (inputs.map (·.path)) = some names ∧
        runConfig env cfg fs =
          { processGo env cfg ot (afterMkdir env cfg ot fs).1 (inputs.zip names) with
            states := fs :: (afterMkdir env cfg ot fs).1 :: (processGo env cfg ot (afterMkdir env cfg ot fs).1 (inputs.zip names)).states }) := by
  rw [runConfig]
  split
  · rename_i h; exact .inl ⟨_, _, rfl, .inr (.inl h), fun _ => rfl, fun _ => rfl⟩
  · rename_i hargs
    split
    · rename_i h; exact .inl ⟨none, _, rfl, .inl h, fun h' => (by rw [h] at h'; cases h'), fun h' => absurd rfl h'⟩
    · rename_i hv
      split
      · exact .inl ⟨_, _, rfl, .inr (.inr (by simp)), fun _ => rfl, fun _ => rfl⟩
      · rename_i inputs hi
        split
        · exact .inl ⟨_, _, rfl, .inr (.inr (by simp)), fun _ => rfl, fun _ => rfl⟩
        · rename_i ot hot
          refine .inr ⟨inputs, ot, Classical.not_not.mp hargs, by simpa using hv, hi, hot, ?_⟩
          show (∃ e, (if !(afterMkdir env cfg ot fs).2 then ({ states := [fs, (afterMkdir env cfg ot fs).1], err := some .mkdir } : Outcome) else _) = _) ∨ ∃ names, _ ∧
            (if !(afterMkdir env cfg ot fs).2 then ({ states := [fs, (afterMkdir env cfg ot fs).1], err := some .mkdir } : Outcome) else _) = _
          split
          · exact .inl ⟨_, rfl⟩
          · split
            · exact .inl ⟨_, rfl⟩
            · rename_i names hn
              exact .inr ⟨names, hn, rfl⟩

theorem runConfig_keeps (env : Env) (cfg : Config) (hov : cfg.overwrite = false) (fs : FS) :
    ∀ s ∈ (runConfig env cfg fs).states, KeepsAll fs s := by
  intro s hs
  rcases runConfig_cases env cfg fs with ⟨err, out, h, _⟩ | ⟨inputs, ot, _, _, _, _, ⟨e, h⟩ | ⟨names, _, h⟩⟩
  · rw [h] at hs; simp only [List.mem_singleton] at hs; subst hs; exact .refl _
  · rw [h] at hs
    simp only [List.mem_cons, List.not_mem_nil, or_false] at hs
    rcases hs with rfl | rfl
    · exact .refl _
    · exact afterMkdir_keeps env cfg ot fs
  · rw [h] at hs
    simp only [List.mem_cons] at hs
    rcases hs with rfl | rfl | hs
    · exact .refl _
    · exact afterMkdir_keeps env cfg ot fs
    · exact (afterMkdir_keeps env cfg ot fs).trans (processGo_keeps env cfg hov ot _ _ s hs)

/-- Where the result of an input goes. -/
def dest (env : Env) (cfg : Config) (ot : OutputType) (name : Bytes) : Bytes :=
  if ot = .directory then env.join cfg.output name else cfg.output

/-- One step of the loop. -/
theorem processGo_cons (env : Env) (cfg : Config) (ot : OutputType) (fs : FS) (i : Input) (name : Bytes) (rest : List (Input × Bytes)) :
    (∃ e, processGo env cfg ot fs ((i, name) :: rest) = { states := [], err := some e }) ∨
    ∃ data md, readInput fs i = some data ∧ convert env cfg data = .ok md ∧
      ((ot = .stdout ∧ processGo env cfg ot fs ((i, name) :: rest) =
          { processGo env cfg ot fs rest with stdout := md ++ [NL] ++ (processGo env cfg ot fs rest).stdout }) ∨
       (ot ≠ .stdout ∧ (cfg.overwrite = false → fs (dest env cfg ot name) = none) ∧ ∃ n, n ≤ md.length ∧
        ((∃ e, processGo env cfg ot fs ((i, name) :: rest) =
            { states := (List.range (n + 1)).map fun k => fs.write (dest env cfg ot name) (md.take k), err := some e }) ∨
         processGo env cfg ot fs ((i, name) :: rest) =
            { processGo env cfg ot (fs.write (dest env cfg ot name) md) rest with
              states := ((List.range (md.length + 1)).map fun k => fs.write (dest env cfg ot name) (md.take k)) ++
                (processGo env cfg ot (fs.write (dest env cfg ot name) md) rest).states }))) := by
  rw [processGo]
  cases hr : readInput fs i with
  | none => exact .inl ⟨_, rfl⟩
  | some data =>
    dsimp only
    cases hc : convert env cfg data with
    | error e => exact .inl ⟨_, rfl⟩
    | ok md =>
      dsimp only
      by_cases hot : ot = .stdout
      · subst hot
        exact .inr ⟨data, md, rfl, hc, .inl ⟨rfl, rfl⟩⟩
      · rw [if_neg hot]
        have hD : (if ot = .directory then env.join cfg.output name else cfg.output) = dest env cfg ot name := rfl
        rw [hD]
        rcases writeFile_cases fs (dest env cfg ot name) md cfg.overwrite (env.openFails fs (dest env cfg ot name)) (env.fault (dest env cfg ot name)) with
          ⟨e, h⟩ | ⟨hnone, _, n, err, hn, hnl, h⟩
        · rw [h]; exact .inl ⟨_, rfl⟩
        · refine .inr ⟨data, md, rfl, hc, .inr ⟨hot, hnone, n, hn, ?_⟩⟩
          rw [h]
          cases err with
          | some e => exact .inl ⟨_, rfl⟩
          | none =>
            have := hnl rfl
            subst this
            refine .inr ?_
            dsimp only
            rw [show (((List.range (md.length + 1)).map fun k => fs.write (dest env cfg ot name) (md.take k)).getLast?.getD fs) =
              fs.write (dest env cfg ot name) md by
                simp only [List.range_succ, List.map_append, List.map_cons, List.map_nil, List.getLast?_concat, Option.getD_some, List.take_length]]

/-- Every state differs from the first only at the destinations, which hold a part of the conversion of an input. -/
theorem processGo_states (env : Env) (cfg : Config) (ot : OutputType) : ∀ (jobs : List (Input × Bytes)) (fs : FS),
    ∀ s ∈ (processGo env cfg ot fs jobs).states, ∀ p, s p = fs p ∨
      (ot ≠ .stdout ∧ ∃ i name, (i, name) ∈ jobs ∧ p = dest env cfg ot name ∧
        ∃ s' ∈ fs :: (processGo env cfg ot fs jobs).states, ∃ d md k, readInput s' i = some d ∧ convert env cfg d = .ok md ∧ s p = some (.file (md.take k))) := by
  intro jobs
  induction jobs with
  | nil => intro fs s hs; simp [processGo] at hs
  | cons j jobs ih =>
    intro fs s hs p
    obtain ⟨i, name⟩ := j
    have hw : ∀ {md : Bytes} {d : Bytes} (k : Nat), readInput fs i = some d → convert env cfg d = .ok md → ot ≠ .stdout →
        (fs.write (dest env cfg ot name) (md.take k)) p = fs p ∨ (ot ≠ .stdout ∧ ∃ i' name', (i', name') ∈ (i, name) :: jobs ∧ p = dest env cfg ot name' ∧
        ∃ s' ∈ fs :: (processGo env cfg ot fs ((i, name) :: jobs)).states, ∃ d md' k', readInput s' i' = some d ∧ convert env cfg d = .ok md' ∧
          (fs.write (dest env cfg ot name) (md.take k)) p = some (.file (md'.take k'))) := by
      intro md d k hr hc hot
      by_cases hp : p = dest env cfg ot name
      · exact .inr ⟨hot, i, name, by simp, hp, fs, by simp, d, md, k, hr, hc, by rw [FS.write, if_pos hp]⟩
      · exact .inl (by rw [FS.write, if_neg hp])
    rcases processGo_cons env cfg ot fs i name jobs with ⟨e, h⟩ | ⟨data, md, hr, hc, ⟨hot, h⟩ | ⟨hot, _, n, hn, ⟨e, h⟩ | h⟩⟩
    · rw [h] at hs; simp at hs
    · rw [h] at hs
      rcases ih fs s hs p with h1 | ⟨h0, _⟩
      · exact .inl h1
      · exact absurd hot h0
    · rw [h] at hs
      simp only [List.mem_map] at hs
      obtain ⟨k, _, rfl⟩ := hs
      exact hw k hr hc hot
    · have hs' := hs
      rw [h] at hs'
      simp only [List.mem_append, List.mem_map] at hs'
      rcases hs' with ⟨k, _, rfl⟩ | hs'
      · exact hw k hr hc hot
      · rcases ih _ s hs' p with h1 | ⟨h0, i', name', hm, hp, s', hs'', d, md', k, hrr, hcc, hsp⟩
        · rw [h1]
          have := hw md.length hr hc hot
          simpa only [List.take_length] using this
        · refine .inr ⟨h0, i', name', List.mem_cons_of_mem _ hm, hp, s', ?_, d, md', k, hrr, hcc, hsp⟩
          rw [h]
          refine List.mem_cons_of_mem _ (List.mem_append.mpr ?_)
          rcases List.mem_cons.mp hs'' with rfl | hs''
          · refine .inl (List.mem_map.mpr ⟨md.length, by simp, by simp⟩)
          · exact .inr hs''

theorem mem_final (o : Outcome) (fs : FS) : o.final fs ∈ fs :: o.states := by
  rw [Outcome.final]
  cases h : o.states.getLast? with
  | none => simp
  | some s => exact List.mem_cons_of_mem _ (List.mem_of_getLast? h)

theorem final_append (a b : List FS) (fs : FS) : (a ++ b).getLast?.getD fs = b.getLast?.getD (a.getLast?.getD fs) := by
  rw [List.getLast?_append]
  cases b.getLast? <;> rfl

theorem processGo_final_cons {env cfg ot fs i name rest md}
    (h : processGo env cfg ot fs ((i, name) :: rest) =
            { processGo env cfg ot (fs.write (dest env cfg ot name) md) rest with
              states := ((List.range (md.length + 1)).map fun k => fs.write (dest env cfg ot name) (md.take k)) ++
                (processGo env cfg ot (fs.write (dest env cfg ot name) md) rest).states }) :
    (processGo env cfg ot fs ((i, name) :: rest)).final fs =
      (processGo env cfg ot (fs.write (dest env cfg ot name) md) rest).final (fs.write (dest env cfg ot name) md) := by
  rw [h, Outcome.final, final_append, Outcome.final]
  simp only [List.range_succ, List.map_append, List.map_cons, List.map_nil, List.getLast?_concat, Option.getD_some, List.take_length]

theorem readInput_keeps {fs s : FS} (h : KeepsAll fs s) {i d} (hr : readInput fs i = some d) : readInput s i = some d := by
  rw [readInput] at hr ⊢
  split at hr
  · exact hr
  · split at hr
    · rename_i he
      rw [h _ _ he]
      exact hr
    · cases hr

/-- Without overwriting, a run without an error leaves every result in its place. -/
theorem processGo_success (env : Env) (cfg : Config) (hov : cfg.overwrite = false) (ot : OutputType) (hot : ot ≠ .stdout) :
    ∀ (jobs : List (Input × Bytes)) (fs : FS), (processGo env cfg ot fs jobs).err = none →
      ∀ i name, (i, name) ∈ jobs → ∀ d, readInput fs i = some d → ∃ md, convert env cfg d = .ok md ∧
        (processGo env cfg ot fs jobs).final fs (dest env cfg ot name) = some (.file md) := by
  intro jobs
  induction jobs with
  | nil => intro fs _ i name hm; simp at hm
  | cons j jobs ih =>
    intro fs he i name hm d hr
    obtain ⟨i0, name0⟩ := j
    rcases processGo_cons env cfg ot fs i0 name0 jobs with ⟨e, h⟩ | ⟨data, md, hr0, hc, ⟨hot', h⟩ | ⟨_, hno, n, hn, ⟨e, h⟩ | h⟩⟩
    · rw [h] at he; cases he
    · exact absurd hot' hot
    · rw [h] at he; cases he
    · rw [processGo_final_cons h]
      have he' : (processGo env cfg ot (fs.write (dest env cfg ot name0) md) jobs).err = none := by rw [h] at he; exact he
      have hk := keeps_write (data := md) (hno hov)
      rcases List.mem_cons.mp hm with heq | hm
      · obtain ⟨rfl, rfl⟩ := Prod.mk.injEq .. ▸ heq
        rw [hr0] at hr
        cases hr
        refine ⟨md, hc, ?_⟩
        have hw : (fs.write (dest env cfg ot name) md) (dest env cfg ot name) = some (.file md) := by rw [FS.write, if_pos rfl]
        rcases List.mem_cons.mp (mem_final (processGo env cfg ot (fs.write (dest env cfg ot name) md) jobs) (fs.write (dest env cfg ot name) md)) with e | e
        · rw [e]; exact hw
        · exact processGo_keeps env cfg hov ot jobs _ _ e _ _ hw
      · exact ih _ he' i name hm d (readInput_keeps hk hr)

/-- With overwriting it is the same if the destinations are distinct and are not inputs. -/
theorem processGo_success_distinct (env : Env) (cfg : Config) (ot : OutputType) (hot : ot ≠ .stdout) :
    ∀ (jobs : List (Input × Bytes)) (fs : FS), (processGo env cfg ot fs jobs).err = none →
      (jobs.map fun j => dest env cfg ot j.2).Nodup → (∀ j ∈ jobs, ∀ j' ∈ jobs, j'.1.path ≠ dest env cfg ot j.2 ∨ j'.1.data ≠ none) →
      ∀ i name, (i, name) ∈ jobs → ∃ d md, readInput fs i = some d ∧ convert env cfg d = .ok md ∧
        (processGo env cfg ot fs jobs).final fs (dest env cfg ot name) = some (.file md) := by
  intro jobs
  induction jobs with
  | nil => intro fs _ _ _ i name hm; simp at hm
  | cons j jobs ih =>
    intro fs he hnd hdis i name hm
    obtain ⟨i0, name0⟩ := j
    rcases processGo_cons env cfg ot fs i0 name0 jobs with ⟨e, h⟩ | ⟨data, md, hr0, hc, ⟨hot', h⟩ | ⟨_, hno, n, hn, ⟨e, h⟩ | h⟩⟩
    · rw [h] at he; cases he
    · exact absurd hot' hot
    · rw [h] at he; cases he
    · rw [processGo_final_cons h]
      have he' : (processGo env cfg ot (fs.write (dest env cfg ot name0) md) jobs).err = none := by rw [h] at he; exact he
      rw [List.map_cons, List.nodup_cons] at hnd
      rcases List.mem_cons.mp hm with heq | hm
      · obtain ⟨rfl, rfl⟩ := Prod.mk.injEq .. ▸ heq
        refine ⟨data, md, hr0, hc, ?_⟩
        have hw : (fs.write (dest env cfg ot name) md) (dest env cfg ot name) = some (.file md) := by rw [FS.write, if_pos rfl]
        rcases List.mem_cons.mp (mem_final (processGo env cfg ot (fs.write (dest env cfg ot name) md) jobs) (fs.write (dest env cfg ot name) md)) with e | e
        · rw [e]; exact hw
        · rcases processGo_states env cfg ot jobs _ _ e (dest env cfg ot name) with h1 | ⟨_, i', name', hm', hp, _⟩
          · rw [h1]; exact hw
          · exact absurd (List.mem_map.mpr ⟨(i', name'), hm', hp.symm⟩) hnd.1
      · obtain ⟨d, md', h1, h2, h3⟩ := ih _ he' hnd.2 (fun j hj j' hj' => hdis j (List.mem_cons_of_mem _ hj) j' (List.mem_cons_of_mem _ hj')) i name hm
        refine ⟨d, md', ?_, h2, h3⟩
        rw [readInput] at h1 ⊢
        cases hd : i.data with
        | some x => rw [hd] at h1; exact h1
        | none =>
          rw [hd] at h1
          have hne : i.path ≠ dest env cfg ot name0 := by
            rcases hdis (i0, name0) (by simp) (i, name) (by simp [hm]) with h | h
            · exact h
            · exact absurd hd h
          dsimp only at h1 ⊢
          rw [FS.write, if_neg hne] at h1
          exact h1

/-- On stdout: nothing is written, everything is printed. -/
theorem processGo_stdout (env : Env) (cfg : Config) : ∀ (jobs : List (Input × Bytes)) (fs : FS),
    (processGo env cfg .stdout fs jobs).states = [] := by
  intro jobs
  induction jobs with
  | nil => intro fs; rfl
  | cons j jobs ih =>
    intro fs
    obtain ⟨i, name⟩ := j
    rcases processGo_cons env cfg .stdout fs i name jobs with ⟨e, h⟩ | ⟨data, md, hr0, hc, ⟨hot', h⟩ | ⟨hot, _⟩⟩
    · rw [h]
    · rw [h]; exact ih fs
    · exact absurd rfl hot

/-- To files: nothing is printed. -/
theorem processGo_prints (env : Env) (cfg : Config) (ot : OutputType) (hot : ot ≠ .stdout) : ∀ (jobs : List (Input × Bytes)) (fs : FS),
    (processGo env cfg ot fs jobs).stdout = [] := by
  intro jobs
  induction jobs with
  | nil => intro fs; rfl
  | cons j jobs ih =>
    intro fs
    obtain ⟨i, name⟩ := j
    rcases processGo_cons env cfg ot fs i name jobs with ⟨e, h⟩ | ⟨data, md, hr0, hc, ⟨hot', h⟩ | ⟨_, hno, n, hn, ⟨e, h⟩ | h⟩⟩
    · rw [h]
    · exact absurd hot' hot
    · rw [h]
    · rw [h]; exact ih _

/-! ## Names of the output files -/

theorem outputNamesGo_length (env : Env) (gb : Bytes) : ∀ (paths : List Bytes) (seen : List Bytes) (names : List Bytes),
    outputNamesGo env gb seen paths = some names → names.length = paths.length := by
  intro paths
  induction paths with
  | nil => intro seen names h; simp only [outputNamesGo, Option.some.injEq] at h; subst h; rfl
  | cons p ps ih =>
    intro seen names h
    rw [outputNamesGo] at h
    split at h
    · obtain ⟨ns, hns, rfl⟩ := Option.map_eq_some_iff.mp h
      simp [ih _ _ hns]
    · obtain ⟨r, _, h⟩ := Option.bind_eq_some_iff.mp h
      obtain ⟨ns, hns, rfl⟩ := Option.map_eq_some_iff.mp h
      simp [ih _ _ hns]

/-- The name of a file without its directory and its extension. -/
abbrev stem (p : Bytes) : Bytes := withoutExt (base p)

/-- Every name is the stem, which did not occur before, or the stem and the hash. -/
theorem outputNamesGo_mem (env : Env) (gb : Bytes) : ∀ (paths : List Bytes) (seen : List Bytes) (names : List Bytes),
    outputNamesGo env gb seen paths = some names → ∀ n ∈ names,
      (∃ p ∈ paths, stem p ∉ seen ∧ n = stem p ++ b!".md") ∨
      (∃ p ∈ paths, ∃ r, env.rel gb p = some r ∧ n = stem p ++ b!"." ++ env.hash10 r ++ b!".md") := by
  intro paths
  induction paths with
  | nil => intro seen names h; simp only [outputNamesGo, Option.some.injEq] at h; subst h; simp
  | cons p ps ih =>
    intro seen names h n hn
    rw [outputNamesGo] at h
    have lift : ∀ ns, outputNamesGo env gb (stem p :: seen) ps = some ns → n ∈ ns → _ := fun ns hns hn => ih _ _ hns n hn
    have up : ((∃ q ∈ ps, stem q ∉ stem p :: seen ∧ n = stem q ++ b!".md") ∨
      (∃ q ∈ ps, ∃ r, env.rel gb q = some r ∧ n = stem q ++ b!"." ++ env.hash10 r ++ b!".md")) →
      ((∃ q ∈ p :: ps, stem q ∉ seen ∧ n = stem q ++ b!".md") ∨
      (∃ q ∈ p :: ps, ∃ r, env.rel gb q = some r ∧ n = stem q ++ b!"." ++ env.hash10 r ++ b!".md")) := by
      rintro (⟨q, hq, h1, h2⟩ | ⟨q, hq, h1⟩)
      · exact .inl ⟨q, List.mem_cons_of_mem _ hq, fun h => h1 (List.mem_cons_of_mem _ h), h2⟩
      · exact .inr ⟨q, List.mem_cons_of_mem _ hq, h1⟩
    split at h
    · rename_i hc
      obtain ⟨ns, hns, rfl⟩ := Option.map_eq_some_iff.mp h
      rcases List.mem_cons.mp hn with rfl | hn
      · exact .inl ⟨p, by simp, List.count_eq_zero.mp hc, rfl⟩
      · exact up (lift ns hns hn)
    · obtain ⟨r, hr, h⟩ := Option.bind_eq_some_iff.mp h
      obtain ⟨ns, hns, rfl⟩ := Option.map_eq_some_iff.mp h
      rcases List.mem_cons.mp hn with rfl | hn
      · exact .inr ⟨p, by simp, r, hr, rfl⟩
      · exact up (lift ns hns hn)

/-- The names are distinct if the hashes are and no stem looks like a name with a hash. -/
theorem outputNamesGo_nodup (env : Env) (gb : Bytes) (all : List Bytes)
    (hlen : ∀ p ∈ all, ∀ r, env.rel gb p = some r → (env.hash10 r).length = 10)
    (hinj : ∀ p ∈ all, ∀ q ∈ all, ∀ r r', env.rel gb p = some r → env.rel gb q = some r' → env.hash10 r = env.hash10 r' → p = q)
    (hlook : ∀ p ∈ all, ∀ q ∈ all, ∀ r, env.rel gb q = some r → stem p ≠ stem q ++ b!"." ++ env.hash10 r) :
    ∀ (paths : List Bytes), (∀ p ∈ paths, p ∈ all) → paths.Nodup → ∀ (seen : List Bytes) (names : List Bytes),
    outputNamesGo env gb seen paths = some names → names.Nodup := by
  intro paths
  induction paths with
  | nil => intro _ _ seen names h; simp only [outputNamesGo, Option.some.injEq] at h; subst h; simp
  | cons p ps ih =>
    intro hsub hnd seen names h
    have hp := hsub p (by simp)
    have hps : ∀ q ∈ ps, q ∈ all := fun q hq => hsub q (List.mem_cons_of_mem _ hq)
    rw [List.nodup_cons] at hnd
    rw [outputNamesGo] at h
    split at h
    · obtain ⟨ns, hns, rfl⟩ := Option.map_eq_some_iff.mp h
      rw [List.nodup_cons]
      refine ⟨fun hm => ?_, ih hps hnd.2 _ _ hns⟩
      rcases outputNamesGo_mem env gb ps _ _ hns _ hm with ⟨q, hq, h1, h2⟩ | ⟨q, hq, r, hr, h2⟩
      · have := List.append_cancel_right h2
        exact h1 (by rw [← this]; simp)
      · have := List.append_cancel_right h2
        exact hlook p hp q (hps q hq) r hr this
    · obtain ⟨r, hr, h⟩ := Option.bind_eq_some_iff.mp h
      obtain ⟨ns, hns, rfl⟩ := Option.map_eq_some_iff.mp h
      rw [List.nodup_cons]
      refine ⟨fun hm => ?_, ih hps hnd.2 _ _ hns⟩
      rcases outputNamesGo_mem env gb ps _ _ hns _ hm with ⟨q, hq, h1, h2⟩ | ⟨q, hq, r', hr', h2⟩
      · have := List.append_cancel_right h2
        exact hlook q (hps q hq) p hp r hr this.symm
      · have := List.append_cancel_right h2
        have := (List.append_inj_right' this (by rw [hlen p hp r hr, hlen q (hps q hq) r' hr']))
        have := hinj p hp q (hps q hq) r r' hr hr' this
        exact hnd.1 (this ▸ hq)

end Verif.Cli
